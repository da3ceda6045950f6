import Verif.SdlText.Lemmas

/-! # Reading what is written: values, directives and selections -/
namespace Verif.SdlText

mutual
/-- What the text of a value is read as. -/
def misread : Value → Value
  | .str s => .str (s.map misChar)
  | .float d => if d.frac = [] then .int (if d.neg then - (d.whole : Int) else d.whole) else .float d
  | .list vs => .list (misreadList vs)
  | .object fs => .object (misreadFields fs)
  | v => v
def misreadList : List Value → List Value
  | [] => []
  | v :: vs => misread v :: misreadList vs
def misreadFields : List (Text × Value) → List (Text × Value)
  | [] => []
  | (k, v) :: fs => (k, misread v) :: misreadFields fs
end

mutual
/-- The tokens of a value. -/
def toks : Value → List Token
  | .null => [.name nullText]
  | .str s => [.str (s.map misChar)]
  | .int i => [.int i]
  | .float d => [decToken d]
  | .bool true => [.name trueText]
  | .bool false => [.name falseText]
  | .enum n => [.name n]
  | .list vs => .punct '[' :: toksList vs ++ [.punct ']']
  | .object fs => .punct '{' :: toksFields fs ++ [.punct '}']
def toksList : List Value → List Token
  | [] => []
  | v :: vs => toks v ++ toksList vs
def toksFields : List (Text × Value) → List Token
  | [] => []
  | (k, v) :: fs => .name k :: .punct ':' :: toks v ++ toksFields fs
end

/-- The styles of both writers. -/
def Style.Ok (st : Style) : Prop := st = composed ∨ st = engine

theorem Style.Ok.comma {st : Style} (h : st.Ok) {r : Text} {ts : List Token} (hl : Lexes r ts) : Lexes (st.comma ++ r) ts := by
  rcases h with rfl | rfl
  · exact (hl.ignored (c := ' ') (by decide)).ignored (c := ',') (by decide)
  · exact hl.ignored (c := ',') (by decide)

theorem Style.Ok.comma_sep {st : Style} (h : st.Ok) (r : Text) : sep (st.comma ++ r) = true := by
  rcases h with rfl | rfl
  · exact (by decide : (!isNameChar ',' && ',' != '.' && ',' != '"') = true)
  · exact (by decide : (!isNameChar ',' && ',' != '.' && ',' != '"') = true)

theorem Style.Ok.colon {st : Style} (h : st.Ok) {r : Text} {ts : List Token} (hl : Lexes r ts) :
    Lexes (st.colon ++ r) (.punct ':' :: ts) := by
  rcases h with rfl | rfl
  · exact (hl.ignored (c := ' ') (by decide)).punct (c := ':') (by decide)
  · exact hl.punct (c := ':') (by decide)

theorem Style.Ok.colon_sep {st : Style} (h : st.Ok) (r : Text) : sep (st.colon ++ r) = true := by
  rcases h with rfl | rfl
  · exact (by decide : (!isNameChar ':' && ':' != '.' && ':' != '"') = true)
  · exact (by decide : (!isNameChar ':' && ':' != '.' && ':' != '"') = true)

theorem nullText_name : IsName nullText := ⟨'n', ['u', 'l', 'l'], rfl, by decide, by decide⟩
theorem trueText_name : IsName trueText := ⟨'t', ['r', 'u', 'e'], rfl, by decide, by decide⟩
theorem falseText_name : IsName falseText := ⟨'f', ['a', 'l', 's', 'e'], rfl, by decide, by decide⟩

theorem sep_of {c : Char} (h : (!isNameChar c && c != '.' && c != '"') = true) (r : Text) : sep (c :: r) = true := h

mutual
theorem lexes_value {st : Style} (hst : st.Ok) : ∀ (v : Value), v.Ok → ∀ (r : Text) (ts : List Token), sep r = true → Lexes r ts →
    Lexes (display st v ++ r) (toks v ++ ts)
  | .null, _, r, ts, hr, hl => Lexes.name nullText_name hr hl
  | .str s, _, r, ts, hr, hl => Lexes.quote hr hl
  | .int i, _, r, ts, hr, hl => Lexes.int hr hl
  | .float d, hv, r, ts, hr, hl => Lexes.dec hv hr hl
  | .bool true, _, r, ts, hr, hl => Lexes.name trueText_name hr hl
  | .bool false, _, r, ts, hr, hl => Lexes.name falseText_name hr hl
  | .enum n, hv, r, ts, hr, hl => Lexes.name hv.1 hr hl
  | .list vs, hv, r, ts, hr, hl => by
    have h1 := Lexes.punct (c := ']') (by decide) hl
    have h2 := lexes_list hst vs hv (']' :: r) _ (sep_of (by decide) r) h1
    have h3 := Lexes.punct (c := '[') (by decide) h2
    simpa [display, toks] using h3
  | .object fs, hv, r, ts, hr, hl => by
    have h1 := Lexes.punct (c := '}') (by decide) hl
    have h2 := lexes_fields hst fs hv ('}' :: r) _ (sep_of (by decide) r) h1
    have h3 := Lexes.punct (c := '{') (by decide) h2
    simpa [display, toks] using h3
theorem lexes_list {st : Style} (hst : st.Ok) : ∀ (vs : List Value), OkList vs → ∀ (r : Text) (ts : List Token), sep r = true →
    Lexes r ts → Lexes (displayList st vs ++ r) (toksList vs ++ ts)
  | [], _, r, ts, hr, hl => hl
  | [v], hv, r, ts, hr, hl => by
    have := lexes_value hst v hv.1 r ts hr hl
    simpa [displayList, toksList] using this
  | v :: w :: vs, hv, r, ts, hr, hl => by
    have h1 := lexes_list hst (w :: vs) hv.2 r ts hr hl
    have h2 := lexes_value hst v hv.1 _ _ (hst.comma_sep _) (hst.comma h1)
    rw [displayList, toksList]
    simpa using h2
theorem lexes_fields {st : Style} (hst : st.Ok) : ∀ (fs : List (Text × Value)), OkFields fs → ∀ (r : Text) (ts : List Token),
    sep r = true → Lexes r ts → Lexes (displayFields st fs ++ r) (toksFields fs ++ ts)
  | [], _, r, ts, hr, hl => hl
  | [(k, v)], hv, r, ts, hr, hl => by
    have h1 := lexes_value hst v hv.2.1 r ts hr hl
    have h2 := Lexes.name hv.1 (hst.colon_sep _) (hst.colon h1)
    simpa [displayFields, toksFields] using h2
  | (k, v) :: w :: fs, hv, r, ts, hr, hl => by
    have h0 := lexes_fields hst (w :: fs) hv.2.2 r ts hr hl
    have h1 := lexes_value hst v hv.2.1 _ _ (hst.comma_sep _) (hst.comma h0)
    have h2 := Lexes.name hv.1 (hst.colon_sep _) (hst.colon h1)
    rw [displayFields, toksFields]
    simpa using h2
end

theorem toks_head : ∀ (v : Value), ∃ t ts, toks v = t :: ts ∧ ∀ c, t = .punct c → c = '[' ∨ c = '{'
  | .null => ⟨_, _, rfl, by intro c h; cases h⟩
  | .str _ => ⟨_, _, rfl, by intro c h; cases h⟩
  | .int _ => ⟨_, _, rfl, by intro c h; cases h⟩
  | .float d => ⟨decToken d, [], rfl, by intro c h; unfold decToken at h; split at h <;> cases h⟩
  | .bool true => ⟨_, _, rfl, by intro c h; cases h⟩
  | .bool false => ⟨_, _, rfl, by intro c h; cases h⟩
  | .enum _ => ⟨_, _, rfl, by intro c h; cases h⟩
  | .list _ => ⟨_, _, rfl, by intro c h; cases h; exact Or.inl rfl⟩
  | .object _ => ⟨_, _, rfl, by intro c h; cases h; exact Or.inr rfl⟩

theorem ofName_enum {n : Text} (h : n ≠ nullText ∧ n ≠ trueText ∧ n ≠ falseText) : ofName n = .enum n := by
  simp [ofName, h.1, h.2.1, h.2.2]

mutual
theorem parse_value : ∀ (v : Value), v.Ok → ∀ (f : Nat) (ts : List Token), (toks v).length < f →
    parseValue f (toks v ++ ts) = some (misread v, ts)
  | .null, _, f + 1, ts, _ => rfl
  | .str s, _, f + 1, ts, _ => rfl
  | .int i, _, f + 1, ts, _ => rfl
  | .float d, _, f + 1, ts, _ => by
    simp only [toks, decToken, misread]
    by_cases h : d.frac = []
    · simp [h, parseValue]
    · simp [h, parseValue]
  | .bool true, _, f + 1, ts, _ => rfl
  | .bool false, _, f + 1, ts, _ => rfl
  | .enum n, hv, f + 1, ts, _ => by
    simp [toks, parseValue, misread, ofName_enum hv.2]
  | .list vs, hv, f + 1, ts, hf => by
    simp only [toks, List.length_append, List.length_cons, List.length_nil] at hf
    have := parse_items vs hv f ts (by omega)
    simp [toks, parseValue, misread, this]
  | .object fs, hv, f + 1, ts, hf => by
    simp only [toks, List.length_append, List.length_cons, List.length_nil] at hf
    have := parse_fields fs hv f '}' ts (by omega)
    simp [toks, parseValue, misread, this]
theorem parse_items : ∀ (vs : List Value), OkList vs → ∀ (f : Nat) (ts : List Token), (toksList vs).length + 1 < f →
    parseItems f (toksList vs ++ .punct ']' :: ts) = some (misreadList vs, ts)
  | [], _, f + 1, ts, _ => rfl
  | v :: vs, hv, f + 1, ts, hf => by
    obtain ⟨t, us, ht, hne⟩ := toks_head v
    have hlen : (toks v).length + (toksList vs).length + 1 < f + 1 := by simpa [toksList] using hf
    have hpos : 0 < (toks v).length := by rw [ht]; simp
    rw [toksList, List.append_assoc]
    have h1 := parse_items vs hv.2 f ts (by omega)
    by_cases hlast : (toks v).length < f
    · have h2 := parse_value v hv.1 f (toksList vs ++ .punct ']' :: ts) hlast
      unfold parseItems
      split
      · rename_i r hr
        rw [ht] at hr
        simp only [List.cons_append, List.cons.injEq] at hr
        rcases hne _ hr.1 with h | h <;> exact absurd h (by decide)
      · rw [h2]
        simp only [h1]
        rfl
    · exfalso
      omega
theorem parse_fields : ∀ (fs : List (Text × Value)), OkFields fs → ∀ (f : Nat) (close : Char) (ts : List Token),
    (toksFields fs).length < f → parseFields f close (toksFields fs ++ .punct close :: ts) = some (misreadFields fs, ts)
  | [], _, f + 1, close, ts, _ => by simp [toksFields, parseFields, misreadFields]
  | (k, v) :: fs, hv, f + 1, close, ts, hf => by
    have hlen : (toks v).length + (toksFields fs).length + 2 < f + 1 := by
      simp only [toksFields, List.length_append, List.length_cons] at hf
      omega
    have h1 := parse_fields fs hv.2.2 f close ts (by omega)
    have h2 := parse_value v hv.2.1 f (toksFields fs ++ .punct close :: ts) (by omega)
    rw [toksFields]
    simp only [List.cons_append, List.append_assoc]
    unfold parseFields
    simp [h1, h2, misreadFields]
end

/-! ## What is read is what was written -/

mutual
theorem misread_iff : ∀ (v : Value), misread v = v ↔ v.Faithful
  | .null => by simp [misread, Value.Faithful]
  | .str s => by simp [misread, Value.Faithful, map_misChar_iff]
  | .int _ => by simp [misread, Value.Faithful]
  | .float d => by
    simp only [misread, Value.Faithful]
    by_cases h : d.frac = [] <;> simp [h]
  | .bool _ => by simp [misread, Value.Faithful]
  | .enum _ => by simp [misread, Value.Faithful]
  | .list vs => by simp [misread, Value.Faithful, misreadList_iff vs]
  | .object fs => by simp [misread, Value.Faithful, misreadFields_iff fs]
theorem misreadList_iff : ∀ (vs : List Value), misreadList vs = vs ↔ FaithfulList vs
  | [] => by simp [misreadList, FaithfulList]
  | v :: vs => by simp [misreadList, FaithfulList, misread_iff v, misreadList_iff vs]
theorem misreadFields_iff : ∀ (fs : List (Text × Value)), misreadFields fs = fs ↔ FaithfulFields fs
  | [] => by simp [misreadFields, FaithfulFields]
  | (k, v) :: fs => by simp [misreadFields, FaithfulFields, misread_iff v, misreadFields_iff fs]
end

theorem readValue_display {st : Style} (hst : st.Ok) (v : Value) (hv : v.Ok) : readValue (display st v) = some (misread v) := by
  have h1 := (lexes_value hst v hv [] [] rfl (.done rfl)).lex
  simp only [List.append_nil] at h1
  have h2 := parse_value v hv ((toks v).length + 1) [] (by omega)
  simp only [List.append_nil] at h2
  simp [readValue, h1, h2]

/-! ## Directives -/

def toksArgs (args : List (Text × Value)) : List Token :=
  if args.isEmpty then [] else .punct '(' :: toksFields args ++ [.punct ')']

theorem lexes_args (args : List (Text × Value)) (ha : OkFields args) {r : Text} {ts : List Token} (hl : Lexes r ts) :
    Lexes (displayArgs args ++ r) (toksArgs args ++ ts) := by
  unfold displayArgs toksArgs
  cases args with
  | nil => exact hl
  | cons a args =>
    have h1 := Lexes.punct (c := ')') (by decide) hl
    have h2 := lexes_fields (Or.inl rfl) (a :: args) ha _ _ (sep_of (by decide) r) h1
    have h3 := Lexes.punct (c := '(') (by decide) h2
    simpa using h3

theorem sep_args (args : List (Text × Value)) {r : Text} (hr : sep r = true) : sep (displayArgs args ++ r) = true := by
  unfold displayArgs
  cases args with
  | nil => exact hr
  | cons a args => exact sep_of (c := '(') (by decide) _

theorem parse_args (args : List (Text × Value)) (ha : OkFields args) (f : Nat) (ts : List Token) (hf : (toksArgs args).length < f)
    (hts : ∀ r, ts ≠ .punct '(' :: r) : parseArgs f (toksArgs args ++ ts) = some (misreadFields args, ts) := by
  cases args with
  | nil =>
    simp only [toksArgs, List.isEmpty_nil, if_true, List.nil_append, misreadFields, parseArgs]
  | cons a args =>
    obtain ⟨k, v⟩ := a
    simp only [toksArgs, List.isEmpty_cons, Bool.false_eq_true, if_false, List.length_append, List.length_cons,
      List.length_nil] at hf
    have := parse_fields ((k, v) :: args) ha f ')' ts (by omega)
    simp only [toksArgs, List.isEmpty_cons, Bool.false_eq_true, if_false, List.cons_append, List.append_assoc, List.nil_append,
      parseArgs, this, misreadFields]

theorem readDirective_directive {n : Text} {args : List (Text × Value)} (hn : IsName n) (ha : OkFields args) :
    readDirective (directive n args) = some (n, misreadFields args) := by
  have h1 := lexes_args args ha (r := []) (ts := []) (.done rfl)
  have h2 := (Lexes.punct (c := '@') (by decide) (Lexes.name hn (sep_args args (r := []) rfl) h1)).lex
  have h3 := parse_args args ha ((toksArgs args).length + 1) [] (by omega) (by intro r h; cases h)
  simp only [List.append_nil] at h2 h3
  simp only [readDirective, directive, List.cons_append, h2, h3]

/-! ## Selections -/

mutual
def toksSel : Sel → List Token
  | .field n args sub =>
    .name n :: toksArgs args ++ (if sub.isEmpty then [] else .punct '{' :: toksSels sub ++ [.punct '}'])
  | .fragment on sub => .dots :: .name ['o', 'n'] :: .name on :: .punct '{' :: toksSels sub ++ [.punct '}']
  | .typename => [.name typenameText]
def toksSels : List Sel → List Token
  | [] => []
  | s :: ss => toksSel s ++ toksSels ss
end

theorem Lexes.dots {r : Text} {ts : List Token} (h : Lexes r ts) : Lexes ('.' :: '.' :: '.' :: r) (.dots :: ts) := by
  refine .tok (r := r) ?_ h
  rw [skip_starts (by constructor <;> decide)]
  have h1 : isPunct '.' = false := by decide
  have h2 : isLetter '.' = false := by decide
  have h3 : isDigit '.' = false := by decide
  have h4 : ('.' : Char) ≠ '-' := by decide
  have h5 : ('.' : Char) ≠ '"' := by decide
  simp [lexToken, h1, h2, h3, h4, h5]

theorem typename_name : IsName typenameText :=
  ⟨'_', ['_', 't', 'y', 'p', 'e', 'n', 'a', 'm', 'e'], rfl, by decide, by decide⟩

mutual
theorem lexes_sel : ∀ (s : Sel), s.Ok → ∀ (r : Text) (ts : List Token), sep r = true → Lexes r ts →
    Lexes (displaySel s ++ r) (toksSel s ++ ts)
  | .field n args sub, hs, r, ts, hr, hl => by
    obtain ⟨h1, _, h3, _, h5⟩ := hs
    cases sub with
    | nil =>
      have := Lexes.name h1 (sep_args args hr) (lexes_args args h3 hl)
      simpa [displaySel, toksSel] using this
    | cons x xs =>
      have e1 := (Lexes.punct (c := '}') (by decide) hl).ignored (c := ' ') (by decide)
      have e2 := lexes_sels (x :: xs) h5 (' ' :: '}' :: r) _ (sep_of (by decide) _) e1
      have e3 := ((e2.ignored (c := ' ') (by decide)).punct (c := '{') (by decide)).ignored (c := ' ') (by decide)
      have e4 := Lexes.name h1 (sep_args args (sep_of (by decide) _)) (lexes_args args h3 e3)
      rw [displaySel, toksSel]
      simpa using e4
  | .fragment on sub, hs, r, ts, hr, hl => by
    obtain ⟨h1, _, h3⟩ := hs
    have e1 := (Lexes.punct (c := '}') (by decide) hl).ignored (c := ' ') (by decide)
    have e2 := lexes_sels sub h3 (' ' :: '}' :: r) _ (sep_of (by decide) _) e1
    have e3 := ((e2.ignored (c := ' ') (by decide)).punct (c := '{') (by decide)).ignored (c := ' ') (by decide)
    have e4 := (Lexes.name h1 (sep_of (by decide) _) e3).ignored (c := ' ') (by decide)
    have e5 := Lexes.name (n := ['o', 'n']) ⟨'o', ['n'], rfl, by decide, by decide⟩ (sep_of (by decide) _) e4
    have e6 := (e5.ignored (c := ' ') (by decide)).dots
    rw [displaySel, toksSel]
    simpa [dotsOn] using e6
  | .typename, _, r, ts, hr, hl => Lexes.name typename_name hr hl
theorem lexes_sels : ∀ (ss : List Sel), OkSels ss → ∀ (r : Text) (ts : List Token), sep r = true → Lexes r ts →
    Lexes (displaySels ss ++ r) (toksSels ss ++ ts)
  | [], _, r, ts, hr, hl => hl
  | [s], hs, r, ts, hr, hl => by
    have := lexes_sel s hs.1 r ts hr hl
    simpa [displaySels, toksSels] using this
  | s :: x :: ss, hs, r, ts, hr, hl => by
    have h1 := lexes_sels (x :: ss) hs.2 r ts hr hl
    have h2 := lexes_sel s hs.1 _ _ (sep_of (c := ' ') (by decide) _) (h1.ignored (c := ' ') (by decide))
    rw [displaySels, toksSels]
    simpa using h2
end

/-- Where a set of selections ends. -/
def Closes (ts : List Token) : Prop := ts = [] ∨ ∃ r, ts = .punct '}' :: r

theorem parseSels_closes {ts : List Token} (h : Closes ts) (f : Nat) : parseSels (f + 1) ts = some ([], ts) := by
  rcases h with rfl | ⟨r, rfl⟩ <;> rfl

theorem toksSels_head (ss : List Sel) (ts : List Token) (h : Closes ts) :
    (∀ r, toksSels ss ++ ts ≠ .punct '(' :: r) ∧ (∀ r, toksSels ss ++ ts ≠ .punct '{' :: r) := by
  cases ss with
  | nil => rcases h with rfl | ⟨r, rfl⟩ <;> simp [toksSels]
  | cons s ss => cases s <;> simp [toksSels, toksSel]

mutual
theorem parse_sel : ∀ (s : Sel), s.Ok → ∀ (ss : List Sel) (f : Nat) (ts : List Token), Closes ts → (toksSel s).length ≤ f →
    parseSels f (toksSels ss ++ ts) = some (ss, ts) →
    parseSels (f + 1) (toksSel s ++ (toksSels ss ++ ts)) = some (s :: ss, ts)
  | .field n args [], hs, ss, f, ts, hc, hf, hrest => by
    obtain ⟨h1, h2, h3, h4, h5⟩ := hs
    have hh := toksSels_head ss ts hc
    have hlen : (toksArgs args).length < f := by
      simp only [toksSel, List.isEmpty_nil, if_true, List.append_nil, List.length_cons] at hf
      omega
    have ha := parse_args args h3 f (toksSels ss ++ ts) hlen hh.1
    rw [(misreadFields_iff args).mpr h4] at ha
    simp only [toksSel, List.isEmpty_nil, if_true, List.append_nil, List.cons_append]
    unfold parseSels
    simp only [ha]
    split
    · rename_i r hr
      exact absurd hr (hh.2 r)
    · simp [hrest, h2]
  | .field n args (x :: xs), hs, ss, f, ts, hc, hf, hrest => by
    obtain ⟨h1, h2, h3, h4, h5⟩ := hs
    simp only [toksSel, List.isEmpty_cons, Bool.false_eq_true, if_false, List.length_append, List.length_cons, List.length_nil] at hf
    have ha := parse_args args h3 f (.punct '{' :: (toksSels (x :: xs) ++ .punct '}' :: (toksSels ss ++ ts))) (by omega)
      (by intro r h; injection h with h; injection h with h; exact absurd h (by decide))
    rw [(misreadFields_iff args).mpr h4] at ha
    have hsub := parse_sels (x :: xs) h5 f (.punct '}' :: (toksSels ss ++ ts)) (Or.inr ⟨_, rfl⟩) (by omega)
    simp only [toksSel, List.isEmpty_cons, Bool.false_eq_true, if_false, List.cons_append, List.append_assoc, List.nil_append]
    unfold parseSels
    simp only [ha, hsub, hrest]
  | .fragment on sub, hs, ss, f, ts, hc, hf, hrest => by
    obtain ⟨h1, h2, h3⟩ := hs
    simp only [toksSel, List.length_append, List.length_cons, List.length_nil] at hf
    have hsub := parse_sels sub h3 f (.punct '}' :: (toksSels ss ++ ts)) (Or.inr ⟨_, rfl⟩) (by omega)
    cases sub with
    | nil => exact absurd rfl h2
    | cons x xs =>
      simp only [toksSel, List.cons_append, List.append_assoc, List.nil_append]
      unfold parseSels
      simp only [if_true, hsub, hrest]
  | .typename, hs, ss, f, ts, hc, hf, hrest => by
    have hh := toksSels_head ss ts hc
    have ha := parse_args [] trivial f (toksSels ss ++ ts) (by simp only [toksSel, List.length_cons, List.length_nil] at hf; simp [toksArgs]; omega) hh.1
    simp only [toksArgs, List.isEmpty_nil, if_true, List.nil_append, misreadFields] at ha
    simp only [toksSel, List.cons_append, List.nil_append]
    unfold parseSels
    simp only [ha]
    split
    · rename_i r hr
      exact absurd hr (hh.2 r)
    · simp [hrest]
theorem parse_sels : ∀ (ss : List Sel), OkSels ss → ∀ (f : Nat) (ts : List Token), Closes ts → (toksSels ss).length < f →
    parseSels f (toksSels ss ++ ts) = some (ss, ts)
  | [], _, f + 1, ts, hc, _ => parseSels_closes hc f
  | s :: ss, hs, f + 1, ts, hc, hf => by
    have hpos : 0 < (toksSel s).length := by cases s <;> simp [toksSel]
    simp only [toksSels, List.length_append] at hf
    rw [toksSels, List.append_assoc]
    refine parse_sel s hs.1 ss f ts hc ?_ (parse_sels ss hs.2 f ts hc (by omega))
    omega
end

end Verif.SdlText
