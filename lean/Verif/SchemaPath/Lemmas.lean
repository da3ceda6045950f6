import Verif.SchemaPath.Model
namespace Verif.SchemaPath

/-- A GraphQL name: not empty, letters, digits and underscores, no digit first. -/
def Name (s : Str) : Prop :=
  (∃ c t, s = c :: t ∧ (c.isAlpha ∨ c = '_')) ∧ ∀ c ∈ s, c.isAlphanum ∨ c = '_'

def InField.Valid : InField → Prop
  | .argument n => Name n
  | .directive n i => Name n ∧ i < 2 ^ 64

def InType.Valid : InType → Prop
  | .field n none => Name n
  | .field n (some f) => Name n ∧ f.Valid
  | .directive n i => Name n ∧ i < 2 ^ 64
  | .interface n => Name n

def Path.Valid : Path → Prop
  | .schema => True
  | .schemaExt i => i < 2 ^ 64
  | .type n none => Name n
  | .type n (some t) => Name n ∧ t.Valid
  | .typeExt n i none => Name n ∧ i < 2 ^ 64
  | .typeExt n i (some t) => Name n ∧ i < 2 ^ 64 ∧ t.Valid
  | .directiveDef n => Name n

theorem isAlpha_eq (c : Char) : isAlpha c = c.isAlpha := by
  unfold isAlpha Char.isAlpha Char.isUpper Char.isLower
  rw [Bool.eq_iff_iff]
  simp only [Bool.or_eq_true, Bool.and_eq_true, decide_eq_true_eq, ge_iff_le, UInt32.le_iff_toNat_le, Char.toNat]
  constructor
  · rintro (h | h)
    · exact Or.inr h
    · exact Or.inl h
  · rintro (h | h)
    · exact Or.inr h
    · exact Or.inl h

theorem isDigit_eq (c : Char) : isDigit c = c.isDigit := by
  unfold isDigit Char.isDigit
  rw [Bool.eq_iff_iff]
  simp only [Bool.and_eq_true, decide_eq_true_eq, ge_iff_le, UInt32.le_iff_toNat_le, Char.toNat]
  exact Iff.rfl

theorem validName_iff (s : Str) : validName s = true ↔ Name s := by
  cases s with
  | nil => simp [validName, Name]
  | cons c t =>
    unfold validName Name
    simp only [isAlpha_eq, isDigit_eq, Bool.and_eq_true, Bool.or_eq_true, beq_iff_eq, List.all_eq_true,
      List.mem_cons, forall_eq_or_imp, Char.isAlphanum]
    constructor
    · rintro ⟨h, h'⟩
      exact ⟨⟨c, t, rfl, h⟩, h.imp (Or.inl) id, h'⟩
    · rintro ⟨⟨a, b, e, h⟩, -, h'⟩
      cases e
      exact ⟨h, h'⟩

/-- What the characters of a name are not. -/
theorem name_char {s : Str} (h : Name s) {c : Char} (hc : c ∈ s) :
    c.toNat < 128 ∧ c ≠ '.' ∧ c ≠ '[' ∧ c ≠ '@' ∧ c ≠ '&' ∧ c ≠ ':' := by
  have := h.2 c hc
  simp only [Char.isAlphanum, Bool.or_eq_true, ← isAlpha_eq, ← isDigit_eq, isAlpha, isDigit, Bool.and_eq_true,
    decide_eq_true_eq] at this
  refine ⟨?_, ?_, ?_, ?_, ?_, ?_⟩
  · rcases this with ((h | h) | h) | rfl
    · omega
    · omega
    · omega
    · decide
  all_goals
    rintro rfl
    revert this
    decide

theorem name_ne {s : Str} (h : Name s) : s ≠ [] := by
  obtain ⟨c, t, rfl, -⟩ := h.1; simp

theorem utf8_ascii {c : Char} (h : c.toNat < 128) : c.utf8Size = 1 := by
  unfold Char.utf8Size
  rw [if_pos]
  rw [UInt32.le_iff_toNat_le]
  have : c.val.toNat = c.toNat := rfl
  rw [this]
  simp
  omega

theorem take_ascii {a : Str} (h : ∀ c ∈ a, c.toNat < 128) (b : Str) :
    takeBytes a.length (a ++ b) = some a ∧ dropBytes a.length (a ++ b) = some b := by
  induction a with
  | nil => cases b <;> exact ⟨rfl, rfl⟩
  | cons c t ih =>
    obtain ⟨h1, h2⟩ := ih fun x hx => h x (by simp [hx])
    have hc := utf8_ascii (h c (by simp))
    simp only [List.length_cons, List.cons_append, takeBytes, dropBytes, hc]
    simp [h1, h2]

theorem splitDot_plain {a : Str} (h : '.' ∉ a) : splitDot a = [a] := by
  induction a with
  | nil => rfl
  | cons c t ih =>
    have hc : c ≠ '.' := fun e => h (by simp [e])
    rw [splitDot, if_neg hc, ih fun hm => h (by simp [hm])]

theorem splitDot_append {a : Str} (h : '.' ∉ a) (b : Str) : splitDot (a ++ '.' :: b) = a :: splitDot b := by
  induction a with
  | nil => simp [splitDot]
  | cons c t ih =>
    have hc : c ≠ '.' := fun e => h (by simp [e])
    rw [List.cons_append, splitDot, if_neg hc, ih fun hm => h (by simp [hm])]

theorem digitChar_toNat {n : Nat} (h : n < 10) : (digitChar n).toNat = 48 + n := by
  have : ∀ n < 10, (digitChar n).toNat = 48 + n := by decide
  exact this n h

theorem digitsVal_append (acc : Nat) (a b : Str) :
    digitsVal acc (a ++ b) = (digitsVal acc a).bind fun n => digitsVal n b := by
  induction a generalizing acc with
  | nil => rfl
  | cons c t ih =>
    rw [List.cons_append, digitsVal, digitsVal]
    split
    · exact ih _
    · rfl

theorem isDigit_digitChar {n : Nat} (h : n < 10) : isDigit (digitChar n) = true := by
  have : ∀ n < 10, isDigit (digitChar n) = true := by decide
  exact this n h

theorem digits_spec (n : Nat) :
    digitsVal 0 (digits n) = some n ∧ digits n ≠ [] ∧ ∀ c ∈ digits n, isDigit c = true := by
  fun_induction digits n with
  | case1 n h =>
    refine ⟨?_, by simp, ?_⟩
    · simp [digitsVal, isDigit_digitChar h, digitChar_toNat h]
    · intro c hc
      simp only [List.mem_singleton] at hc
      rw [hc]; exact isDigit_digitChar h
  | case2 n h ih =>
    obtain ⟨h1, h2, h3⟩ := ih
    have hlt : n % 10 < 10 := Nat.mod_lt _ (by omega)
    refine ⟨?_, by simp, ?_⟩
    · rw [digitsVal_append, h1]
      simp only [Option.bind_some, digitsVal, isDigit_digitChar hlt, if_true, digitChar_toNat hlt]
      congr 1
      omega
    · intro c hc
      rcases List.mem_append.1 hc with hc | hc
      · exact h3 c hc
      · simp only [List.mem_singleton] at hc
        rw [hc]; exact isDigit_digitChar hlt

theorem digit_char {c : Char} (h : isDigit c = true) : c.toNat < 128 ∧ c ≠ '.' ∧ c ≠ '+' ∧ c ≠ '[' := by
  have h' := h
  simp only [isDigit, Bool.and_eq_true, decide_eq_true_eq] at h'
  refine ⟨by omega, ?_, ?_, ?_⟩
  all_goals
    rintro rfl
    revert h
    decide

theorem stripPrefix_ne {p : Char} {c : Char} {t : Str} (h : c ≠ p) : stripPrefix [p] (c :: t) = none := by
  unfold stripPrefix
  rw [if_neg]
  simp [List.isPrefixOf, h.symm]

theorem stripPrefix_eq (p : Char) (t : Str) : stripPrefix [p] (p :: t) = some t := by
  unfold stripPrefix
  rw [if_pos (by simp [List.isPrefixOf])]
  rfl

theorem parseUsize_digits {n : Nat} (h : n < 2 ^ 64) : parseUsize (digits n) = some n := by
  obtain ⟨h1, h2, h3⟩ := digits_spec n
  unfold parseUsize
  have hs : stripPrefix ['+'] (digits n) = none := by
    cases hd : digits n with
    | nil => exact absurd hd h2
    | cons c t => exact stripPrefix_ne (digit_char (h3 c (by simp [hd]))).2.2.1
  simp only [hs, Option.getD_none, h1, Option.bind_some, if_pos h]
  cases hd : digits n with
  | nil => exact absurd hd h2
  | cons c t => simp

theorem parseIndex_write {n : Nat} (h : n < 2 ^ 64) : parseIndex (writeIndex n) = .ok n := by
  obtain ⟨-, h2, h3⟩ := digits_spec n
  unfold parseIndex writeIndex
  have hl : ('[' :: (digits n ++ [']'])).getLast? = some ']' := by
    rw [← List.cons_append, List.getLast?_concat]
  rw [if_neg (by simp [hl])]
  simp only [List.drop_succ_cons, List.drop_zero, List.dropLast_concat, parseUsize_digits h]
  rw [if_neg]
  simp only [Bool.not_eq_true', Bool.not_eq_false, List.any_eq_true]
  obtain ⟨c, hc⟩ := List.exists_mem_of_ne_nil _ h2
  exact ⟨c, hc, h3 c hc⟩

theorem writeIndex_dot (n : Nat) : '.' ∉ writeIndex n := by
  unfold writeIndex
  intro h
  simp only [List.mem_cons, List.mem_append, List.not_mem_nil, or_false] at h
  rcases h with h | h | h
  · revert h; decide
  · exact (digit_char ((digits_spec n).2.2 _ h)).2.1 rfl
  · revert h; decide

theorem name_dot {s : Str} (h : Name s) : '.' ∉ s := fun hc => (name_char h hc).2.1 rfl

theorem find_bracket {s : Str} (h : Name s) (r : Str) : (s ++ '[' :: r).findIdx? (· = '[') = some s.length := by
  rw [List.findIdx?_append]
  have : s.findIdx? (· = '[') = none := by
    rw [List.findIdx?_eq_none_iff]
    intro c hc
    simpa using (name_char h hc).2.2.1
  rw [this]
  simp [List.findIdx?_cons]

theorem nameIndex_plain {s : Str} (h : Name s) : nameIndex s = .ok (s, none) := by
  unfold nameIndex
  have : s.findIdx? (· = '[') = none := by
    rw [List.findIdx?_eq_none_iff]
    intro c hc
    simpa using (name_char h hc).2.2.1
  rw [this]
  simp [(validName_iff s).2 h]

theorem nameIndex_write {s : Str} (h : Name s) {n : Nat} (hn : n < 2 ^ 64) :
    nameIndex (s ++ writeIndex n) = .ok (s, some n) := by
  unfold nameIndex
  have hw : writeIndex n = '[' :: (digits n ++ [']']) := rfl
  rw [hw, find_bracket h, ← hw]
  obtain ⟨h1, h2⟩ := take_ascii (fun c hc => (name_char h hc).1) (writeIndex n)
  simp only [h1, h2, (validName_iff s).2 h, parseIndex_write hn]
  rfl

theorem strip_name {s : Str} (h : Name s) (r : Str) :
    s ++ r ≠ [] ∧ stripPrefix ['@'] (s ++ r) = none ∧ stripPrefix ['&'] (s ++ r) = none ∧
      stripPrefix schemaLit (s ++ r) = none := by
  obtain ⟨c, t, rfl, -⟩ := h.1
  have hc := name_char h (c := c) (by simp)
  refine ⟨by simp, stripPrefix_ne hc.2.2.2.1, stripPrefix_ne hc.2.2.2.2.1, ?_⟩
  unfold stripPrefix
  rw [if_neg]
  simp [schemaLit, List.isPrefixOf, hc.2.2.2.2.2.symm]

theorem inField_write {f : InField} (h : f.Valid) :
    '.' ∉ f.write ∧ parseInField [f.write] = .ok (some f) := by
  cases f with
  | argument n =>
    have hs := strip_name h []
    simp only [List.append_nil] at hs
    refine ⟨name_dot h, ?_⟩
    simp [parseInField, InField.write, hs.1, hs.2.1, (validName_iff n).2 h]
  | directive n i =>
    obtain ⟨h1, h2⟩ := h
    constructor
    · intro hc
      simp only [InField.write, List.mem_cons, List.mem_append] at hc
      rcases hc with hc | hc | hc
      · revert hc; decide
      · exact name_dot h1 hc
      · exact writeIndex_dot i hc
    · simp [parseInField, InField.write, stripPrefix_eq, nameIndex_write h1 h2, Res.bind]

theorem inType_write {t : InType} (h : t.Valid) :
    parseInType (splitDot t.write) = .ok (some t) := by
  cases t with
  | field n f =>
    cases f with
    | none =>
      have hs := strip_name h []
      simp only [List.append_nil] at hs
      simp [InType.write, splitDot_plain (name_dot h), parseInType, hs.1, hs.2.1, hs.2.2.1, (validName_iff n).2 h,
        parseInField, Res.bind]
    | some f =>
      obtain ⟨h1, h2⟩ := h
      have hs := strip_name h1 []
      simp only [List.append_nil] at hs
      obtain ⟨g1, g2⟩ := inField_write h2
      simp [InType.write, splitDot_append (name_dot h1), splitDot_plain g1, parseInType, hs.1, hs.2.1, hs.2.2.1,
        (validName_iff n).2 h1, g2, Res.bind]
  | directive n i =>
    obtain ⟨h1, h2⟩ := h
    have hd : '.' ∉ (InType.directive n i).write := by
      intro hc
      simp only [InType.write, List.mem_cons, List.mem_append] at hc
      rcases hc with hc | hc | hc
      · revert hc; decide
      · exact name_dot h1 hc
      · exact writeIndex_dot i hc
    rw [splitDot_plain hd]
    simp [parseInType, InType.write, stripPrefix_eq, nameIndex_write h1 h2, Res.bind]
  | interface n =>
    have hd : '.' ∉ (InType.interface n).write := by
      intro hc
      simp only [InType.write, List.mem_cons] at hc
      rcases hc with hc | hc
      · revert hc; decide
      · exact name_dot h hc
    rw [splitDot_plain hd]
    have : stripPrefix ['@'] ('&' :: n) = none := stripPrefix_ne (by decide)
    simp [parseInType, InType.write, this, stripPrefix_eq, (validName_iff n).2 h]

theorem take_of_ascii {i : Nat} {s : Str} (h : ∀ c ∈ s, c.toNat < 128) (hi : i ≤ s.length) :
    takeBytes i s = some (s.take i) ∧ dropBytes i s = some (s.drop i) := by
  have := take_ascii (a := s.take i) (fun c hc => h c (List.mem_of_mem_take hc)) (s.drop i)
  rw [List.take_append_drop, List.length_take, Nat.min_eq_left hi] at this
  exact this

theorem parseIndex_ne_panic (s : Str) : parseIndex s ≠ .panic := by
  unfold parseIndex
  split
  · simp
  · simp only
    split
    · simp
    · split <;> simp

theorem nameIndex_ascii {s : Str} (h : ∀ c ∈ s, c.toNat < 128) : nameIndex s ≠ .panic := by
  unfold nameIndex
  cases hf : s.findIdx? (· = '[') with
  | none => simp only; split <;> simp
  | some i =>
    have hi : i < s.length := (List.findIdx?_eq_some_iff_findIdx_eq.1 hf).1
    obtain ⟨h1, h2⟩ := take_of_ascii h (Nat.le_of_lt hi)
    simp only [h1, h2]
    split
    · simp
    · have := parseIndex_ne_panic (s.drop i)
      cases hp : parseIndex (s.drop i) <;> simp_all [Res.bind]

theorem splitDot_mem {s : Str} : ∀ seg ∈ splitDot s, ∀ c ∈ seg, c ∈ s := by
  induction s with
  | nil => simp [splitDot]
  | cons a t ih =>
    intro seg hs c hc
    unfold splitDot at hs
    split at hs
    · rcases List.mem_cons.1 hs with rfl | hs
      · cases hc
      · exact List.mem_cons_of_mem _ (ih seg hs c hc)
    · split at hs
      · rename_i s' r he
        rcases List.mem_cons.1 hs with rfl | hs
        · rcases List.mem_cons.1 hc with rfl | hc
          · simp
          · exact List.mem_cons_of_mem _ (ih s' (by simp [he]) c hc)
        · exact List.mem_cons_of_mem _ (ih seg (by simp [he, hs]) c hc)
      · simp only [List.mem_singleton] at hs
        subst hs
        simp only [List.mem_singleton] at hc
        simp [hc]

theorem stripPrefix_mem {p s t : Str} (h : stripPrefix p s = some t) : ∀ c ∈ t, c ∈ s := by
  unfold stripPrefix at h
  split at h
  · cases h; exact fun c hc => List.mem_of_mem_drop hc
  · cases h

theorem parseIndex_lt {s : Str} {n : Nat} (h : parseIndex s = .ok n) : n < 2 ^ 64 := by
  unfold parseIndex at h
  split at h
  · cases h
  · simp only at h
    split at h
    · cases h
    · split at h
      · rename_i m hm
        cases h
        unfold parseUsize at hm
        simp only at hm
        split at hm
        · cases hm
        · obtain ⟨k, -, hk⟩ := Option.bind_eq_some_iff.1 hm
          split at hk
          · cases hk; assumption
          · cases hk
      · cases h

theorem nameIndex_valid {s name : Str} {idx : Option Nat} (h : nameIndex s = .ok (name, idx)) :
    Name name ∧ ∀ i, idx = some i → i < 2 ^ 64 := by
  unfold nameIndex at h
  split at h
  · split at h
    · cases h
    · split at h
      · cases h
      · rename_i hv
        split at h
        · cases h
        · rename_i rest hr
          cases hp : parseIndex rest with
          | ok n =>
            rw [hp] at h
            simp only [Res.bind, Res.ok.injEq, Prod.mk.injEq] at h
            obtain ⟨rfl, rfl⟩ := h
            refine ⟨(validName_iff _).1 (by simpa using hv), ?_⟩
            rintro i ⟨⟩
            exact parseIndex_lt hp
          | err => rw [hp] at h; cases h
          | panic => rw [hp] at h; cases h
  · split at h
    · cases h
    · rename_i hv
      cases h
      exact ⟨(validName_iff _).1 (by simpa using hv), by simp⟩

theorem bind_ok {α β : Type} {x : Res α} {f : α → Res β} {b : β} (h : x.bind f = .ok b) :
    ∃ a, x = .ok a ∧ f a = .ok b := by
  cases x <;> simp_all [Res.bind]

theorem bind_ne_panic {α β : Type} {x : Res α} {f : α → Res β} (h : x ≠ .panic) (hf : ∀ a, f a ≠ .panic) :
    x.bind f ≠ .panic := by
  cases x <;> simp_all [Res.bind]

/-! ## The texts a path is read from -/

/-- An index in brackets, with an optional `+` and leading zeros. -/
def IdxText (i : Nat) (s : Str) : Prop :=
  ∃ (plus : Str) (k : Nat), (plus = [] ∨ plus = ['+']) ∧
    s = '[' :: (plus ++ (List.replicate k '0' ++ digits i) ++ [']'])

def InField.Spells : InField → Str → Prop
  | .argument n, s => s = n
  | .directive n i, s => ∃ t, IdxText i t ∧ s = '@' :: (n ++ t)

def InType.Spells : InType → Str → Prop
  | .field n none, s => s = n
  | .field n (some f), s => ∃ t, f.Spells t ∧ s = n ++ '.' :: t
  | .directive n i, s => ∃ t, IdxText i t ∧ s = '@' :: (n ++ t)
  | .interface n, s => s = '&' :: n

def Path.Spells : Path → Str → Prop
  | .schema, s => s = ":schema".toList
  | .schemaExt i, s => ∃ t, IdxText i t ∧ s = ":schema".toList ++ t
  | .type n none, s => s = n
  | .type n (some t), s => ∃ u, t.Spells u ∧ s = n ++ '.' :: u
  | .typeExt n i none, s => ∃ t, IdxText i t ∧ s = n ++ t
  | .typeExt n i (some t), s => ∃ u v, IdxText i u ∧ t.Spells v ∧ s = n ++ u ++ '.' :: v
  | .directiveDef n, s => s = '@' :: n

theorem splitDot_ne (s : Str) : splitDot s ≠ [] := by
  cases s with
  | nil => simp [splitDot]
  | cons c t =>
    unfold splitDot
    split
    · simp
    · split <;> simp

theorem splitDot_cons {s a : Str} {rest : List Str} (h : splitDot s = a :: rest) :
    (rest = [] ∧ s = a) ∨ ∃ b, s = a ++ '.' :: b ∧ rest = splitDot b := by
  induction s generalizing a with
  | nil => simp [splitDot] at h; simp [h]
  | cons c t ih =>
    unfold splitDot at h
    split at h
    · rename_i hc
      simp only [List.cons.injEq] at h
      obtain ⟨rfl, rfl⟩ := h
      exact Or.inr ⟨t, by simp [hc], rfl⟩
    · split at h
      · rename_i s' r he
        simp only [List.cons.injEq] at h
        obtain ⟨rfl, rfl⟩ := h
        rcases ih he with ⟨h1, h2⟩ | ⟨b, h1, h2⟩
        · exact Or.inl ⟨h1, by rw [h2]⟩
        · exact Or.inr ⟨b, by rw [h1]; rfl, h2⟩
      · rename_i he
        exact absurd he (splitDot_ne t)

theorem stripPrefix_some {p s t : Str} (h : stripPrefix p s = some t) : s = p ++ t := by
  unfold stripPrefix at h
  split at h
  · rename_i hp
    obtain ⟨u, rfl⟩ := List.isPrefixOf_iff_prefix.1 hp
    cases h
    simp
  · cases h

theorem takeBytes_drop : ∀ (i : Nat) (s a b : Str), takeBytes i s = some a → dropBytes i s = some b → s = a ++ b := by
  intro i s
  induction s generalizing i with
  | nil =>
    intro a b h1 h2
    cases i <;> simp_all [takeBytes, dropBytes]
  | cons c t ih =>
    intro a b h1 h2
    cases i with
    | zero => simp_all [takeBytes, dropBytes]
    | succ n =>
      simp only [takeBytes, dropBytes] at h1 h2
      split at h1
      · rename_i hle
        rw [if_pos hle] at h2
        obtain ⟨a', ha, rfl⟩ := Option.map_eq_some_iff.1 h1
        rw [ih _ _ _ ha h2]
        rfl
      · cases h1

theorem digitChar_of {c : Char} (h : isDigit c = true) : c = digitChar (c.toNat - 48) ∧ c.toNat - 48 < 10 := by
  simp only [isDigit, Bool.and_eq_true, decide_eq_true_eq] at h
  refine ⟨?_, by omega⟩
  unfold digitChar
  rw [Nat.add_sub_cancel' h.1, Char.ofNat_toNat]

theorem digits_step {n d : Nat} (hn : 0 < n) (hd : d < 10) : digits (n * 10 + d) = digits n ++ [digitChar d] := by
  rw [digits, if_neg (by omega)]
  have h1 : (n * 10 + d) / 10 = n := by omega
  have h2 : (n * 10 + d) % 10 = d := by omega
  rw [h1, h2]

theorem digitsVal_pos {acc n : Nat} {t : Str} (ha : 0 < acc) (h : digitsVal acc t = some n) :
    digits n = digits acc ++ t := by
  induction t generalizing acc with
  | nil => cases h; simp
  | cons c t ih =>
    unfold digitsVal at h
    split at h
    · rename_i hc
      obtain ⟨h1, h2⟩ := digitChar_of hc
      rw [ih (by omega) h, digits_step ha h2, ← h1]
      simp
    · cases h

theorem digitsVal_zero {n : Nat} {t : Str} (ht : t ≠ []) (h : digitsVal 0 t = some n) :
    ∃ k, t = List.replicate k '0' ++ digits n := by
  induction t with
  | nil => exact absurd rfl ht
  | cons c t ih =>
    unfold digitsVal at h
    split at h
    · rename_i hc
      obtain ⟨h1, h2⟩ := digitChar_of hc
      by_cases hz : c.toNat - 48 = 0
      · have h0 : c = '0' := by rw [h1, hz]; decide
        rw [hz] at h
        cases t with
        | nil =>
          simp only [digitsVal, Option.some.injEq] at h
          subst h
          refine ⟨0, ?_⟩
          rw [h0]
          decide +kernel
        | cons x y =>
          obtain ⟨k, hk⟩ := ih (by simp) h
          exact ⟨k + 1, by rw [hk, h0]; rfl⟩
      · have := digitsVal_pos (by omega) h
        refine ⟨0, ?_⟩
        rw [this, Nat.zero_mul, Nat.zero_add, digits, if_pos h2, ← h1]
        rfl
    · cases h

theorem parseIndex_text {s : Str} {n : Nat} (h : parseIndex s = .ok n) : IdxText n s := by
  unfold parseIndex at h
  split at h
  · cases h
  · rename_i hb
    simp only [not_or, ne_eq, Classical.not_not] at hb
    obtain ⟨t, rfl⟩ : ∃ t, s = '[' :: t := by
      cases s with
      | nil => simp at hb
      | cons a t => exact ⟨t, by simp at hb; simp [hb.1]⟩
    obtain ⟨d, rfl⟩ : ∃ d, t = d ++ [']'] := by
      cases t with
      | nil => exact absurd hb.2 (by decide)
      | cons a t =>
        have h2 := hb.2
        rw [List.getLast?_eq_some_iff] at h2
        obtain ⟨ys, hy⟩ := h2
        cases ys with
        | nil => simp at hy
        | cons y ys =>
          simp only [List.cons_append, List.cons.injEq] at hy
          exact ⟨ys, hy.2⟩
    simp only [List.drop_succ_cons, List.drop_zero, List.dropLast_concat] at h
    split at h
    · cases h
    · split at h
      · rename_i m hm
        cases h
        unfold parseUsize at hm
        simp only at hm
        split at hm
        · cases hm
        · rename_i he
          obtain ⟨k, hk, hk'⟩ := Option.bind_eq_some_iff.1 hm
          split at hk'
          · cases hk'
            cases hs : stripPrefix ['+'] d with
            | none =>
              rw [hs] at hk he
              simp only [Option.getD_none] at hk he
              obtain ⟨j, hj⟩ := digitsVal_zero (by simpa using he) hk
              exact ⟨[], j, Or.inl rfl, by rw [hj]; rfl⟩
            | some u =>
              rw [hs] at hk he
              simp only [Option.getD_some] at hk he
              obtain ⟨j, hj⟩ := digitsVal_zero (by simpa using he) hk
              refine ⟨['+'], j, Or.inr rfl, ?_⟩
              rw [stripPrefix_some hs, hj]
          · cases hk'
      · cases h

theorem nameIndex_text {s name : Str} {idx : Option Nat} (h : nameIndex s = .ok (name, idx)) :
    match idx with
    | none => s = name
    | some i => ∃ t, IdxText i t ∧ s = name ++ t := by
  unfold nameIndex at h
  split at h
  · split at h
    · cases h
    · rename_i n hn
      split at h
      · cases h
      · split at h
        · cases h
        · rename_i rest hr
          obtain ⟨m, h1, h2⟩ := bind_ok h
          cases h2
          exact ⟨rest, parseIndex_text h1, takeBytes_drop _ _ _ _ hn hr⟩
  · split at h
    · cases h
    · cases h; rfl

end Verif.SchemaPath
