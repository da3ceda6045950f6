import Verif.SdlText.Spec

/-! # Reading what is written: tokens -/
namespace Verif.SdlText

/-! ## Digits -/

theorem digit_spec : ∀ n < 10, isDigit (digit n) = true ∧ digitValue (digit n) = n ∧ (digit n = '0' → n = 0) := by decide

theorem number_append (xs : Text) (c : Char) : number (xs ++ [c]) = number xs * 10 + digitValue c := by
  simp [number, List.foldl_append]

theorem decimalN_spec : ∀ (f n : Nat), n < f →
    (∀ c ∈ decimalN f n, isDigit c = true) ∧ number (decimalN f n) = n ∧
    ∃ c s, decimalN f n = c :: s ∧ (c = '0' → n = 0 ∧ s = []) := by
  intro f
  induction f with
  | zero => intro n h; omega
  | succ f ih =>
    intro n h
    unfold decimalN
    by_cases hn : n < 10
    · obtain ⟨h1, h2, h3⟩ := digit_spec n hn
      simp only [hn, if_true]
      refine ⟨by intro c hc; rw [List.mem_singleton.mp hc]; exact h1, ?_, digit n, [], rfl, fun e => ⟨h3 e, rfl⟩⟩
      simp [number, h2]
    · simp only [hn, if_false]
      obtain ⟨i1, i2, c, s, i3, i4⟩ := ih (n / 10) (by omega)
      obtain ⟨h1, h2, _⟩ := digit_spec (n % 10) (Nat.mod_lt _ (by omega))
      refine ⟨?_, ?_, c, s ++ [digit (n % 10)], ?_, ?_⟩
      · intro x hx
        rcases List.mem_append.mp hx with hx | hx
        · exact i1 x hx
        · rw [List.mem_singleton.mp hx]; exact h1
      · rw [number_append, i2, h2]; omega
      · rw [i3]; rfl
      · intro e
        have := (i4 e).1
        omega

theorem decimal_digits (n : Nat) : ∀ c ∈ decimal n, isDigit c = true := (decimalN_spec (n + 1) n (by omega)).1
theorem decimal_number (n : Nat) : number (decimal n) = n := (decimalN_spec (n + 1) n (by omega)).2.1
theorem decimal_cons (n : Nat) : ∃ c s, decimal n = c :: s ∧ (c = '0' → n = 0 ∧ s = []) :=
  (decimalN_spec (n + 1) n (by omega)).2.2

theorem decimal_wellFormed (n : Nat) : wellFormed (decimal n) = true := by
  obtain ⟨c, s, h, h0⟩ := decimal_cons n
  rw [h]
  cases s with
  | nil => rfl
  | cons d s =>
    simp only [wellFormed, bne_iff_ne]
    intro e
    have := (h0 e).2
    simp at this

/-! ## What follows -/

/-- What may follow a written token. -/
def sep : Text → Bool
  | [] => true
  | c :: _ => !isNameChar c && c != '.' && c != '"'

theorem sep_ends {r : Text} (h : sep r = true) : ends r = true := by
  cases r with
  | nil => rfl
  | cons c r =>
    simp only [sep, Bool.and_eq_true, Bool.not_eq_true', bne_iff_ne] at h
    simp [ends, continues, h.1.1, h.1.2]

theorem takeWhile_all {p : Char → Bool} {xs r : Text} (h : ∀ c ∈ xs, p c = true) (hr : ∀ c, r.head? = some c → p c = false) :
    (xs ++ r).takeWhile p = xs ∧ (xs ++ r).dropWhile p = r := by
  induction xs with
  | nil =>
    cases r with
    | nil => simp
    | cons c r => simp [hr c rfl]
  | cons x xs ih =>
    have := ih (fun c hc => h c (List.mem_cons_of_mem _ hc))
    simp [h x List.mem_cons_self, this]

theorem sep_head_name {r : Text} (h : sep r = true) : ∀ c, r.head? = some c → isNameChar c = false := by
  intro c hc
  cases r with
  | nil => simp at hc
  | cons d r =>
    simp only [List.head?_cons, Option.some.injEq] at hc
    subst hc
    simp only [sep, Bool.and_eq_true, Bool.not_eq_true'] at h
    exact h.1.1

theorem sep_head_digit {r : Text} (h : sep r = true) : ∀ c, r.head? = some c → isDigit c = false := by
  intro c hc
  have := sep_head_name h c hc
  simp only [isNameChar, Bool.or_eq_false_iff] at this
  exact this.2

/-! ## Tokens one after the other -/

inductive Lexes : Text → List Token → Prop
  | done {s : Text} : skip false s = [] → Lexes s []
  | tok {s r : Text} {t : Token} {ts : List Token} : lexToken (skip false s) = some (t, r) → Lexes r ts → Lexes s (t :: ts)

theorem Lexes.of_skip {s r : Text} {ts : List Token} (h : skip false s = skip false r) (hl : Lexes r ts) : Lexes s ts := by
  cases hl with
  | done h' => exact .done (h.trans h')
  | tok h' hl => exact .tok (by rw [h]; exact h') hl

theorem skip_length : ∀ (s : Text) (b : Bool), (skip b s).length ≤ s.length := by
  intro s
  induction s with
  | nil => intro b; simp [skip]
  | cons c s ih =>
    intro b
    unfold skip
    split
    · have := ih (!isNewline c); simp; omega
    · split
      · have := ih false; simp; omega
      · split
        · have := ih true; simp; omega
        · simp

theorem lexString_length : ∀ (n : Nat) (s t r : Text), s.length ≤ n → lexString s = some (t, r) → r.length < s.length := by
  intro n
  induction n with
  | zero =>
    intro s t r hn h
    have : s = [] := List.length_eq_zero_iff.mp (by omega)
    subst this
    simp [lexString] at h
  | succ n ih =>
    intro s t r hn h
    have key : ∀ (x : Char) (s' : Text), s'.length ≤ n → cons1 x (lexString s') = some (t, r) → r.length < s'.length := by
      intro x s' hs' h
      cases hl : lexString s' with
      | none => simp [hl, cons1] at h
      | some p =>
        obtain ⟨t', r'⟩ := p
        simp only [hl, cons1, Option.some.injEq, Prod.mk.injEq] at h
        obtain ⟨_, rfl⟩ := h
        exact ih s' t' r' hs' hl
    cases s with
    | nil => simp [lexString] at h
    | cons c s =>
      simp only [List.length_cons] at hn ⊢
      rw [lexString.eq_def] at h
      simp only at h
      split at h
      · simp only [Option.some.injEq, Prod.mk.injEq] at h
        obtain ⟨_, rfl⟩ := h
        omega
      · split at h
        · simp at h
        · split at h
          · split at h
            · simp at h
            · rename_i e s
              simp only [List.length_cons] at hn ⊢
              split at h
              · split at h
                · rename_i a b c' d s
                  simp only [List.length_cons] at hn ⊢
                  split at h
                  · have := key _ s (by omega) h; omega
                  · simp at h
                · simp at h
              · split at h
                · have := key _ s (by omega) h; omega
                · simp at h
          · have := key _ s (by omega) h; omega

theorem lexBlock_length : ∀ (s t r : Text) (k : Nat), lexBlock k s = some (t, r) → r.length < s.length := by
  intro s
  induction s with
  | nil => intro t r k h; simp [lexBlock] at h
  | cons c s ih =>
    intro t r k h
    have key : ∀ (x : Char) (k' : Nat), cons1 x (lexBlock k' s) = some (t, r) → r.length < s.length := by
      intro x k' h
      cases hl : lexBlock k' s with
      | none => simp [hl, cons1] at h
      | some p =>
        obtain ⟨t', r'⟩ := p
        simp only [hl, cons1, Option.some.injEq, Prod.mk.injEq] at h
        obtain ⟨_, rfl⟩ := h
        exact ih t' r' k' hl
    unfold lexBlock at h
    simp only [List.length_cons]
    split at h
    · have := key _ _ h; omega
    · split at h
      · simp only [Option.some.injEq, Prod.mk.injEq] at h
        obtain ⟨_, rfl⟩ := h
        have := List.length_drop (i := 2) (l := s)
        omega
      · split at h
        · have := ih t r 3 h; omega
        · have := key _ _ h; omega

theorem dropWhile_length (p : Char → Bool) (s : Text) : (s.dropWhile p).length ≤ s.length :=
  (List.dropWhile_sublist p).length_le

theorem lexNumber_length {neg : Bool} {s r : Text} {t : Token} (h : lexNumber neg s = some (t, r)) : r.length < s.length := by
  unfold lexNumber at h
  simp only at h
  have hsum : (s.takeWhile isDigit).length + (s.dropWhile isDigit).length = s.length := by
    rw [← List.length_append, List.takeWhile_append_dropWhile]
  split at h
  · rename_i hw
    have hpos : 0 < (s.takeWhile isDigit).length := by
      cases hd : s.takeWhile isDigit with
      | nil => simp [hd, wellFormed] at hw
      | cons => simp
    split at h
    · rename_i r' hr'
      split at h
      · simp only [Option.some.injEq, Prod.mk.injEq] at h
        obtain ⟨_, rfl⟩ := h
        have := dropWhile_length isDigit r'
        rw [hr'] at hsum
        simp only [List.length_cons] at hsum
        omega
      · simp at h
    · split at h
      · simp only [Option.some.injEq, Prod.mk.injEq] at h
        obtain ⟨_, rfl⟩ := h
        omega
      · simp at h
  · simp at h

theorem lexToken_length {s r : Text} {t : Token} (h : lexToken s = some (t, r)) : r.length < s.length := by
  cases s with
  | nil => simp [lexToken] at h
  | cons c s =>
    simp only [lexToken] at h
    simp only [List.length_cons]
    split at h
    · simp only [Option.some.injEq, Prod.mk.injEq] at h
      obtain ⟨_, rfl⟩ := h; omega
    · split at h
      · simp only [Option.some.injEq, Prod.mk.injEq] at h
        obtain ⟨_, rfl⟩ := h
        have := dropWhile_length isNameChar s
        omega
      · split at h
        · have := lexNumber_length h; omega
        · split at h
          · have := lexNumber_length h
            simpa using this
          · split at h
            · split at h
              · rename_i s
                cases hl : lexBlock 0 s with
                | none => simp [hl] at h
                | some p =>
                  obtain ⟨t', r'⟩ := p
                  simp only [hl, Option.some.injEq, Prod.mk.injEq] at h
                  obtain ⟨_, rfl⟩ := h
                  have := lexBlock_length s t' r' 0 hl
                  simp only [List.length_cons]
                  omega
              · cases hl : lexString s with
                | none => simp [hl] at h
                | some p =>
                  obtain ⟨t', r'⟩ := p
                  simp only [hl, Option.some.injEq, Prod.mk.injEq] at h
                  obtain ⟨_, rfl⟩ := h
                  have := lexString_length _ s t' r' (Nat.le_refl _) hl
                  omega
            · split at h
              · split at h
                · simp only [Option.some.injEq, Prod.mk.injEq] at h
                  obtain ⟨_, rfl⟩ := h
                  simp only [List.length_cons]
                  omega
                · simp at h
              · simp at h

theorem Lexes.lexN {s : Text} {ts : List Token} (h : Lexes s ts) : ∀ n, s.length < n → Verif.SdlText.lexN n s = some ts := by
  induction h with
  | done h =>
    intro n hn
    obtain ⟨m, rfl⟩ : ∃ m, n = m + 1 := ⟨n - 1, by omega⟩
    simp [Verif.SdlText.lexN, h]
  | @tok s r t ts h _ ih =>
    intro n hn
    obtain ⟨m, rfl⟩ : ∃ m, n = m + 1 := ⟨n - 1, by omega⟩
    have h1 := lexToken_length h
    have h2 := skip_length s false
    have hne : (skip false s).isEmpty = false := by
      cases hs : skip false s with
      | nil => simp [hs] at h1
      | cons => rfl
    simp [Verif.SdlText.lexN, h, hne, ih m (by omega)]

theorem Lexes.lex {s : Text} {ts : List Token} (h : Lexes s ts) : Verif.SdlText.lex s = some ts := h.lexN _ (by omega)

/-! ## The tokens written -/

/-- A character that starts a token. -/
abbrev starts (c : Char) : Prop := isIgnored c = false ∧ c ≠ '#'

theorem skip_starts {c : Char} (h : starts c) (s : Text) : skip false (c :: s) = c :: s := by
  simp [skip, h.1, h.2]

theorem punct_starts {c : Char} (h : isPunct c = true) : starts c := by
  simp only [isPunct, List.contains_eq_mem, List.mem_cons, List.not_mem_nil, or_false, decide_eq_true_eq] at h
  rcases h with h | h | h | h | h | h | h | h | h | h | h | h | h <;> subst h <;> decide

theorem Lexes.punct {c : Char} {r : Text} {ts : List Token} (hc : isPunct c = true) (h : Lexes r ts) :
    Lexes (c :: r) (.punct c :: ts) := by
  refine .tok (r := r) ?_ h
  rw [skip_starts (punct_starts hc)]
  simp [lexToken, hc]

theorem Lexes.ignored {c : Char} {r : Text} {ts : List Token} (hc : isIgnored c = true) (h : Lexes r ts) : Lexes (c :: r) ts := by
  refine h.of_skip ?_
  simp [skip, hc]

theorem letter_toNat {c : Char} (h : isLetter c = true) : (65 ≤ c.toNat ∧ c.toNat ≤ 90) ∨ (97 ≤ c.toNat ∧ c.toNat ≤ 122) ∨ c.toNat = 95 := by
  simp only [isLetter, Bool.or_eq_true_iff, Bool.and_eq_true, decide_eq_true_eq, beq_iff_eq] at h
  rcases h with (h | h) | h
  · exact Or.inl h
  · exact Or.inr (Or.inl h)
  · subst h; exact Or.inr (Or.inr rfl)

theorem digit_toNat {c : Char} (h : isDigit c = true) : 48 ≤ c.toNat ∧ c.toNat ≤ 57 := by
  simpa [isDigit] using h

/-- Two characters with different codes are different. -/
theorem ne_of_toNat {c d : Char} (h : c.toNat ≠ d.toNat) : c ≠ d := by rintro rfl; exact h rfl

theorem not_punct_of {c : Char} (h : (48 ≤ c.toNat ∧ c.toNat ≤ 57) ∨ (65 ≤ c.toNat ∧ c.toNat ≤ 90) ∨
    (97 ≤ c.toNat ∧ c.toNat ≤ 122) ∨ c.toNat = 95) : isPunct c = false ∧ starts c ∧ c ≠ '-' ∧ c ≠ '"' ∧ c ≠ '.' ∧ c ≠ '\\' ∧
    isControl c = false := by
  have hne : ∀ d : Char, ¬ ((48 ≤ d.toNat ∧ d.toNat ≤ 57) ∨ (65 ≤ d.toNat ∧ d.toNat ≤ 90) ∨
    (97 ≤ d.toNat ∧ d.toNat ≤ 122) ∨ d.toNat = 95) → c ≠ d := by
    rintro d hd rfl
    exact hd h
  refine ⟨?_, ⟨?_, hne _ (by decide)⟩, hne _ (by decide), hne _ (by decide), hne _ (by decide), hne _ (by decide), ?_⟩
  · cases hp : isPunct c with
    | false => rfl
    | true =>
      simp only [isPunct, List.contains_eq_mem, List.mem_cons, List.not_mem_nil, or_false, decide_eq_true_eq] at hp
      rcases hp with hp | hp | hp | hp | hp | hp | hp | hp | hp | hp | hp | hp | hp <;> subst hp <;> revert h <;> decide
  · cases hp : isIgnored c with
    | false => rfl
    | true =>
      simp only [isIgnored, isNewline, Bool.or_eq_true_iff, beq_iff_eq] at hp
      rcases hp with (((hp | hp) | hp | hp) | hp) | hp
      · subst hp; revert h; decide
      · subst hp; revert h; decide
      · subst hp; revert h; decide
      · subst hp; revert h; decide
      · subst hp; revert h; decide
      · omega
  · simp only [isControl, Bool.or_eq_false_iff, Bool.and_eq_false_iff, decide_eq_false_iff_not]
    omega

theorem letter_facts {c : Char} (h : isLetter c = true) : isPunct c = false ∧ starts c ∧ c ≠ '-' ∧ c ≠ '"' ∧ c ≠ '.' ∧ c ≠ '\\' ∧
    isControl c = false := not_punct_of (Or.inr (letter_toNat h))
theorem digit_facts {c : Char} (h : isDigit c = true) : isPunct c = false ∧ starts c ∧ c ≠ '-' ∧ c ≠ '"' ∧ c ≠ '.' ∧ c ≠ '\\' ∧
    isControl c = false := not_punct_of (Or.inl (digit_toNat h))

theorem nameChar_facts {c : Char} (h : isNameChar c = true) : isPunct c = false ∧ starts c ∧ c ≠ '-' ∧ c ≠ '"' ∧ c ≠ '.' ∧ c ≠ '\\' ∧
    isControl c = false := by
  simp only [isNameChar, Bool.or_eq_true_iff] at h
  rcases h with h | h
  · exact letter_facts h
  · exact digit_facts h

theorem Lexes.name {n r : Text} {ts : List Token} (hn : IsName n) (hr : sep r = true) (h : Lexes r ts) :
    Lexes (n ++ r) (.name n :: ts) := by
  obtain ⟨c, s, rfl, hc, hs⟩ := hn
  have hf := letter_facts hc
  refine .tok (r := r) ?_ h
  rw [List.cons_append, skip_starts hf.2.1]
  obtain ⟨h1, h2⟩ := takeWhile_all (p := isNameChar) (r := r) hs (sep_head_name hr)
  simp [lexToken, hf.1, hc, h1, h2]

theorem digit_not_letter {c : Char} (h : isDigit c = true) : isLetter c = false := by
  cases hl : isLetter c with
  | false => rfl
  | true =>
    have := letter_toNat hl
    have := digit_toNat h
    omega

theorem lexNumber_int {n : Nat} {r : Text} (neg : Bool) (hr : sep r = true) :
    lexNumber neg (decimal n ++ r) = some (.int (if neg then - (n : Int) else n), r) := by
  obtain ⟨h1, h2⟩ := takeWhile_all (p := isDigit) (r := r) (decimal_digits n) (sep_head_digit hr)
  unfold lexNumber
  simp only [h1, h2, decimal_wellFormed, if_true, decimal_number]
  have he := sep_ends hr
  split
  · simp [sep] at hr
  · simp [he]

theorem lexNumber_float {n : Nat} {fs : List Nat} {r : Text} (neg : Bool) (hf : ∀ x ∈ fs, x < 10) (hne : fs ≠ [])
    (hr : sep r = true) :
    lexNumber neg (decimal n ++ '.' :: fs.map digit ++ r) = some (.float ⟨neg, n, fs⟩, r) := by
  obtain ⟨h1, h2⟩ := takeWhile_all (p := isDigit) (xs := decimal n) (r := '.' :: (fs.map digit ++ r)) (decimal_digits n)
    (by intro c hc; simp only [List.head?_cons, Option.some.injEq] at hc; subst hc; decide)
  obtain ⟨h3, h4⟩ := takeWhile_all (p := isDigit) (xs := fs.map digit) (r := r)
    (by
      intro c hc
      obtain ⟨x, hx, rfl⟩ := List.mem_map.mp hc
      exact (digit_spec x (hf x hx)).1) (sep_head_digit hr)
  have hv : (fs.map digit).map digitValue = fs := by
    rw [List.map_map]
    conv => rhs; rw [← List.map_id fs]
    apply List.map_congr_left
    intro x hx
    exact (digit_spec x (hf x hx)).2.1
  have hne' : (fs.map digit).isEmpty = false := by cases fs with | nil => exact absurd rfl hne | cons => rfl
  unfold lexNumber
  rw [List.append_assoc, List.cons_append]
  simp only [h1, h2, decimal_wellFormed, if_true, decimal_number, h3, h4, hv, hne', sep_ends hr, Bool.not_false, Bool.and_self]

theorem lexToken_decimal {n : Nat} {r : Text} : lexToken (skip false (decimal n ++ r)) = lexNumber false (decimal n ++ r) := by
  obtain ⟨c, s, hd, _⟩ := decimal_cons n
  have hc : isDigit c = true := decimal_digits n c (by rw [hd]; exact List.mem_cons_self)
  have hf := digit_facts hc
  rw [hd, List.cons_append, skip_starts hf.2.1]
  simp [lexToken, hf.1, digit_not_letter hc, hf.2.2.1, hc]

theorem lexToken_minus {s : Text} : lexToken (skip false ('-' :: s)) = lexNumber true s := by
  rw [skip_starts (by constructor <;> decide)]
  have h1 : isPunct '-' = false := by decide
  have h2 : isLetter '-' = false := by decide
  simp [lexToken, h1, h2]

theorem Lexes.int {i : Int} {r : Text} {ts : List Token} (hr : sep r = true) (h : Lexes r ts) :
    Lexes (showInt i ++ r) (.int i :: ts) := by
  cases i with
  | ofNat n =>
    refine .tok (r := r) ?_ h
    show lexToken (skip false (decimal n ++ r)) = _
    rw [lexToken_decimal, lexNumber_int false hr]
    rfl
  | negSucc n =>
    refine .tok (r := r) ?_ h
    show lexToken (skip false ('-' :: (decimal (n + 1) ++ r))) = _
    rw [lexToken_minus, lexNumber_int true hr]
    rfl

/-- What the text of a number with a fraction is read as. -/
def decToken (d : Dec) : Token :=
  if d.frac = [] then .int (if d.neg then - (d.whole : Int) else d.whole) else .float d

theorem Lexes.dec {d : Dec} {r : Text} {ts : List Token} (hd : ∀ x ∈ d.frac, x < 10) (hr : sep r = true) (h : Lexes r ts) :
    Lexes (showDec d ++ r) (decToken d :: ts) := by
  obtain ⟨neg, n, fs⟩ := d
  refine .tok (r := r) ?_ h
  by_cases hf : fs = []
  · subst hf
    cases neg with
    | false =>
      simp only [showDec, decToken, List.isEmpty_nil, if_true, List.append_nil, Bool.false_eq_true, if_false, List.nil_append]
      rw [lexToken_decimal, lexNumber_int false hr]
      rfl
    | true =>
      simp only [showDec, decToken, List.isEmpty_nil, if_true, List.append_nil, List.cons_append, List.nil_append]
      rw [lexToken_minus, lexNumber_int true hr]
      rfl
  · have hf' : fs.isEmpty = false := by cases fs with | nil => exact absurd rfl hf | cons => rfl
    have := lexNumber_float (n := n) (r := r) neg hd hf hr
    rw [List.append_assoc, List.cons_append] at this
    cases neg with
    | false =>
      simp only [showDec, decToken, hf', hf, Bool.false_eq_true, if_false, List.nil_append, List.append_assoc, List.cons_append]
      rw [lexToken_decimal]
      exact this
    | true =>
      simp only [showDec, decToken, hf', hf, Bool.false_eq_true, if_false, if_true, List.nil_append, List.append_assoc, List.cons_append]
      rw [lexToken_minus]
      exact this

/-! ## Strings -/

/-- The code read from the decimal digits of a code as if they were hexadecimal. -/
def misCode (n : Nat) : Nat := n / 100 * 256 + n / 10 % 10 * 16 + n % 10

/-- What a character is read as. -/
def misChar (c : Char) : Char :=
  if c = '\r' ∨ c = '\n' ∨ c = '\t' then c else if isControl c then Char.ofNat (misCode c.toNat) else c

theorem pad4_control : ∀ n < 160, ∃ a b c d, pad4 (decimal n) = [a, b, c, d] ∧ unicode a b c d = some (Char.ofNat (misCode n)) := by
  have h : ∀ n < 160, pad4 (decimal n) = ['0', digit (n / 100), digit (n / 10 % 10), digit (n % 10)] ∧
      unicode '0' (digit (n / 100)) (digit (n / 10 % 10)) (digit (n % 10)) = some (Char.ofNat (misCode n)) := by
    decide +kernel
  intro n hn
  exact ⟨_, _, _, _, (h n hn).1, (h n hn).2⟩

theorem control_lt {c : Char} (h : isControl c = true) : c.toNat < 160 := by
  simp only [isControl, Bool.or_eq_true_iff, Bool.and_eq_true, decide_eq_true_eq] at h
  omega

theorem lexString_escape (c : Char) (s : Text) : lexString (escape c ++ s) = cons1 (misChar c) (lexString s) := by
  unfold escape misChar
  by_cases h1 : c = '\r'
  · subst h1; simp; rw [lexString.eq_def]; simp [isNewline, escaped]
  by_cases h2 : c = '\n'
  · subst h2; simp; rw [lexString.eq_def]; simp [isNewline, escaped]
  by_cases h3 : c = '\t'
  · subst h3; simp; rw [lexString.eq_def]; simp [isNewline, escaped]
  by_cases h4 : c = '\\'
  · subst h4
    have : isControl '\\' = false := by decide
    simp [this]; rw [lexString.eq_def]; simp [isNewline, escaped]
  by_cases h5 : c = '"'
  · subst h5
    have : isControl '"' = false := by decide
    simp [this]; rw [lexString.eq_def]; simp [isNewline, escaped]
  simp only [h1, h2, h3, h4, h5, if_false, or_self]
  by_cases h6 : isControl c = true
  · obtain ⟨a, b, c', d, e1, e2⟩ := pad4_control c.toNat (control_lt h6)
    simp only [h6, if_true, e1, List.cons_append, List.nil_append]
    rw [lexString.eq_def]
    simp [isNewline, e2]
  · simp only [h6, if_false, List.cons_append, List.nil_append]
    rw [lexString.eq_def]
    simp [h5, h4, isNewline, h1, h2]

theorem lexString_quote (s r : Text) : lexString (s.flatMap escape ++ '"' :: r) = some (s.map misChar, r) := by
  induction s with
  | nil => simp only [List.flatMap_nil, List.nil_append, List.map_nil]; rw [lexString.eq_def]; simp
  | cons c s ih =>
    rw [List.flatMap_cons, List.append_assoc, lexString_escape, ih]
    rfl

theorem escape_head (c : Char) : ∃ x t, escape c = x :: t ∧ x ≠ '"' := by
  unfold escape
  by_cases h1 : c = '\r'
  · subst h1; exact ⟨'\\', ['r'], by simp, by decide⟩
  by_cases h2 : c = '\n'
  · subst h2; exact ⟨'\\', ['n'], by simp, by decide⟩
  by_cases h3 : c = '\t'
  · subst h3; exact ⟨'\\', ['t'], by simp, by decide⟩
  by_cases h4 : c = '\\'
  · subst h4; exact ⟨'\\', ['\\'], by simp, by decide⟩
  by_cases h5 : c = '"'
  · subst h5; exact ⟨'\\', ['"'], by simp, by decide⟩
  simp only [h1, h2, h3, h4, h5, if_false]
  split
  · exact ⟨'\\', _, rfl, by decide⟩
  · exact ⟨c, [], rfl, h5⟩

theorem lexToken_quote {s r : Text} (hr : sep r = true) : lexToken (skip false (quote s ++ r)) = some (.str (s.map misChar), r) := by
  have hq : quote s ++ r = '"' :: (s.flatMap escape ++ '"' :: r) := by simp [quote]
  rw [hq, skip_starts (by constructor <;> decide)]
  have h1 : isPunct '"' = false := by decide
  have h2 : isLetter '"' = false := by decide
  have h3 : isDigit '"' = false := by decide
  have h4 : ('"' : Char) ≠ '-' := by decide
  simp only [lexToken, h1, h2, h3, h4, if_false, Bool.false_eq_true, if_true]
  have hl := lexString_quote s r
  generalize hw : s.flatMap escape ++ '"' :: r = w at hl
  split
  · rename_i s'
    exfalso
    cases s with
    | nil =>
      simp only [List.flatMap_nil, List.nil_append, List.cons.injEq, true_and] at hw
      subst hw
      simp [sep] at hr
    | cons c s =>
      obtain ⟨x, t, hx, hne⟩ := escape_head c
      simp only [List.flatMap_cons, hx, List.cons_append, List.cons.injEq] at hw
      exact hne hw.1
  · rw [hl]

theorem Lexes.quote {s r : Text} {ts : List Token} (hr : sep r = true) (h : Lexes r ts) :
    Lexes (Verif.SdlText.quote s ++ r) (.str (s.map misChar) :: ts) := .tok (lexToken_quote hr) h

theorem misCode_lt : ∀ n < 160, misCode n < 0xD800 ∧ (misCode n = n ↔ n < 10) := by decide +kernel

theorem toNat_ofNat {n : Nat} (h : n < 0xD800) : (Char.ofNat n).toNat = n := by
  have hv : n.isValidChar := Or.inl h
  unfold Char.ofNat
  rw [dif_pos hv]
  rfl

theorem isControl_iff (c : Char) : isControl c = true ↔ c.toNat < 32 ∨ (127 ≤ c.toNat ∧ c.toNat < 160) := by
  simp [isControl]

theorem misChar_iff (c : Char) : misChar c = c ↔ Plain c := by
  unfold misChar Plain
  rw [← isControl_iff]
  by_cases h : c = '\r' ∨ c = '\n' ∨ c = '\t'
  · simp only [h, if_true, true_iff]
    intro _
    rcases h with h | h | h
    · exact Or.inr (Or.inr (Or.inl h))
    · exact Or.inl h
    · exact Or.inr (Or.inl h)
  · simp only [h, if_false]
    by_cases hc : isControl c = true
    · obtain ⟨h1, h2⟩ := misCode_lt c.toNat (control_lt hc)
      simp only [hc, if_true, forall_const]
      constructor
      · intro e
        right; right; right
        apply h2.mp
        rw [← toNat_ofNat h1, e]
      · intro e
        have hlt : c.toNat < 10 := by
          rcases e with e | e | e | e
          · exact absurd (Or.inr (Or.inl e)) h
          · exact absurd (Or.inr (Or.inr e)) h
          · exact absurd (Or.inl e) h
          · exact e
        rw [h2.mpr hlt]
        exact Char.ofNat_toNat c
    · simp [hc]

theorem map_misChar_iff (s : Text) : s.map misChar = s ↔ ∀ c ∈ s, Plain c := by
  induction s with
  | nil => simp
  | cons c s ih => simp [misChar_iff, ih]

end Verif.SdlText
