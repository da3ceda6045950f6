import Verif.StoreUrls.Spec

namespace Verif.StoreUrls

def NoSlash (s : List Char) : Prop := ∀ c ∈ s, isSlash c = false

theorem segments_plain : ∀ s : List Char, NoSlash s → segments s = [s]
  | [], _ => rfl
  | c :: s, h => by
    rw [segments, if_neg (by rw [h c List.mem_cons_self]; simp), segments_plain s (fun x hx => h x (List.mem_cons_of_mem _ hx))]

theorem segments_append (b : List Char) : ∀ s : List Char, NoSlash s → segments (s ++ '/' :: b) = s :: segments b
  | [], _ => by
    show segments ('/' :: b) = _
    rw [segments, if_pos (by decide)]
  | c :: s, h => by
    rw [List.cons_append, segments, if_neg (by rw [h c List.mem_cons_self]; simp),
      segments_append b s (fun x hx => h x (List.mem_cons_of_mem _ hx))]

def Kept (s : List Char) : Prop := ∀ c ∈ s, c ≠ '\t' ∧ c ≠ '\n' ∧ c ≠ '\r'

theorem strip_kept (s : List Char) (h : Kept s) : strip s = s := by
  unfold strip
  rw [List.filter_eq_self]
  intro c hc
  obtain ⟨h1, h2, h3⟩ := h c hc
  simp [h1, h2, h3]

theorem walk_plain : ∀ (segs done : List (List Char)), (∀ s ∈ segs, s ∉ doubleDots ∧ s ∉ singleDots) →
    walk done segs = done ++ segs.map encode
  | [], done, _ => by simp [walk]
  | s :: segs, done, h => by
    obtain ⟨h1, h2⟩ := h s List.mem_cons_self
    rw [walk, if_neg (by simpa using h1), if_neg (by simpa using h2), walk_plain segs _ (fun x hx => h x (List.mem_cons_of_mem _ hx))]
    simp

theorem ofList_ne {s : List Char} {t : String} (h : String.ofList s ≠ t) : s ≠ t.toList := by
  rintro rfl
  exact h String.ofList_toList

theorem plain_dots {s : List Char} (h : Plain s) : s ∉ doubleDots ∧ s ∉ singleDots := by
  have hd := h.dots
  simp only [List.mem_cons, List.not_mem_nil, or_false, not_or] at hd
  obtain ⟨d1, d2, d3, d4, d5, d6, d7, d8, d9, d10, d11, d12⟩ := hd
  unfold doubleDots singleDots
  simp only [List.mem_cons, List.not_mem_nil, or_false, not_or]
  exact ⟨⟨ofList_ne d4, ofList_ne d5, ofList_ne d6, ofList_ne d7, ofList_ne d8, ofList_ne d9, ofList_ne d10, ofList_ne d11, ofList_ne d12⟩,
    ofList_ne d1, ofList_ne d2, ofList_ne d3⟩

theorem plain_noSlash {s : List Char} (h : Plain s) : NoSlash s := by
  intro c hc
  obtain ⟨h1, h2, _⟩ := h.chars c hc
  simp [isSlash, h1, h2]

theorem plain_kept {s : List Char} (h : Plain s) : Kept s := fun c hc => (h.chars c hc).2.2

theorem unreserved_char {c : Char} (h : Unreserved c) :
    c ≠ '/' ∧ c ≠ '\\' ∧ c ≠ '\t' ∧ c ≠ '\n' ∧ c ≠ '\r' ∧ c ≠ '%' ∧ mustEncode c = false := by
  have key : ∀ n : Nat, n < 128 → (('a'.toNat ≤ n ∧ n ≤ 'z'.toNat) ∨ ('A'.toNat ≤ n ∧ n ≤ 'Z'.toNat) ∨ ('0'.toNat ≤ n ∧ n ≤ '9'.toNat) ∨
      n = '-'.toNat ∨ n = '.'.toNat ∨ n = '_'.toNat ∨ n = '~'.toNat) →
      (Char.ofNat n ≠ '/' ∧ Char.ofNat n ≠ '\\' ∧ Char.ofNat n ≠ '\t' ∧ Char.ofNat n ≠ '\n' ∧ Char.ofNat n ≠ '\r' ∧ Char.ofNat n ≠ '%' ∧
        mustEncode (Char.ofNat n) = false) := by
    decide +kernel
  have hc : Char.ofNat c.toNat = c := Char.ofNat_toNat c
  have hb : ('a'.toNat ≤ c.toNat ∧ c.toNat ≤ 'z'.toNat) ∨ ('A'.toNat ≤ c.toNat ∧ c.toNat ≤ 'Z'.toNat) ∨ ('0'.toNat ≤ c.toNat ∧ c.toNat ≤ '9'.toNat) ∨
      c.toNat = '-'.toNat ∨ c.toNat = '.'.toNat ∨ c.toNat = '_'.toNat ∨ c.toNat = '~'.toNat := by
    rcases h with h | h | h | rfl | rfl | rfl | rfl
    · exact Or.inl h
    · exact Or.inr (Or.inl h)
    · exact Or.inr (Or.inr (Or.inl h))
    all_goals simp
  have hl : c.toNat < 128 := by
    have e1 : 'a'.toNat = 97 := rfl
    have e2 : 'z'.toNat = 122 := rfl
    have e3 : 'A'.toNat = 65 := rfl
    have e4 : 'Z'.toNat = 90 := rfl
    have e5 : '0'.toNat = 48 := rfl
    have e6 : '9'.toNat = 57 := rfl
    have e7 : '-'.toNat = 45 := rfl
    have e8 : '.'.toNat = 46 := rfl
    have e9 : '_'.toNat = 95 := rfl
    have e10 : '~'.toNat = 126 := rfl
    rw [e1, e2, e3, e4, e5, e6, e7, e8, e9, e10] at hb
    omega
  have := key c.toNat hl hb
  rw [hc] at this
  exact this

theorem clean_plain {s : List Char} (h : Clean s) : Plain s := by
  refine ⟨?_, ?_⟩
  · intro c hc
    obtain ⟨h1, h2, h3, h4, h5, _⟩ := unreserved_char (h.chars c hc)
    exact ⟨h1, h2, h3, h4, h5⟩
  · intro hd
    have hp : ∀ t : String, '%' ∈ t.toList → String.ofList s ≠ t := by
      rintro t ht rfl
      rw [String.toList_ofList] at ht
      exact (unreserved_char (h.chars _ ht)).2.2.2.2.2.1 rfl
    simp only [List.mem_cons, List.not_mem_nil, or_false] at hd
    have back : ∀ t : String, String.ofList s = t → s = t.toList := by
      rintro t rfl
      exact String.toList_ofList.symm
    rcases hd with e | e | e | e | e | e | e | e | e | e | e | e
    · exact h.dots.1 (back _ e)
    · exact hp _ (by decide) e
    · exact hp _ (by decide) e
    · exact h.dots.2 (back _ e)
    all_goals exact hp _ (by decide) e

theorem clean_encode {s : List Char} (h : Clean s) : encode s = s := by
  have : ∀ l : List Char, (∀ c ∈ l, Unreserved c) → encode l = l := by
    intro l
    induction l with
    | nil => intro _; rfl
    | cons c l ih =>
      intro hl
      have hc := (unreserved_char (hl c List.mem_cons_self)).2.2.2.2.2.2
      show encodeChar c ++ encode l = c :: l
      rw [ih (fun x hx => hl x (List.mem_cons_of_mem _ hx)), encodeChar, hc]
      rfl
  exact this s h.chars

theorem percent_noSlash (b : Nat) : '/' ∉ percent b := by
  have key : ∀ i < 16, hexDigits.getD i '0' ≠ '/' := by decide +kernel
  unfold percent
  simp only [List.mem_cons, List.not_mem_nil, or_false, not_or]
  refine ⟨by decide, Ne.symm (key _ (Nat.mod_lt _ (by decide))), Ne.symm (key _ (Nat.mod_lt _ (by decide)))⟩

theorem encode_noSlash {s : List Char} (h : '/' ∉ s) : '/' ∉ encode s := by
  unfold encode
  rw [List.mem_flatMap]
  rintro ⟨c, hc, hm⟩
  unfold encodeChar at hm
  split at hm
  · obtain ⟨b, _, hb⟩ := List.mem_flatMap.mp hm
    exact percent_noSlash b hb
  · rw [List.mem_singleton] at hm
    rw [← hm] at hc
    exact h hc

/-- Segments are told from each other by slashes. -/
theorem render_inj : ∀ a b : List (List Char), (∀ s ∈ a, '/' ∉ s) → (∀ s ∈ b, '/' ∉ s) → render a = render b → a = b
  | [], [], _, _, _ => rfl
  | [], t :: b, _, _, h => by simp [render] at h
  | s :: a, [], _, _, h => by simp [render] at h
  | s :: a, t :: b, ha, hb, h => by
    have split : ∀ (s t : List Char) (x y : List (List Char)), '/' ∉ s → '/' ∉ t → s ++ render x = t ++ render y → s = t ∧ render x = render y := by
      intro s
      induction s with
      | nil =>
        intro t x y _ ht e
        cases t with
        | nil => exact ⟨rfl, e⟩
        | cons c t =>
          cases x with
          | nil => simp [render] at e
          | cons u x =>
            simp only [List.nil_append, render, List.flatMap_cons, List.cons_append, List.cons.injEq] at e
            exact absurd (by rw [e.1]; exact List.mem_cons_self) ht
      | cons c s ih =>
        intro t x y hs ht e
        cases t with
        | nil =>
          cases y with
          | nil => simp [render] at e
          | cons u y =>
            simp only [List.nil_append, render, List.flatMap_cons, List.cons_append, List.cons.injEq] at e
            exact absurd (by rw [← e.1]; exact List.mem_cons_self) hs
        | cons d t =>
          simp only [List.cons_append, List.cons.injEq] at e
          obtain ⟨i1, i2⟩ := ih t x y (fun hm => hs (List.mem_cons_of_mem _ hm)) (fun hm => ht (List.mem_cons_of_mem _ hm)) e.2
          rw [e.1, i1]
          exact ⟨rfl, i2⟩
    have e : s ++ render a = t ++ render b := by
      have := h
      simp only [render, List.flatMap_cons, List.cons_append, List.cons.injEq, true_and] at this
      exact this
    obtain ⟨h1, h2⟩ := split s t a b (ha s List.mem_cons_self) (hb t List.mem_cons_self) e
    rw [h1, render_inj a b (fun x hx => ha x (List.mem_cons_of_mem _ hx)) (fun x hx => hb x (List.mem_cons_of_mem _ hx)) h2]

/-! ## Forms -/

theorem formByte_shape : ∀ b < 256, ((formByte b).length = 1 ∧ (formByte b).head? ≠ some '%') ∨
    ((formByte b).length = 3 ∧ (formByte b).head? = some '%') := by
  decide +kernel

theorem formByte_safe : ∀ b < 256, ∀ c ∈ formByte b, c ≠ '/' ∧ c ≠ '\\' ∧ c ≠ '\t' ∧ c ≠ '\n' ∧ c ≠ '\r' ∧ mustEncode c = false := by
  decide +kernel

def hexVal (c : Char) : Nat := hexDigits.findIdx (fun d => d == c)

def unformByte (s : List Char) : Nat :=
  match s with
  | ['+'] => 0x20
  | [c] => c.toNat
  | [_, a, b] => hexVal a * 16 + hexVal b
  | _ => 0

theorem unformByte_formByte : ∀ b < 256, unformByte (formByte b) = b := by decide +kernel

theorem form_inj : ∀ a b : List Nat, (∀ x ∈ a, x < 256) → (∀ x ∈ b, x < 256) → form a = form b → a = b
  | [], [], _, _, _ => rfl
  | [], y :: b, _, hb, h => by
    have := formByte_shape y (hb y List.mem_cons_self)
    have hl := congrArg List.length h
    simp only [form, List.flatMap_nil, List.flatMap_cons, List.length_nil, List.length_append] at hl
    omega
  | x :: a, [], ha, _, h => by
    have := formByte_shape x (ha x List.mem_cons_self)
    have hl := congrArg List.length h
    simp only [form, List.flatMap_nil, List.flatMap_cons, List.length_nil, List.length_append] at hl
    omega
  | x :: a, y :: b, ha, hb, h => by
    have hx := ha x List.mem_cons_self
    have hy := hb y List.mem_cons_self
    have e : formByte x ++ form a = formByte y ++ form b := h
    have hh : (formByte x).head? = (formByte y).head? := by
      have := congrArg List.head? e
      rw [List.head?_append, List.head?_append] at this
      cases h1 : (formByte x).head? with
      | none =>
        have := formByte_shape x hx
        rw [List.head?_eq_none_iff] at h1
        rw [h1] at this
        simp at this
      | some c =>
        cases h2 : (formByte y).head? with
        | none =>
          have := formByte_shape y hy
          rw [List.head?_eq_none_iff] at h2
          rw [h2] at this
          simp at this
        | some d =>
          rw [h1, h2] at this
          exact this
    have hl : (formByte x).length = (formByte y).length := by
      rcases formByte_shape x hx with ⟨l1, g1⟩ | ⟨l1, g1⟩ <;> rcases formByte_shape y hy with ⟨l2, g2⟩ | ⟨l2, g2⟩
      · rw [l1, l2]
      · rw [hh] at g1
        exact absurd g2 g1
      · rw [hh] at g1
        exact absurd g1 g2
      · rw [l1, l2]
    obtain ⟨e1, e2⟩ := List.append_inj e hl
    have : x = y := by rw [← unformByte_formByte x hx, e1, unformByte_formByte y hy]
    rw [this, form_inj a b (fun z hz => ha z (List.mem_cons_of_mem _ hz)) (fun z hz => hb z (List.mem_cons_of_mem _ hz)) e2]

theorem form_chars {b : List Nat} (h : ∀ x ∈ b, x < 256) : ∀ c ∈ form b, c ≠ '/' ∧ c ≠ '\\' ∧ c ≠ '\t' ∧ c ≠ '\n' ∧ c ≠ '\r' ∧ mustEncode c = false := by
  intro c hc
  obtain ⟨x, hx, hm⟩ := List.mem_flatMap.mp hc
  exact formByte_safe x (h x hx) c hm

theorem form_encode {b : List Nat} (h : ∀ x ∈ b, x < 256) : encode (form b) = form b := by
  have : ∀ l : List Char, (∀ c ∈ l, mustEncode c = false) → encode l = l := by
    intro l
    induction l with
    | nil => intro _; rfl
    | cons c l ih =>
      intro hl
      show encodeChar c ++ encode l = c :: l
      rw [ih (fun x hx => hl x (List.mem_cons_of_mem _ hx)), encodeChar, hl c List.mem_cons_self]
      rfl
  exact this _ (fun c hc => (form_chars h c hc).2.2.2.2.2)

theorem formByte_dots : ∀ b < 256, formByte b ≠ ['%', '2', 'e'] ∧ formByte b ≠ ['%', '2', 'E'] := by decide +kernel

theorem form_percent {b : List Nat} (h : ∀ x ∈ b, x < 256) {e : Char} {r : List Char} (he : e = 'e' ∨ e = 'E') : form b ≠ '%' :: '2' :: e :: r := by
  intro hf
  cases b with
  | nil => cases hf
  | cons x b =>
    have hx := h x List.mem_cons_self
    have e1 : formByte x ++ form b = ['%', '2', e] ++ r := hf
    rcases formByte_shape x hx with ⟨l, g⟩ | ⟨l, g⟩
    · have := congrArg List.head? e1
      rw [List.head?_append] at this
      cases hh : (formByte x).head? with
      | none =>
        rw [List.head?_eq_none_iff] at hh
        rw [hh] at l
        cases l
      | some c =>
        rw [hh] at this g
        simp only [Option.some_or, List.cons_append, List.nil_append, List.head?_cons, Option.some.injEq] at this
        exact g (by rw [this])
    · obtain ⟨e2, _⟩ := List.append_inj e1 (by rw [l]; rfl)
      rcases he with rfl | rfl
      · exact (formByte_dots x hx).1 e2
      · exact (formByte_dots x hx).2 e2

theorem form_dot {b : List Nat} (h : ∀ x ∈ b, x < 256) {t : List Char} (hf : form b = '.' :: t) :
    ∃ b', b = 0x2E :: b' ∧ form b' = t := by
  cases b with
  | nil => cases hf
  | cons x b =>
    have hx := h x List.mem_cons_self
    have e1 : formByte x ++ form b = ['.'] ++ t := hf
    rcases formByte_shape x hx with ⟨l, g⟩ | ⟨l, g⟩
    · obtain ⟨e2, e3⟩ := List.append_inj e1 (by rw [l]; rfl)
      have : x = 0x2E := by rw [← unformByte_formByte x hx, e2]; decide
      exact ⟨b, by rw [this], e3⟩
    · have := congrArg List.head? e1
      rw [List.head?_append, g] at this
      simp at this

/-- Just the names `.` and `..` of branches are dot segments. -/
theorem form_plain {b : List Nat} (h : ∀ x ∈ b, x < 256) (h1 : b ≠ [0x2E]) (h2 : b ≠ [0x2E, 0x2E]) : form b ∉ doubleDots ∧ form b ∉ singleDots := by
  have one : form b ≠ ['.'] := by
    intro hf
    obtain ⟨b', rfl, e⟩ := form_dot h hf
    have := form_inj b' [] (fun x hx => h x (List.mem_cons_of_mem _ hx)) (by simp) e
    exact h1 (by rw [this])
  have two : form b ≠ ['.', '.'] := by
    intro hf
    obtain ⟨b', rfl, e⟩ := form_dot h hf
    have h' : ∀ x ∈ b', x < 256 := fun x hx => h x (List.mem_cons_of_mem _ hx)
    obtain ⟨b2, rfl, e2⟩ := form_dot h' e
    have := form_inj b2 [] (fun x hx => h' x (List.mem_cons_of_mem _ hx)) (by simp) e2
    exact h2 (by rw [this])
  have three : ∀ e : Char, (e = 'e' ∨ e = 'E') → form b ≠ ['.', '%', '2', e] := by
    intro e he hf
    obtain ⟨b', rfl, e2⟩ := form_dot h hf
    exact form_percent (fun x hx => h x (List.mem_cons_of_mem _ hx)) he e2
  have d1 : doubleDots = [['.', '.'], ['.', '%', '2', 'e'], ['.', '%', '2', 'E'], ['%', '2', 'e', '.'], ['%', '2', 'E', '.'],
    ['%', '2', 'e', '%', '2', 'e'], ['%', '2', 'e', '%', '2', 'E'], ['%', '2', 'E', '%', '2', 'e'], ['%', '2', 'E', '%', '2', 'E']] := by
    decide +kernel
  have d2 : singleDots = [['.'], ['%', '2', 'e'], ['%', '2', 'E']] := by decide +kernel
  rw [d1, d2]
  simp only [List.mem_cons, List.not_mem_nil, or_false, not_or]
  exact ⟨⟨two, three _ (Or.inl rfl), three _ (Or.inr rfl), form_percent h (Or.inl rfl), form_percent h (Or.inr rfl), form_percent h (Or.inl rfl),
    form_percent h (Or.inl rfl), form_percent h (Or.inr rfl), form_percent h (Or.inr rfl)⟩, one, form_percent h (Or.inl rfl), form_percent h (Or.inr rfl)⟩

end Verif.StoreUrls
