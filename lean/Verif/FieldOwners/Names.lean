import Verif.FieldOwners.Owners

/-!
# The values of the enum of subgraphs
-/

namespace Verif.FieldOwners

theorem char_cases {p : Char → Bool} (h : ∀ n, n < 128 → p (Char.ofNat n) = true) {c : Char} (hc : c.toNat < 128) :
    p c = true := by
  have := h c.toNat hc
  rwa [Char.ofNat_toNat] at this

theorem lower_upper {c : Char} (hc : c.toNat < 128) : c.toUpper.toLower = c.toLower := by
  have := char_cases (p := fun c => decide (c.toUpper.toLower = c.toLower)) (by decide +kernel) hc
  simpa using this

theorem not_underscore {c : Char} (hc : c.toNat < 128) (ha : c.isAlphanum = true) :
    c.toUpper ≠ '_' ∧ c ≠ '-' ∧ c ≠ '_' ∧ c ≠ ' ' := by
  have := char_cases (p := fun c => !c.isAlphanum || decide (c.toUpper ≠ '_' ∧ c ≠ '-' ∧ c ≠ '_' ∧ c ≠ ' ')) (by decide +kernel) hc
  rw [ha] at this
  simpa using this

theorem alpha_alphanum {c : Char} (h : c.isAlpha = true) : c.isAlphanum = true := by
  simp [Char.isAlphanum, h]

/-- The characters of an accepted ASCII name. -/
theorem valid_chars {u : Unicode} (hu : u.Ascii) {n : Name} (hascii : ∀ c ∈ n, c.toNat < 128) (hv : validName u n = true) :
    ∀ c ∈ n, c = '-' ∨ c.isAlphanum = true := by
  cases n with
  | nil => simp [validName] at hv
  | cons a as =>
    simp only [validName, Bool.and_eq_true, List.all_eq_true, Bool.or_eq_true_iff, beq_iff_eq] at hv
    intro c hc
    rcases List.mem_cons.1 hc with rfl | hc'
    · right
      rw [hu.alphabetic _ (hascii c List.mem_cons_self)] at hv
      exact alpha_alphanum hv.1
    · rcases hv.2 c hc' with h | h
      · exact Or.inl h
      · rw [hu.alphanumeric _ (hascii c hc)] at h
        exact Or.inr h

/-- The enum value of an accepted ASCII name, character by character. -/
theorem enum_eq {u : Unicode} (hu : u.Ascii) {n : Name} (hascii : ∀ c ∈ n, c.toNat < 128)
    (hc : ∀ c ∈ n, c = '-' ∨ c.isAlphanum = true) :
    enumName u n = n.map fun c => if c = '-' then '_' else c.toUpper := by
  unfold enumName
  induction n with
  | nil => rfl
  | cons a as ih =>
    rw [List.flatMap_cons, List.map_cons, ih (fun c h => hascii c (List.mem_cons_of_mem _ h)) fun c h => hc c (List.mem_cons_of_mem _ h)]
    rcases hc a List.mem_cons_self with rfl | h
    · simp
    · obtain ⟨_, h2, h3, h4⟩ := not_underscore (hascii a List.mem_cons_self) h
      simp [h2, h3, h4, hu.upper a (hascii a List.mem_cons_self)]

theorem enum_lower {u : Unicode} (hu : u.Ascii) {a b : Name} (ha : ∀ c ∈ a, c.toNat < 128) (hb : ∀ c ∈ b, c.toNat < 128)
    (hva : validName u a = true) (hvb : validName u b = true) (he : enumName u a = enumName u b) :
    asciiLower a = asciiLower b := by
  have ca := valid_chars hu ha hva
  have cb := valid_chars hu hb hvb
  rw [enum_eq hu ha ca, enum_eq hu hb cb] at he
  clear hva hvb
  unfold asciiLower
  induction a generalizing b with
  | nil =>
    cases b with
    | nil => rfl
    | cons y ys => simp at he
  | cons x xs ih =>
    cases b with
    | nil => simp at he
    | cons y ys =>
      simp only [List.map_cons, List.cons.injEq] at he ⊢
      refine ⟨?_, ih (fun c h => ha c (List.mem_cons_of_mem _ h)) (fun c h => hb c (List.mem_cons_of_mem _ h))
        he.2 (fun c h => ca c (List.mem_cons_of_mem _ h)) (fun c h => cb c (List.mem_cons_of_mem _ h))⟩
      have h1 := he.1
      have hx := ha x List.mem_cons_self
      have hy := hb y List.mem_cons_self
      rcases ca x List.mem_cons_self with rfl | h <;> rcases cb y List.mem_cons_self with rfl | h'
      · rfl
      · obtain ⟨n1, n2, _⟩ := not_underscore hy h'
        simp only [if_true, n2, if_false] at h1
        exact absurd h1.symm n1
      · obtain ⟨n1, n2, _⟩ := not_underscore hx h
        simp only [if_true, n2, if_false] at h1
        exact absurd h1 n1
      · obtain ⟨_, n2, _⟩ := not_underscore hx h
        obtain ⟨_, m2, _⟩ := not_underscore hy h'
        simp only [n2, m2, if_false] at h1
        rw [← lower_upper hx, ← lower_upper hy, h1]

theorem validated {u : Unicode} {seen ns : List Name} (h : validateNames u seen ns = []) :
    (∀ n ∈ ns, validName u n = true ∧ asciiLower n ∉ seen) ∧ (ns.Pairwise fun a b => asciiLower a ≠ asciiLower b) := by
  induction ns generalizing seen with
  | nil => exact ⟨fun n hn => (by cases hn), List.Pairwise.nil⟩
  | cons n ns ih =>
    simp only [validateNames, List.append_eq_nil_iff] at h
    obtain ⟨⟨h1, h2⟩, h3⟩ := h
    obtain ⟨i1, i2⟩ := ih h3
    have hv : validName u n = true := by
      by_cases e : validName u n = true
      · exact e
      · rw [if_neg e] at h1; cases h1
    have hs : asciiLower n ∉ seen := by
      intro e
      rw [if_pos e] at h2; cases h2
    refine ⟨fun m hm => ?_, List.Pairwise.cons (fun m hm => ?_) i2⟩
    · rcases List.mem_cons.1 hm with rfl | hm
      · exact ⟨hv, hs⟩
      · exact ⟨(i1 m hm).1, fun e => (i1 m hm).2 (List.mem_cons_of_mem _ e)⟩
    · intro e
      exact (i1 m hm).2 (by rw [← e]; exact List.mem_cons_self)

end Verif.FieldOwners
