import Verif.AccessToken.Spec
namespace Verif.AccessToken

theorem isWs_iff (c : Nat) : isWs c = true ↔ c ∈ spaces := by
  simp only [isWs, spaces, List.mem_cons, List.not_mem_nil, or_false, Bool.or_eq_true, Bool.and_eq_true, decide_eq_true_eq, beq_iff_eq]
  omega

theorem dropWhile_all {a x : List Nat} (ha : ∀ c ∈ a, isWs c = true) (hx : ∀ c x', x = c :: x' → isWs c = false) :
    (a ++ x).dropWhile isWs = x := by
  induction a with
  | nil =>
    cases x with
    | nil => rfl
    | cons c x => simp [hx c x rfl]
  | cons c a ih =>
    have : isWs c = true := ha c (by simp)
    simp [this, ih (fun c hc => ha c (List.mem_cons_of_mem _ hc))]

theorem dropWhile_split (s : List Nat) :
    ∃ a, s = a ++ s.dropWhile isWs ∧ (∀ c ∈ a, isWs c = true) ∧ ∀ c x, s.dropWhile isWs = c :: x → isWs c = false := by
  induction s with
  | nil => exact ⟨[], rfl, by simp, by simp⟩
  | cons c s ih =>
    cases h : isWs c with
    | true =>
      obtain ⟨a, h1, h2, h3⟩ := ih
      refine ⟨c :: a, ?_, ?_, ?_⟩
      · simp only [List.dropWhile_cons, h, if_true, List.cons_append]
        rw [← h1]
      · intro d hd
        rcases List.mem_cons.mp hd with hd | hd
        · exact hd ▸ h
        · exact h2 d hd
      · simpa [List.dropWhile_cons, h] using h3
    | false =>
      refine ⟨[], by simp [h], by simp, ?_⟩
      intro d x hx
      simp only [List.dropWhile_cons, h, Bool.false_eq_true, if_false, List.cons.injEq] at hx
      exact hx.1 ▸ h

theorem notSpace {c : Nat} : c ∉ spaces ↔ isWs c = false := by
  rw [← isWs_iff]
  simp

theorem trim_inner (s : List Nat) : Inner s (trim s) := by
  obtain ⟨a, h1, h2, h3⟩ := dropWhile_split s
  obtain ⟨b, h4, h5, h6⟩ := dropWhile_split (s.dropWhile isWs).reverse
  have h7 : s.dropWhile isWs = trim s ++ b.reverse := by
    have := congrArg List.reverse h4
    simpa [trim] using this
  refine ⟨a, b.reverse, ?_, fun c hc => (isWs_iff c).mp (h2 c hc), fun c hc => (isWs_iff c).mp (h5 c (by simpa using hc)), ?_, ?_⟩
  · rw [List.append_assoc, ← h7, ← h1]
  · intro c t ht
    rw [notSpace]
    exact h3 c (t ++ b.reverse) (by rw [h7, ht]; rfl)
  · intro t c ht
    rw [notSpace]
    refine h6 c t.reverse ?_
    have := congrArg List.reverse ht
    simpa [trim] using this

theorem inner_trim {s t : List Nat} (h : Inner s t) : trim s = t := by
  obtain ⟨a, b, rfl, ha, hb, hf, hl⟩ := h
  have ha' : ∀ c ∈ a, isWs c = true := fun c hc => (isWs_iff c).mpr (ha c hc)
  have hb' : ∀ c ∈ b, isWs c = true := fun c hc => (isWs_iff c).mpr (hb c hc)
  unfold trim
  cases t with
  | nil =>
    have : (a ++ [] ++ b).dropWhile isWs = [] := by
      have := dropWhile_all (a := a ++ b) (x := []) (by
        intro c hc
        rcases List.mem_append.mp hc with hc | hc
        · exact ha' c hc
        · exact hb' c hc) (by simp)
      simpa using this
    rw [this]
    rfl
  | cons c t =>
    rw [List.append_assoc, dropWhile_all ha' (by
      intro d x hx
      simp only [List.cons_append, List.cons.injEq] at hx
      exact hx.1 ▸ notSpace.mp (hf c t rfl))]
    rw [List.reverse_append, dropWhile_all (by simpa using hb') (by
      intro d x hx
      refine notSpace.mp (hl x.reverse d ?_)
      have := congrArg List.reverse hx
      simpa using this)]
    simp

theorem utf8_valid (c : Nat) : (utf8 c).all validByte = true ↔ c = 9 ∨ (32 ≤ c ∧ c ≠ 127) := by
  unfold utf8
  split
  · simp only [List.all_cons, List.all_nil, Bool.and_true, validByte, Bool.or_eq_true, Bool.and_eq_true, decide_eq_true_eq, bne_iff_ne,
      ne_eq, beq_iff_eq]
    omega
  · have hb : ∀ b, 128 ≤ b → validByte b = true := by
      intro b hb
      simp only [validByte, Bool.or_eq_true, Bool.and_eq_true, decide_eq_true_eq, bne_iff_ne, ne_eq, beq_iff_eq]
      omega
    have hc : c = 9 ∨ (32 ≤ c ∧ c ≠ 127) := by omega
    simp only [hc, iff_true]
    split
    · simp only [List.all_cons, List.all_nil, Bool.and_true, Bool.and_eq_true]
      exact ⟨hb _ (by omega), hb _ (by omega)⟩
    · split
      · simp only [List.all_cons, List.all_nil, Bool.and_true, Bool.and_eq_true]
        exact ⟨hb _ (by omega), hb _ (by omega), hb _ (by omega)⟩
      · simp only [List.all_cons, List.all_nil, Bool.and_true, Bool.and_eq_true]
        exact ⟨hb _ (by omega), hb _ (by omega), hb _ (by omega), hb _ (by omega)⟩

theorem header_valid (t : List Nat) : (headerValue t).all validByte = true ↔ Clean t := by
  have hall : ∀ l : List Nat, (l.flatMap utf8).all validByte = true ↔ Clean l := by
    intro l
    induction l with
    | nil => simp [Clean]
    | cons c l ih =>
      rw [List.flatMap_cons, List.all_append, Bool.and_eq_true, utf8_valid, ih]
      simp [Clean]
  unfold headerValue
  rw [hall]
  constructor
  · exact fun h c hc => h c (List.mem_append_right _ hc)
  · intro h c hc
    rcases List.mem_append.mp hc with hc | hc
    · simp only [bearer, List.mem_cons, List.not_mem_nil, or_false] at hc
      omega
    · exact h c hc

end Verif.AccessToken
