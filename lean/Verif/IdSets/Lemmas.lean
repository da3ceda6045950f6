import Verif.IdSets.Spec
namespace Verif.IdSets

theorem zipBits_length (f : Bool → Bool → Bool) : ∀ a b : Bits, (zipBits f a b).length = a.length := by
  intro a b
  fun_induction zipBits f a b <;> simp_all

theorem zipBits_get (f : Bool → Bool → Bool) (a b : Bits) : ∀ i < a.length,
    (zipBits f a b)[i]? = some (f (a.getD i false) (b.getD i false)) := by
  fun_induction zipBits f a b with
  | case1 => simp
  | case2 a t ih => rintro (_ | i) hi <;> simp_all
  | case3 a t c u ih => rintro (_ | i) hi <;> simp_all

theorem getD_iff (b : Bits) (i : Nat) : b.getD i false = true ↔ b[i]? = some true := by
  rw [List.getD_eq_getElem?_getD]
  cases b[i]? <;> simp

theorem mem_lt {b : Bits} {i : Nat} (h : b[i]? = some true) : i < b.length := by
  apply Classical.byContradiction
  intro hn
  rw [List.getElem?_eq_none (by omega)] at h
  cases h

theorem grow_length (b : Bits) (n : Nat) : (b.grow n).length = Nat.max b.length n := by
  simp [Bits.grow, Nat.max_def]; split <;> omega

theorem grow_get (b : Bits) (n i : Nat) : (b.grow n)[i]? = some true ↔ b[i]? = some true := by
  unfold Bits.grow
  by_cases h : i < b.length
  · rw [List.getElem?_append_left h]
  · rw [List.getElem?_append_right (by omega), List.getElem?_eq_none (l := b) (by omega), List.getElem?_replicate]
    split <;> simp

theorem zip_mem (f : Bool → Bool → Bool) (a b : Bits) (i : Nat) :
    (zipBits f a b)[i]? = some true ↔ i < a.length ∧ f (a.getD i false) (b.getD i false) = true := by
  by_cases h : i < a.length
  · rw [zipBits_get f a b i h]; simp [h]
  · rw [List.getElem?_eq_none (by rw [zipBits_length]; omega)]; simp [h]

theorem IdSet.ext' {s t : IdSet} (h : s.bound = t.bound) (hm : ∀ j, s.mem j ↔ t.mem j) : s = t := by
  cases s; cases t
  simp only at h hm
  subst h
  congr
  funext j
  exact propext (hm j)

theorem set_mem {b : Bits} {i : Nat} (h : i < b.length) (v : Bool) (j : Nat) :
    (b.set i v)[j]? = some true ↔ if j = i then v = true else b[j]? = some true := by
  rw [List.getElem?_set]
  by_cases hj : i = j
  · subst hj; simp [h]
  · rw [if_neg hj, if_neg (Ne.symm hj)]

theorem setRange_mem {b : Bits} {s e : Nat} (h : s ≤ e ∧ e ≤ b.length) (v : Bool) (j : Nat) :
    (b.take s ++ List.replicate (e - s) v ++ b.drop e)[j]? = some true ↔
      if s ≤ j ∧ j < e then v = true else b[j]? = some true := by
  have hl : (b.take s).length = s := by rw [List.length_take]; omega
  by_cases h1 : j < s
  · rw [if_neg (by omega), List.append_assoc, List.getElem?_append_left (by omega), List.getElem?_take_of_lt h1]
  · by_cases h2 : j < e
    · rw [if_pos ⟨by omega, h2⟩, List.append_assoc, List.getElem?_append_right (by omega),
        List.getElem?_append_left (by rw [List.length_replicate]; omega), List.getElem?_replicate, hl,
        if_pos (by omega)]
      simp
    · rw [if_neg (by omega), List.getElem?_append_right (by simp; omega), List.getElem?_drop]
      simp only [List.length_append, List.length_replicate, hl]
      rw [show e + (j - (s + (e - s))) = j by omega]

/-- One operation. -/
theorem step_means (b : Bits) (o : Op) :
    (∀ b', b.step o = some b' → Means (asSet b) o (asSet b')) ∧
      ∀ s', Means (asSet b) o s' → ∃ b', b.step o = some b' ∧ s' = asSet b' := by
  have hone : ∀ b', b.step o = some b' → Means (asSet b) o (asSet b') := by
    intro b' hb
    cases o with
    | put i =>
      simp only [Bits.step, Bits.put] at hb
      split at hb <;> simp at hb
      subst hb
      rename_i h
      refine ⟨h, IdSet.ext' (by simp [asSet]) fun j => ?_⟩
      simp only [asSet, set_mem h]
      by_cases hj : j = i <;> simp [hj]
    | insert i =>
      simp only [Bits.step, Bits.insertBit] at hb
      split at hb <;> simp at hb
      subst hb
      rename_i h
      refine ⟨h, IdSet.ext' (by simp [asSet]) fun j => ?_⟩
      simp only [asSet, set_mem h]
      by_cases hj : j = i <;> simp [hj]
    | set i v =>
      simp only [Bits.step, Bits.setBit] at hb
      split at hb <;> simp at hb
      subst hb
      rename_i h
      exact ⟨h, IdSet.ext' (by simp [asSet]) fun j => by simp only [asSet, set_mem h]⟩
    | setRange s e v =>
      simp only [Bits.step, Bits.setRange] at hb
      split at hb <;> simp only [reduceCtorEq, Option.some.injEq] at hb
      subst hb
      rename_i h
      refine ⟨h.1, h.2, IdSet.ext' (by simp [asSet]; omega) fun j => ?_⟩
      simp only [asSet]
      rw [setRange_mem h]
    | grow n =>
      simp only [Bits.step, Option.some.injEq] at hb
      subst hb
      exact IdSet.ext' (by simp only [asSet, grow_length]) fun j => by simp only [asSet, grow_get]
    | setAll v =>
      simp only [Bits.step, Option.some.injEq] at hb
      subst hb
      refine IdSet.ext' (by simp [asSet, Bits.setAll]) fun j => ?_
      simp only [asSet, Bits.setAll, List.getElem?_replicate]
      by_cases h : j < b.length <;> simp [h]
    | not =>
      simp only [Bits.step, Option.some.injEq] at hb
      subst hb
      refine IdSet.ext' (by simp [asSet, Bits.not]) fun j => ?_
      simp only [asSet, Bits.not, List.getElem?_map]
      by_cases h : j < b.length
      · rw [List.getElem?_eq_getElem h]
        cases b[j] <;> simp [h]
      · rw [List.getElem?_eq_none (by omega)]
        simp [h]
    | or c =>
      simp only [Bits.step, Option.some.injEq] at hb
      subst hb
      refine IdSet.ext' (by simp only [asSet, Bits.or, zipBits_length, grow_length]) fun j => ?_
      simp only [asSet, Bits.or, zip_mem, grow_length, Bool.or_eq_true, getD_iff, grow_get]
      constructor
      · exact And.right
      · intro h
        refine ⟨?_, h⟩
        rcases h with h | h
        · exact Nat.lt_of_lt_of_le (mem_lt h) (Nat.le_max_left ..)
        · exact Nat.lt_of_lt_of_le (mem_lt h) (Nat.le_max_right ..)
    | and c =>
      simp only [Bits.step, Option.some.injEq] at hb
      subst hb
      refine IdSet.ext' (by simp only [asSet, Bits.and, zipBits_length]) fun j => ?_
      simp only [asSet, Bits.and, zip_mem, Bool.and_eq_true, getD_iff]
      exact ⟨And.right, fun h => ⟨mem_lt h.1, h⟩⟩
    | xor c =>
      simp only [Bits.step, Option.some.injEq] at hb
      subst hb
      refine IdSet.ext' (by simp only [asSet, Bits.xor, zipBits_length, grow_length]) fun j => ?_
      simp only [asSet, Bits.xor, zip_mem, grow_length]
      have e : (((b.grow c.length).getD j false != c.getD j false) = true) ↔
          ¬ (b[j]? = some true ↔ c[j]? = some true) := by
        rw [← grow_get b c.length j, ← getD_iff, ← getD_iff]
        cases (b.grow c.length).getD j false <;> cases c.getD j false <;> simp
      rw [e]
      constructor
      · exact And.right
      · intro h
        refine ⟨?_, h⟩
        apply Classical.byContradiction
        intro hn
        apply h
        have h1 : ¬ b[j]? = some true := fun hh => hn (Nat.lt_of_lt_of_le (mem_lt hh) (Nat.le_max_left ..))
        have h2 : ¬ c[j]? = some true := fun hh => hn (Nat.lt_of_lt_of_le (mem_lt hh) (Nat.le_max_right ..))
        simp [h1, h2]
  refine ⟨hone, ?_⟩
  intro s' hs
  have fin : ∀ b', b.step o = some b' → (∀ t, Means (asSet b) o t → t = s') → ∃ b', b.step o = some b' ∧ s' = asSet b' :=
    fun b' h hu => ⟨b', h, (hu _ (hone b' h)).symm⟩
  cases o with
  | put i => exact fin _ (by simp only [Bits.step, Bits.put, if_pos (show i < b.length from hs.1)]; rfl) fun t ht => ht.2.trans hs.2.symm
  | insert i => exact fin _ (by simp only [Bits.step, Bits.insertBit, if_pos (show i < b.length from hs.1)]; rfl) fun t ht => ht.2.trans hs.2.symm
  | set i v => exact fin _ (by simp only [Bits.step, Bits.setBit, if_pos (show i < b.length from hs.1)]; rfl) fun t ht => ht.2.trans hs.2.symm
  | setRange x y v =>
    exact fin _ (by simp only [Bits.step, Bits.setRange, if_pos (show x ≤ y ∧ y ≤ b.length from ⟨hs.1, hs.2.1⟩)]; rfl)
      fun t ht => ht.2.2.trans hs.2.2.symm
  | grow n => exact fin _ rfl fun t ht => Eq.trans ht (Eq.symm hs)
  | setAll v => exact fin _ rfl fun t ht => Eq.trans ht (Eq.symm hs)
  | not => exact fin _ rfl fun t ht => Eq.trans ht (Eq.symm hs)
  | or c => exact fin _ rfl fun t ht => Eq.trans ht (Eq.symm hs)
  | and c => exact fin _ rfl fun t ht => Eq.trans ht (Eq.symm hs)
  | xor c => exact fin _ rfl fun t ht => Eq.trans ht (Eq.symm hs)

theorem positions_spec (v : Bool) (i : Nat) (b : Bits) :
    (positions v i b).Pairwise (· < ·) ∧ ∀ j, j ∈ positions v i b ↔ i ≤ j ∧ b[j - i]? = some v := by
  induction b generalizing i with
  | nil => simp [positions]
  | cons a t ih =>
    obtain ⟨h1, h2⟩ := ih (i + 1)
    have hsucc : ∀ j, j ≠ i → (i + 1 ≤ j ∧ t[j - (i + 1)]? = some v ↔ i ≤ j ∧ (a :: t)[j - i]? = some v) := by
      intro j hj
      constructor
      · rintro ⟨x, y⟩
        refine ⟨by omega, ?_⟩
        rw [show j - i = (j - (i + 1)) + 1 by omega, List.getElem?_cons_succ]; exact y
      · rintro ⟨x, y⟩
        refine ⟨by omega, ?_⟩
        rw [show j - i = (j - (i + 1)) + 1 by omega, List.getElem?_cons_succ] at y; exact y
    unfold positions
    split
    · rename_i h
      refine ⟨List.pairwise_cons.2 ⟨fun j hj => ((h2 j).1 hj).1, h1⟩, ?_⟩
      intro j
      rw [List.mem_cons, h2]
      by_cases hj : j = i
      · subst hj; simp [h]
      · rw [hsucc j hj]; simp [hj]
    · rename_i h
      refine ⟨h1, ?_⟩
      intro j
      rw [h2]
      by_cases hj : j = i
      · subst hj; simp [h]; omega
      · exact hsucc j hj

/-! ## Ranges -/

theorem range'_lt (s n : Nat) : ∀ x ∈ List.range' s n, s ≤ x ∧ x < s + n := by
  intro x hx; simpa using List.mem_range'_1.1 hx

theorem sliceLoop_spec {max : Nat} (hmax : max + 1 < W) : ∀ (t : List Nat) (s : Nat), s ≤ max → (∀ x ∈ t, x ≤ max) →
    (∀ e, sliceLoop s t = some e → t = List.range' (s + 1) t.length ∧ e = s + t.length) ∧
      (sliceLoop s t = none → t ≠ List.range' (s + 1) t.length) := by
  intro t
  induction t with
  | nil => intro s _ _; simp [sliceLoop]
  | cons x t ih =>
    intro s hs ht
    have hm : (s + 1) % W = s + 1 := Nat.mod_eq_of_lt (by omega)
    unfold sliceLoop
    rw [hm]
    by_cases hx : x = s + 1
    · subst hx
      rw [if_neg (by simp)]
      obtain ⟨i1, i2⟩ := ih (s + 1) (ht (s + 1) (by simp)) fun y hy => ht y (by simp [hy])
      constructor
      · intro e he
        obtain ⟨a, b⟩ := i1 e he
        refine ⟨?_, by simp; omega⟩
        rw [List.length_cons, List.range'_succ, ← a]
      · intro hn hc
        rw [List.length_cons, List.range'_succ] at hc
        exact i2 hn (List.cons.inj hc).2
    · rw [if_pos hx]
      refine ⟨by simp, ?_⟩
      intro _ hc
      rw [List.length_cons, List.range'_succ] at hc
      exact hx (List.cons.inj hc).1

theorem dedup_spec : ∀ l : List Nat, l.Pairwise (· ≤ ·) →
    (dedup l).Pairwise (· < ·) ∧ ∀ x, x ∈ dedup l ↔ x ∈ l := by
  intro l
  fun_induction dedup l with
  | case1 => simp
  | case2 a => simp
  | case3 b t ih =>
    intro h
    obtain ⟨h1, h2⟩ := ih (List.pairwise_cons.1 h).2
    refine ⟨h1, fun x => ?_⟩
    rw [h2]; simp
  | case4 a b t hab ih =>
    intro h
    obtain ⟨h0, h'⟩ := List.pairwise_cons.1 h
    obtain ⟨h1, h2⟩ := ih h'
    refine ⟨List.pairwise_cons.2 ⟨?_, h1⟩, fun x => by rw [List.mem_cons, h2, List.mem_cons (l := b :: t)]⟩
    intro x hx
    have hx' := (h2 x).1 hx
    have hb : b ≤ x := by
      rcases List.mem_cons.1 hx' with rfl | hm
      · exact Nat.le_refl _
      · exact (List.pairwise_cons.1 h').1 x hm
    have := h0 b (by simp)
    omega

theorem findAll_eq {V : Type} (m : List (Nat × V)) (id : Nat) (h : m.Pairwise fun a b => a.1 ≤ b.1) :
    findAll m id = (m.filter fun p => p.1 = id).map (·.2) := by
  unfold findAll
  congr 1
  unfold point
  induction m with
  | nil => rfl
  | cons a t ih =>
    obtain ⟨h0, h'⟩ := List.pairwise_cons.1 h
    by_cases hlt : a.1 < id
    · rw [List.takeWhile_cons_of_pos (by simpa using hlt), List.length_cons, List.drop_succ_cons, ih h',
        List.filter_cons_of_neg (by simp; omega)]
    · rw [List.takeWhile_cons_of_neg (by simpa using hlt), List.length_nil, List.drop_zero]
      clear ih h
      -- from here on all ids are at least `id`
      have hge : ∀ p ∈ a :: t, id ≤ p.1 := by
        intro p hp
        rcases List.mem_cons.1 hp with rfl | hp
        · omega
        · have := h0 p hp; omega
      have hs : (a :: t).Pairwise fun a b => a.1 ≤ b.1 := List.pairwise_cons.2 ⟨h0, h'⟩
      generalize a :: t = l at hge hs
      induction l with
      | nil => rfl
      | cons c u ihu =>
        obtain ⟨g0, g'⟩ := List.pairwise_cons.1 hs
        by_cases hc : c.1 = id
        · rw [List.takeWhile_cons_of_pos (by simpa using hc), List.filter_cons_of_pos (by simpa using hc),
            ihu (fun p hp => hge p (by simp [hp])) g']
        · rw [List.takeWhile_cons_of_neg (by simpa using hc), List.filter_cons_of_neg (by simpa using hc)]
          symm
          rw [List.filter_eq_nil_iff]
          intro p hp
          have h1 := g0 p hp
          have h2 := hge c (by simp)
          simp only [decide_eq_true_eq]
          omega

end Verif.IdSets
