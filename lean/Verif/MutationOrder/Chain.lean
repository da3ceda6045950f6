import Verif.MutationOrder.Model
import Mathlib.Data.List.Nodup
import Mathlib.Data.List.Perm.Subperm

/-! `partitionOrder` recovers the order of a chain of partitions. -/
namespace Verif.MutationOrder

theorem mem_afterEdges {l : List Nat} {x y : Nat} :
    (y, x) ∈ afterEdges l ↔ ∃ l1 l2, l = l1 ++ x :: y :: l2 := by
  induction l with
  | nil => simp [afterEdges]
  | cons a l ih =>
    cases l with
    | nil =>
      simp only [afterEdges, List.not_mem_nil, false_iff]
      rintro ⟨l1, l2, e⟩
      have := congrArg List.length e
      simp at this
      omega
    | cons b l =>
      simp only [afterEdges, List.mem_cons, Prod.mk.injEq, ih]
      constructor
      · rintro (⟨rfl, rfl⟩ | ⟨l1, l2, e⟩)
        · exact ⟨[], l, rfl⟩
        · exact ⟨a :: l1, l2, by simp [e]⟩
      · rintro ⟨l1, l2, e⟩
        cases l1 with
        | nil =>
          simp at e
          exact Or.inl ⟨e.2.1.symm, e.1.symm⟩
        | cons c l1 =>
          simp at e
          exact Or.inr ⟨l1, l2, e.2⟩

/-- In a list without duplicates, an element determines the parts before and after it. -/
theorem split_unique {l1 l2 l1' l2' : List Nat} {x : Nat} (hn : (l1 ++ x :: l2).Nodup)
    (h : l1 ++ x :: l2 = l1' ++ x :: l2') : l1 = l1' ∧ l2 = l2' := by
  induction l1 generalizing l1' with
  | nil =>
    cases l1' with
    | nil => simpa using h
    | cons a l1' =>
      simp at h hn
      obtain ⟨rfl, rfl⟩ := h
      simp at hn
  | cons a l1 ih =>
    cases l1' with
    | nil =>
      simp at h
      obtain ⟨rfl, rfl⟩ := h
      simp at hn
    | cons b l1' =>
      simp at h
      obtain ⟨rfl, h⟩ := h
      simp only [List.cons_append, List.nodup_cons] at hn
      obtain ⟨rfl, rfl⟩ := ih hn.2 h
      exact ⟨rfl, rfl⟩

theorem next_unique {l : List Nat} (hn : l.Nodup) {x y y' : Nat} (h : (y, x) ∈ afterEdges l)
    (h' : (y', x) ∈ afterEdges l) : y = y' := by
  obtain ⟨l1, l2, rfl⟩ := mem_afterEdges.1 h
  obtain ⟨l1', l2', e⟩ := mem_afterEdges.1 h'
  have := (split_unique hn e).2
  simp at this
  exact this.1

theorem prev_unique {l : List Nat} (hn : l.Nodup) {x x' y : Nat} (h : (y, x) ∈ afterEdges l)
    (h' : (y, x') ∈ afterEdges l) : x = x' := by
  obtain ⟨l1, l2, rfl⟩ := mem_afterEdges.1 h
  obtain ⟨l1', l2', e⟩ := mem_afterEdges.1 h'
  have e2 : (l1 ++ [x]) ++ y :: l2 = (l1' ++ [x']) ++ y :: l2' := by simpa using e
  have := (split_unique (by simpa using hn) e2).1
  have := List.append_inj' this rfl
  simpa using this.2

theorem mem_collect {after : List (Nat × Nat)} {ns : List Nat} {p n : Nat} :
    (p, n) ∈ (collect after ns).1 ↔ n ∈ ns ∧ after.find? (fun e => e.1 == n) = some (n, p) := by
  induction ns with
  | nil => simp [collect]
  | cons m ns ih =>
    simp only [collect]
    cases hf : after.find? (fun e => e.1 == m) with
    | none =>
      simp only [ih, List.mem_cons]
      constructor
      · rintro ⟨h1, h2⟩; exact ⟨Or.inr h1, h2⟩
      · rintro ⟨rfl | h1, h2⟩
        · rw [hf] at h2; simp at h2
        · exact ⟨h1, h2⟩
    | some e =>
      have he : e.1 = m := by simpa using List.find?_some hf
      simp only [List.mem_cons, ih, Prod.mk.injEq]
      constructor
      · rintro (⟨rfl, rfl⟩ | ⟨h1, h2⟩)
        · exact ⟨Or.inl rfl, by rw [hf, ← he]⟩
        · exact ⟨Or.inr h1, h2⟩
      · rintro ⟨rfl | h1, h2⟩
        · rw [hf] at h2
          simp at h2
          exact Or.inl ⟨by rw [h2], rfl⟩
        · exact Or.inr ⟨h1, h2⟩

theorem collect_init {after : List (Nat × Nat)} {ns : List Nat} :
    (∀ i, (collect after ns).2 = some i → i ∈ ns ∧ after.find? (fun e => e.1 == i) = none) ∧
      ((collect after ns).2 = none → ∀ n ∈ ns, after.find? (fun e => e.1 == n) ≠ none) := by
  induction ns with
  | nil => simp [collect]
  | cons m ns ih =>
    simp only [collect]
    cases hf : after.find? (fun e => e.1 == m) with
    | some e =>
      simp only
      refine ⟨fun i hi => ?_, fun h n hn => ?_⟩
      · obtain ⟨h1, h2⟩ := ih.1 i hi
        exact ⟨by simp [h1], h2⟩
      · simp at hn
        rcases hn with rfl | hn
        · rw [hf]; simp
        · exact ih.2 h n hn
    | none =>
      simp only
      refine ⟨fun i hi => ?_, fun h n hn => ?_⟩
      · cases hc : (collect after ns).2 with
        | none =>
          rw [hc] at hi
          simp at hi
          subst hi
          exact ⟨by simp, hf⟩
        | some j =>
          rw [hc] at hi
          simp at hi
          subst hi
          obtain ⟨h1, h2⟩ := ih.1 _ hc
          exact ⟨by simp [h1], h2⟩
      · simp at h

theorem find_pair {l : List (Nat × Nat)} {n p : Nat} (hu : ∀ q, (n, q) ∈ l → q = p) (hm : (n, p) ∈ l) :
    l.find? (fun e => e.1 == n) = some (n, p) := by
  cases hf : l.find? (fun e => e.1 == n) with
  | none =>
    have := List.find?_eq_none.1 hf (n, p) hm
    simp at this
  | some e =>
    have h1 : e.1 = n := by simpa using List.find?_some hf
    have h2 := List.mem_of_find?_eq_some hf
    obtain ⟨a, b⟩ := e
    simp only at h1
    subst h1
    rw [hu b h2]

theorem follow_chain {l : List Nat} {pairs : List (Nat × Nat)} (hn : l.Nodup)
    (hp : ∀ x y, (x, y) ∈ pairs ↔ (y, x) ∈ afterEdges l) (x : Nat) (l2 : List Nat) :
    ∀ (l1 : List Nat) (fuel : Nat), l = l1 ++ x :: l2 → l2.length ≤ fuel → follow pairs fuel x = l2 := by
  induction l2 generalizing x with
  | nil =>
    intro l1 fuel e _
    cases fuel with
    | zero => rfl
    | succ fuel =>
      have : pairs.find? (fun p => p.1 == x) = none := by
        rw [List.find?_eq_none]
        rintro ⟨a, b⟩ hm
        simp only [beq_iff_eq]
        rintro rfl
        obtain ⟨l1', l2', e'⟩ := mem_afterEdges.1 ((hp _ _).1 hm)
        rw [e] at e' hn
        have := (split_unique hn e').2
        simp at this
      simp [follow, this]
  | cons y l2 ih =>
    intro l1 fuel e hf
    cases fuel with
    | zero => simp at hf
    | succ fuel =>
      have hmem : (y, x) ∈ afterEdges l := mem_afterEdges.2 ⟨l1, l2, e⟩
      have : pairs.find? (fun p => p.1 == x) = some (x, y) :=
        find_pair (fun q hq => next_unique hn ((hp _ _).1 hq) hmem) ((hp _ _).2 hmem)
      simp only [follow, this]
      rw [ih y (l1 ++ [x]) fuel (by simp [e]) (by simp at hf; omega)]

/-- For a chain of distinct partitions, whatever the iteration order of the graph, the partition order is the
chain. -/
theorem partitionOrder_chain {order ns : List Nat} (hn : order.Nodup) (hne : order ≠ [])
    (hp : ns.Perm order) (after : List (Nat × Nat)) (ha : after.Perm (afterEdges order)) :
    partitionOrder after ns = some order := by
  obtain ⟨a, l, rfl⟩ := List.exists_cons_of_ne_nil hne
  have hfind : ∀ n p, after.find? (fun e => e.1 == n) = some (n, p) ↔ (n, p) ∈ afterEdges (a :: l) := by
    intro n p
    constructor
    · intro h; exact ha.mem_iff.1 (List.mem_of_find?_eq_some h)
    · intro h
      exact find_pair (fun q hq => prev_unique hn (ha.mem_iff.1 hq) h) (ha.mem_iff.2 h)
  have hnone : ∀ n ∈ ns, after.find? (fun e => e.1 == n) = none → n = a := by
    intro n hnm h
    have hm : n ∈ a :: l := hp.mem_iff.1 hnm
    obtain ⟨l1, l2, e⟩ := List.append_of_mem hm
    rcases List.eq_nil_or_concat l1 with rfl | ⟨l1, x, rfl⟩
    · simp at e; exact e.1.symm
    · have : (n, x) ∈ after := ha.mem_iff.2 (mem_afterEdges.2 ⟨l1, l2, by simpa using e⟩)
      have := List.find?_eq_none.1 h _ this
      simp at this
  have haa : after.find? (fun e => e.1 == a) = none := by
    rw [List.find?_eq_none]
    rintro ⟨y, x⟩ hm
    simp only [beq_iff_eq]
    rintro rfl
    obtain ⟨l1, l2, e⟩ := mem_afterEdges.1 (ha.mem_iff.1 hm)
    have e2 : [] ++ y :: l = (l1 ++ [x]) ++ y :: l2 := by simpa using e
    have := (split_unique (l1 := []) (by simpa using hn) e2).1
    simp at this
  have hpairs : ∀ x y, (x, y) ∈ (collect after ns).1 ↔ (y, x) ∈ afterEdges (a :: l) := by
    intro x y
    rw [mem_collect, hfind]
    constructor
    · exact fun h => h.2
    · intro h
      refine ⟨hp.mem_iff.2 ?_, h⟩
      obtain ⟨l1, l2, e⟩ := mem_afterEdges.1 h
      rw [e]; simp
  have hinit : (collect after ns).2 = some a := by
    cases hc : (collect after ns).2 with
    | none =>
      exact absurd haa (collect_init.2 hc a (hp.mem_iff.2 (by simp)))
    | some i =>
      obtain ⟨h1, h2⟩ := collect_init.1 i hc
      rw [hnone i h1 h2]
  have hlen : l.length ≤ (collect after ns).1.length := by
    have hsub : l ⊆ (collect after ns).1.map (·.2) := by
      intro y hy
      obtain ⟨l1, l2, e⟩ := List.append_of_mem hy
      rcases List.eq_nil_or_concat l1 with rfl | ⟨l1', x, rfl⟩
      · have : (a, y) ∈ (collect after ns).1 := (hpairs _ _).2 (mem_afterEdges.2 ⟨[], l2, by simp [e]⟩)
        exact List.mem_map_of_mem this
      · have : (x, y) ∈ (collect after ns).1 :=
          (hpairs _ _).2 (mem_afterEdges.2 ⟨a :: l1', l2, by simp [e]⟩)
        exact List.mem_map_of_mem this
    have := (List.subperm_of_subset (List.nodup_cons.1 hn).2 hsub).length_le
    simpa using this
  unfold partitionOrder
  cases hc : collect after ns with
  | mk pairs init =>
    rw [hc] at hinit hpairs hlen
    simp only at hinit hpairs hlen
    subst hinit
    simp only
    rw [follow_chain hn hpairs a l [] _ rfl (by omega)]

end Verif.MutationOrder
