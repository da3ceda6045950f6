import Verif.Views.Lemmas

/-!
# Views of the response: lemmas about the required fields that are built
-/

namespace Verif.Views

open Verif.OpChecks (sortBy sortBy_perm sortBy_sorted)

/-! ## The nodes of a set -/

theorem nodesIn_eq (i : Item Data) : nodesIn i = i.data.node :: nodesOf i.sub := by
  cases i with
  | mk a d s => rw [nodesIn]; rfl

theorem nodesOf_append (a b : List (Item Data)) : nodesOf (a ++ b) = nodesOf a ++ nodesOf b := by
  induction a with
  | nil => rw [nodesOf]; rfl
  | cons x t ih => rw [List.cons_append, nodesOf, nodesOf, ih, List.append_assoc]

theorem nodesOf_perm {a b : List (Item Data)} (h : a.Perm b) : (nodesOf a).Perm (nodesOf b) := by
  induction h with
  | nil => exact .refl _
  | cons x _ ih =>
    rw [nodesOf, nodesOf]
    exact ih.append_left _
  | swap x y l =>
    rw [nodesOf, nodesOf, nodesOf, nodesOf, ← List.append_assoc, ← List.append_assoc]
    exact List.perm_append_comm.append_right _
  | trans _ _ ih1 ih2 => exact ih1.trans ih2

theorem ofVec_perm {α : Type} (l : List (Item α)) : (ofVec l).Perm l := sortBy_perm _ l

theorem mem_ofVec {α : Type} {x : Item α} {l : List (Item α)} : x ∈ ofVec l ↔ x ∈ l := (ofVec_perm l).mem_iff

theorem ofVec_sorted {α : Type} (l : List (Item α)) : (ofVec l).Pairwise fun a b => a.id ≤ b.id := by
  have h := sortBy_sorted (le := fun a b : Item α => decide (a.id ≤ b.id))
    (by intro a b c h1 h2; simp only [decide_eq_true_eq] at *; omega)
    (by intro a b; simp; omega) l
  exact h.imp (by intro a b hab; simpa using hab)

theorem mem_nodesOf {n : Nat} {l : List (Item Data)} : n ∈ nodesOf l ↔ ∃ i ∈ l, n ∈ nodesIn i := by
  induction l with
  | nil => rw [nodesOf]; simp
  | cons x t ih => rw [nodesOf, List.mem_append, ih]; simp

/-! ## `swap_remove` -/

theorem perm_set_last (last x : Nat) : ∀ (init : List Nat) (i : Nat), init[i]? = some x →
    (init ++ [last]).Perm (x :: init.set i last)
  | [], i, h => by simp at h
  | y :: t, 0, h => by
    simp at h
    subst h
    simp only [List.cons_append, List.set_cons_zero]
    exact List.Perm.cons _ List.perm_append_comm
  | y :: t, i + 1, h => by
    rw [List.getElem?_cons_succ] at h
    have := perm_set_last last x t i h
    simp only [List.cons_append, List.set_cons_succ]
    exact (this.cons y).trans (List.Perm.swap x y _)

theorem swapRemove_perm {l : List Nat} {i x : Nat} (h : l[i]? = some x) : l.Perm (x :: swapRemove l i) := by
  unfold swapRemove
  cases hl : l.getLast? with
  | none =>
    rw [List.getLast?_eq_none_iff] at hl
    subst hl
    simp at h
  | some last =>
    obtain ⟨init, rfl⟩ := List.getLast?_eq_some_iff.1 hl
    simp only
    by_cases hi : i < init.length
    · rw [List.getElem?_append_left hi] at h
      rw [List.set_append_left _ _ hi, List.dropLast_concat]
      exact perm_set_last last x init i h
    · have hi2 : i = init.length := by
        have := (List.getElem?_eq_some_iff.1 h).1
        simp at this
        omega
      subst hi2
      rw [List.getElem?_append_right (Nat.le_refl _)] at h
      simp at h
      subst h
      rw [List.set_append_right _ _ (Nat.le_refl _)]
      simp only [Nat.sub_self, List.set_cons_zero, List.dropLast_concat]
      exact List.perm_append_comm

theorem position_some {l : List Nat} {n i : Nat} (h : position l n = some i) : l[i]? = some n := by
  unfold position at h
  obtain ⟨hi, h1, -⟩ := List.findIdx?_eq_some_iff_getElem.1 h
  rw [List.getElem?_eq_getElem hi]
  simpa using h1

theorem position_none {l : List Nat} {n : Nat} (h : position l n = none) : n ∉ l := by
  unfold position at h
  rw [List.findIdx?_eq_none_iff] at h
  intro hn
  have := h n hn
  simp at this

theorem exists_min : ∀ (l : List Nat), l ≠ [] → ∃ x ∈ l, ∀ y ∈ l, x ≤ y
  | [], h => absurd rfl h
  | [a], _ => ⟨a, List.mem_cons_self, by simp⟩
  | a :: b :: t, _ => by
    obtain ⟨x, hx, hm⟩ := exists_min (b :: t) (by simp)
    by_cases hax : a ≤ x
    · refine ⟨a, List.mem_cons_self, ?_⟩
      intro y hy
      rcases List.mem_cons.1 hy with rfl | hy
      · exact Nat.le_refl _
      · exact Nat.le_trans hax (hm y hy)
    · refine ⟨x, List.mem_cons_of_mem _ hx, ?_⟩
      intro y hy
      rcases List.mem_cons.1 hy with rfl | hy
      · omega
      · exact hm y hy

theorem positionMin_none {l : List Nat} (h : positionMin l = none) : l = [] := by
  unfold positionMin at h
  rw [List.findIdx?_eq_none_iff] at h
  apply Classical.byContradiction
  intro hne
  obtain ⟨x, hx, hm⟩ := exists_min l hne
  have := h x hx
  rw [Bool.eq_false_iff] at this
  apply this
  simpa [List.all_eq_true] using hm

theorem positionMin_some {l : List Nat} {i : Nat} (h : positionMin l = some i) :
    ∃ x, l[i]? = some x ∧ ∀ y ∈ l, x ≤ y := by
  unfold positionMin at h
  obtain ⟨hi, h1, -⟩ := List.findIdx?_eq_some_iff_getElem.1 h
  refine ⟨l[i], List.getElem?_eq_getElem hi, ?_⟩
  simpa [List.all_eq_true] using h1

/-! ## What is below a node -/

theorem placed_iff {g : Graph} {l : List (Item Data)} : Placed g l ↔ ∀ i ∈ l, PlacedItem g i := by
  induction l with
  | nil => rw [Placed]; simp
  | cons x t ih => rw [Placed, ih]; simp

theorem placedItem_eq {g : Graph} (i : Item Data) : PlacedItem g i ↔
    g.field i.data.node = some (i.id, i.data) ∧ (∀ s ∈ i.sub, Under g i.data.node s.data.node) ∧ Placed g i.sub := by
  cases i with
  | mk a d s => rw [PlacedItem]; rfl

/-- A node of a set is the one of an item of the first level or is directly below another node of the set. -/
theorem nodesOf_under {g : Graph} {l : List (Item Data)} (h : Placed g l) {n : Nat} (hn : n ∈ nodesOf l) :
    (∃ i ∈ l, i.data.node = n) ∨ ∃ p ∈ nodesOf l, Under g p n := by
  suffices hs : ∀ (k : Nat) (l : List (Item Data)), (nodesOf l).length ≤ k → Placed g l → ∀ n ∈ nodesOf l,
      (∃ i ∈ l, i.data.node = n) ∨ ∃ p ∈ nodesOf l, Under g p n from hs _ l (Nat.le_refl _) h n hn
  intro k
  induction k with
  | zero =>
    intro l hk _ n hn
    have : nodesOf l = [] := List.length_eq_zero_iff.1 (by omega)
    rw [this] at hn
    cases hn
  | succ k ih =>
    intro l hk hp n hn
    obtain ⟨i, hi, hni⟩ := mem_nodesOf.1 hn
    obtain ⟨h1, h2, h3⟩ := (placedItem_eq i).1 (placed_iff.1 hp i hi)
    rw [nodesIn_eq] at hni
    rcases List.mem_cons.1 hni with rfl | hni
    · exact .inl ⟨i, hi, rfl⟩
    · have hsub : ∀ m ∈ nodesIn i, m ∈ nodesOf l := fun m hm => mem_nodesOf.2 ⟨i, hi, hm⟩
      have hlen : (nodesOf i.sub).length ≤ k := by
        obtain ⟨s, t, rfl⟩ := List.append_of_mem hi
        rw [nodesOf_append, nodesOf, nodesIn_eq] at hk
        simp only [List.length_append, List.length_cons] at hk
        omega
      rcases ih i.sub hlen h3 n hni with ⟨s, hs, rfl⟩ | ⟨p, hp, hu⟩
      · refine .inr ⟨i.data.node, hsub _ ?_, h2 s hs⟩
        rw [nodesIn_eq]
        exact List.mem_cons_self
      · refine .inr ⟨p, hsub _ ?_, hu⟩
        rw [nodesIn_eq]
        exact List.mem_cons_of_mem _ hp

/-! ## The subselection -/

/-- What is known of the loops of `create_subselection`: the items that were added and the
dependencies that are left are those there were, the added items are placed and directly below what
`below` says, and nothing of it is left. -/
structure SubDone (g : Graph) (below : Nat → Prop) (deps : List Nat) (acc : List (Item Data))
    (out : List (Item Data) × List Nat) : Prop where
  added : ∃ new, out.1 = acc ++ new ∧ Placed g new ∧ (∀ i ∈ new, below i.data.node) ∧
    (nodesOf new ++ out.2).Perm deps
  none : ∀ t ∈ out.2, ¬ below t

theorem SubDone.sub {g : Graph} {below : Nat → Prop} {deps : List Nat} {acc : List (Item Data)}
    {out : List (Item Data) × List Nat} (h : SubDone g below deps acc out) : ∀ t ∈ out.2, t ∈ deps := by
  obtain ⟨new, -, -, -, hp⟩ := h.added
  intro t ht
  exact hp.mem_iff.1 (List.mem_append_right _ ht)

mutual

theorem subStack_done {g : Graph} (hg : Labelled g) : ∀ (fuel : Nat) (stack deps : List Nat) (acc : List (Item Data))
    (out : List (Item Data) × List Nat), subStack g fuel stack deps acc = .ok out → deps.Nodup →
    SubDone g (fun t => ∃ p ∈ stack, Under g p t) deps acc out
  | 0, stack, deps, acc, out, h, hn => by
    rw [subStack] at h
    cases h
  | fuel + 1, [], deps, acc, out, h, hn => by
    rw [subStack] at h
    cases h
    refine ⟨⟨[], (by simp), (by rw [Placed]; trivial), (by intro i hi; cases hi), (by rw [nodesOf]; exact .refl _)⟩, ?_⟩
    rintro t - ⟨p, hp, -⟩
    cases hp
  | fuel + 1, p :: stack, deps, acc, out, h, hn => by
    rw [subStack] at h
    have hd := subEdges_done hg fuel (g.edges p) stack deps acc out h hn
    obtain ⟨new, h1, h2, h3, h4⟩ := hd.added
    refine ⟨⟨new, h1, h2, ?_, h4⟩, ?_⟩
    · intro i hi
      rcases h3 i hi with h | ⟨q, hq, hu⟩ | ⟨q, hq, hu⟩
      · exact ⟨p, List.mem_cons_self, .field _ _ h⟩
      · exact ⟨p, List.mem_cons_self, .partition _ _ _ hq hu⟩
      · exact ⟨q, List.mem_cons_of_mem _ hq, hu⟩
    · rintro t ht ⟨q, hq, hu⟩
      refine hd.none t ht ?_
      rcases List.mem_cons.1 hq with rfl | hq
      · cases hu with
        | field _ _ h => exact .inl h
        | partition _ q' _ h u => exact .inr (.inl ⟨q', h, u⟩)
      · exact .inr (.inr ⟨q, hq, hu⟩)

theorem subEdges_done {g : Graph} (hg : Labelled g) : ∀ (fuel : Nat) (es : List Edge) (stack deps : List Nat)
    (acc : List (Item Data)) (out : List (Item Data) × List Nat), subEdges g fuel es stack deps acc = .ok out →
    deps.Nodup →
    SubDone g (fun t => .field t ∈ es ∨ (∃ q, .partition q ∈ es ∧ Under g q t) ∨ ∃ q ∈ stack, Under g q t) deps acc out
  | 0, es, stack, deps, acc, out, h, hn => by
    rw [subEdges] at h
    cases h
  | fuel + 1, [], stack, deps, acc, out, h, hn => by
    rw [subEdges] at h
    have hd := subStack_done hg fuel stack deps acc out h hn
    obtain ⟨new, h1, h2, h3, h4⟩ := hd.added
    refine ⟨⟨new, h1, h2, fun i hi => .inr (.inr (h3 i hi)), h4⟩, ?_⟩
    rintro t ht (h | ⟨q, hq, -⟩ | h)
    · cases h
    · cases hq
    · exact hd.none t ht h
  | fuel + 1, .other :: es, stack, deps, acc, out, h, hn => by
    rw [subEdges] at h
    have hd := subEdges_done hg fuel es stack deps acc out h hn
    obtain ⟨new, h1, h2, h3, h4⟩ := hd.added
    refine ⟨⟨new, h1, h2, ?_, h4⟩, ?_⟩
    · intro i hi
      rcases h3 i hi with h | ⟨q, hq, hu⟩ | h
      · exact .inl (List.mem_cons_of_mem _ h)
      · exact .inr (.inl ⟨q, List.mem_cons_of_mem _ hq, hu⟩)
      · exact .inr (.inr h)
    · rintro t ht (h | ⟨q, hq, hu⟩ | h)
      · rcases List.mem_cons.1 h with h | h
        · cases h
        · exact hd.none t ht (.inl h)
      · rcases List.mem_cons.1 hq with h | h
        · cases h
        · exact hd.none t ht (.inr (.inl ⟨q, h, hu⟩))
      · exact hd.none t ht (.inr (.inr h))
  | fuel + 1, .partition x :: es, stack, deps, acc, out, h, hn => by
    rw [subEdges] at h
    have hd := subEdges_done hg fuel es (x :: stack) deps acc out h hn
    obtain ⟨new, h1, h2, h3, h4⟩ := hd.added
    refine ⟨⟨new, h1, h2, ?_, h4⟩, ?_⟩
    · intro i hi
      rcases h3 i hi with h | ⟨q, hq, hu⟩ | ⟨q, hq, hu⟩
      · exact .inl (List.mem_cons_of_mem _ h)
      · exact .inr (.inl ⟨q, List.mem_cons_of_mem _ hq, hu⟩)
      · rcases List.mem_cons.1 hq with rfl | hq
        · exact .inr (.inl ⟨q, List.mem_cons_self, hu⟩)
        · exact .inr (.inr ⟨q, hq, hu⟩)
    · rintro t ht (h | ⟨q, hq, hu⟩ | ⟨q, hq, hu⟩)
      · rcases List.mem_cons.1 h with h | h
        · cases h
        · exact hd.none t ht (.inl h)
      · rcases List.mem_cons.1 hq with h | h
        · cases h
          exact hd.none t ht (.inr (.inr ⟨x, List.mem_cons_self, hu⟩))
        · exact hd.none t ht (.inr (.inl ⟨q, h, hu⟩))
      · exact hd.none t ht (.inr (.inr ⟨q, List.mem_cons_of_mem _ hq, hu⟩))
  | fuel + 1, .field x :: es, stack, deps, acc, out, h, hn => by
    rw [subEdges] at h
    split at h
    · rename_i hpos
      have hd := subEdges_done hg fuel es stack deps acc out h hn
      obtain ⟨new, h1, h2, h3, h4⟩ := hd.added
      refine ⟨⟨new, h1, h2, ?_, h4⟩, ?_⟩
      · intro i hi
        rcases h3 i hi with h | ⟨q, hq, hu⟩ | h
        · exact .inl (List.mem_cons_of_mem _ h)
        · exact .inr (.inl ⟨q, List.mem_cons_of_mem _ hq, hu⟩)
        · exact .inr (.inr h)
      · rintro t ht (h | ⟨q, hq, hu⟩ | h)
        · rcases List.mem_cons.1 h with h | h
          · cases h
            exact position_none hpos (hd.sub x ht)
          · exact hd.none t ht (.inl h)
        · rcases List.mem_cons.1 hq with h | h
          · cases h
          · exact hd.none t ht (.inr (.inl ⟨q, h, hu⟩))
        · exact hd.none t ht (.inr (.inr h))
    · rename_i ix hpos
      split at h
      · cases h
      · rename_i id d hfield
        split at h
        · cases h
        · cases h
        · rename_i sub deps1 hsub
          have hperm := swapRemove_perm (position_some hpos)
          have hn1 : (x :: swapRemove deps ix).Nodup := hperm.nodup_iff.1 hn
          obtain ⟨hx, hn2⟩ := List.nodup_cons.1 hn1
          have hs := subStack_done hg fuel [x] (swapRemove deps ix) [] (sub, deps1) hsub hn2
          obtain ⟨new1, e1, p1, u1, m1⟩ := hs.added
          simp only [List.nil_append] at e1
          subst e1
          have hn3 : deps1.Nodup := (List.nodup_append.1 (m1.nodup_iff.2 hn2)).2.1
          have hd := subEdges_done hg fuel es stack deps1 _ out h hn3
          obtain ⟨new, h1, h2, h3, h4⟩ := hd.added
          have hnode : d.node = x := hg _ _ _ hfield
          refine ⟨⟨.mk id d (ofVec sub) :: new, ?_, ?_, ?_, ?_⟩, ?_⟩
          · rw [h1, List.append_assoc]
            rfl
          · rw [Placed]
            refine ⟨(placedItem_eq _).2 ⟨?_, ?_, ?_⟩, h2⟩
            · show g.field d.node = some (id, d)
              rw [hnode, hfield]
            · intro s hss
              have hss : s ∈ ofVec sub := hss
              obtain ⟨q, hq, hu⟩ := u1 s (mem_ofVec.1 hss)
              rcases List.mem_cons.1 hq with rfl | hq
              · show Under g d.node s.data.node
                rw [hnode]
                exact hu
              · cases hq
            · show Placed g (ofVec sub)
              rw [placed_iff]
              intro i hi
              exact placed_iff.1 p1 i (mem_ofVec.1 hi)
          · intro i hi
            rcases List.mem_cons.1 hi with rfl | hi
            · refine .inl ?_
              show Edge.field d.node ∈ _
              rw [hnode]
              exact List.mem_cons_self
            · rcases h3 i hi with h | ⟨q, hq, hu⟩ | h
              · exact .inl (List.mem_cons_of_mem _ h)
              · exact .inr (.inl ⟨q, List.mem_cons_of_mem _ hq, hu⟩)
              · exact .inr (.inr h)
          · rw [nodesOf, nodesIn]
            refine List.Perm.trans ?_ hperm.symm
            rw [hnode, List.cons_append, List.cons_append]
            refine List.Perm.cons _ ?_
            refine List.Perm.trans ?_ m1
            rw [List.append_assoc]
            exact ((nodesOf_perm (ofVec_perm sub)).append_right _).trans (h4.append_left _)
          · rintro t ht (h | ⟨q, hq, hu⟩ | h)
            · rcases List.mem_cons.1 h with h | h
              · cases h
                have : x ∈ deps1 := hd.sub x ht
                exact hx (m1.mem_iff.1 (List.mem_append_right _ this))
              · exact hd.none t ht (.inl h)
            · rcases List.mem_cons.1 hq with h | h
              · cases h
              · exact hd.none t ht (.inr (.inl ⟨q, h, hu⟩))
            · exact hd.none t ht (.inr (.inr h))

end

/-! ## The whole set -/

/-- What is known after some of the loop of `create_required_field_set`. -/
structure LoopInv (g : Graph) (all deps : List Nat) (acc : List (Item Data)) (dropped : List Nat) : Prop where
  perm : (nodesOf acc ++ dropped ++ deps).Perm all
  placed : Placed g acc
  /-- The first level and what is dropped is below no dependency. -/
  top : ∀ i ∈ acc, ∀ p ∈ all, ¬ Under g p i.data.node
  top' : ∀ n ∈ dropped, ∀ p ∈ all, ¬ Under g p n
  /-- Nothing that is left is below what was seen. -/
  left : ∀ t ∈ deps, ∀ p ∈ nodesOf acc ++ dropped, ¬ Under g p t
  composite : ∀ n ∈ dropped, ∃ id d, g.field n = some (id, d) ∧ g.composite id = true
  /-- Nothing that was seen is below what is dropped, other than what is below something else as well. -/
  alone : ∀ n ∈ dropped, ∀ t ∈ all, Under g n t → ∃ p ∈ nodesOf acc, Under g p t
  /-- The first of what was seen come before what is left. -/
  low : ∀ i ∈ acc, ∀ t ∈ deps, i.data.node ≤ t
  low' : ∀ n ∈ dropped, ∀ t ∈ deps, n ≤ t

/-- What is left after the subselection of a node is below no node of the subselection. -/
theorem subStack_none_below {g : Graph} (hg : Labelled g) : ∀ (fuel : Nat) (stack deps : List Nat) (acc : List (Item Data))
    (out : List (Item Data) × List Nat), subStack g fuel stack deps acc = .ok out → deps.Nodup →
    ∀ new, out.1 = acc ++ new → ∀ p ∈ nodesOf new, ∀ t ∈ out.2, ¬ Under g p t := by
  suffices hs : ∀ (fuel : Nat),
      (∀ (stack deps : List Nat) (acc : List (Item Data)) (out : List (Item Data) × List Nat),
        subStack g fuel stack deps acc = .ok out → deps.Nodup →
        ∀ new, out.1 = acc ++ new → ∀ p ∈ nodesOf new, ∀ t ∈ out.2, ¬ Under g p t) ∧
      (∀ (es : List Edge) (stack deps : List Nat) (acc : List (Item Data)) (out : List (Item Data) × List Nat),
        subEdges g fuel es stack deps acc = .ok out → deps.Nodup →
        ∀ new, out.1 = acc ++ new → ∀ p ∈ nodesOf new, ∀ t ∈ out.2, ¬ Under g p t) from fun fuel => (hs fuel).1
  intro fuel
  induction fuel with
  | zero =>
    constructor
    · intro stack deps acc out h
      rw [subStack] at h
      cases h
    · intro es stack deps acc out h
      rw [subEdges] at h
      cases h
  | succ fuel ih =>
    obtain ⟨ih1, ih2⟩ := ih
    constructor
    · intro stack deps acc out h hn new hnew
      cases stack with
      | nil =>
        rw [subStack] at h
        cases h
        have : new = [] := by
          have := congrArg List.length hnew
          simp at this
          exact this
        subst this
        intro p hp
        rw [nodesOf] at hp
        cases hp
      | cons q stack =>
        rw [subStack] at h
        exact ih2 _ _ _ _ _ h hn new hnew
    · intro es stack deps acc out h hn new hnew
      cases es with
      | nil =>
        rw [subEdges] at h
        exact ih1 _ _ _ _ h hn new hnew
      | cons e es =>
        cases e with
        | other =>
          rw [subEdges] at h
          exact ih2 _ _ _ _ _ h hn new hnew
        | partition x =>
          rw [subEdges] at h
          exact ih2 _ _ _ _ _ h hn new hnew
        | field x =>
          rw [subEdges] at h
          split at h
          · exact ih2 _ _ _ _ _ h hn new hnew
          · rename_i ix hpos
            split at h
            · cases h
            · rename_i id d hfield
              split at h
              · cases h
              · cases h
              · rename_i sub deps1 hsub
                have hperm := swapRemove_perm (position_some hpos)
                have hn1 : (x :: swapRemove deps ix).Nodup := hperm.nodup_iff.1 hn
                obtain ⟨hx, hn2⟩ := List.nodup_cons.1 hn1
                have hs := subStack_done hg fuel [x] (swapRemove deps ix) [] (sub, deps1) hsub hn2
                obtain ⟨new1, e1, p1, u1, m1⟩ := hs.added
                have hn3 : deps1.Nodup := (List.nodup_append.1 (m1.nodup_iff.2 hn2)).2.1
                have hd := subEdges_done hg fuel es stack deps1 _ out h hn3
                obtain ⟨new2, h1, -, -, -⟩ := hd.added
                have hn' : new = .mk id d (ofVec sub) :: new2 := by
                  rw [h1, List.append_assoc] at hnew
                  exact (List.append_cancel_left hnew).symm
                subst hn'
                intro p hp t ht
                rw [nodesOf, nodesIn, List.cons_append] at hp
                have ht1 : t ∈ deps1 := hd.sub t ht
                rcases List.mem_cons.1 hp with rfl | hp
                · intro hu
                  refine hs.none t ht1 ⟨x, List.mem_cons_self, ?_⟩
                  rw [hg _ _ _ hfield] at hu
                  exact hu
                · rcases List.mem_append.1 hp with hp | hp
                  · exact ih1 _ _ _ _ hsub hn2 sub rfl p ((nodesOf_perm (ofVec_perm sub)).mem_iff.1 hp) t ht1
                  · exact ih2 _ _ _ _ _ h hn3 new2 h1 p hp t ht

theorem requiredLoop_inv {g : Graph} (hg : Labelled g) {all : List Nat} (hi : Increasing g all) (hall : all.Nodup) {depth : Nat} :
    ∀ (fuel : Nat) (deps : List Nat) (acc : List (Item Data)) (dropped : List Nat) (out : List (Item Data)),
      requiredLoop g depth fuel deps acc = .ok out → LoopInv g all deps acc dropped →
      ∃ acc' dropped', out = ofVec acc' ∧ LoopInv g all [] acc' dropped'
  | 0, deps, acc, dropped, out, h, _ => by
    rw [requiredLoop] at h
    cases h
  | fuel + 1, deps, acc, dropped, out, h, inv => by
    rw [requiredLoop] at h
    split at h
    · rename_i hpos
      have := positionMin_none hpos
      subst this
      cases h
      exact ⟨acc, dropped, rfl, inv⟩
    · rename_i ix hpos
      obtain ⟨x, hx, hmin⟩ := positionMin_some hpos
      rw [hx] at h
      simp only at h
      split at h
      · cases h
      · rename_i id d hfield
        have hnode : d.node = x := hg _ _ _ hfield
        split at h
        · cases h
        · cases h
        · rename_i sub deps1 hsub
          have hperm := swapRemove_perm hx
          have hnd : deps.Nodup := (List.nodup_append.1 (inv.perm.nodup_iff.2 hall)).2.1
          have hn1 : (x :: swapRemove deps ix).Nodup := hperm.nodup_iff.1 hnd
          obtain ⟨hxn, hn2⟩ := List.nodup_cons.1 hn1
          have hs := subStack_done hg depth [x] (swapRemove deps ix) [] (sub, deps1) hsub hn2
          have hbelow := subStack_none_below hg depth [x] (swapRemove deps ix) [] (sub, deps1) hsub hn2 sub rfl
          obtain ⟨new1, e1, p1, u1, m1⟩ := hs.added
          simp only [List.nil_append] at e1
          subst e1
          simp only at m1 hbelow
          have hsubd : ∀ t ∈ deps1, t ∈ deps := fun t ht =>
            hperm.mem_iff.2 (List.mem_cons_of_mem _ (m1.mem_iff.1 (List.mem_append_right _ ht)))
          have hxd : x ∈ deps := hperm.mem_iff.2 List.mem_cons_self
          have hxall : x ∈ all := inv.perm.mem_iff.1 (List.mem_append_right _ hxd)
          -- nothing that is a dependency is above `x`
          have htop : ∀ p ∈ all, ¬ Under g p x := by
            intro p hp hu
            rcases List.mem_append.1 (inv.perm.mem_iff.2 hp) with h1 | h1
            · exact inv.left x hxd p h1 hu
            · have := hmin p h1
              have := hi _ hp _ hxall hu
              omega
          by_cases hdrop : (sub.isEmpty && g.composite id) = true
          · rw [if_pos hdrop] at h
            obtain ⟨hse, hcomp⟩ := (Bool.and_eq_true _ _).mp hdrop
            have hse := List.isEmpty_iff.1 hse
            subst hse
            rw [nodesOf, List.nil_append] at m1
            refine requiredLoop_inv hg hi hall fuel deps1 acc (dropped ++ [x]) out h ⟨?_, inv.placed, inv.top, ?_, ?_, ?_, ?_, ?_, ?_⟩
            · refine List.Perm.trans ?_ inv.perm
              rw [← List.append_assoc, List.append_assoc (nodesOf acc ++ dropped)]
              exact ((m1.cons x).trans hperm.symm).append_left _
            · intro n hn
              rcases List.mem_append.1 hn with hn | hn
              · exact inv.top' n hn
              · rcases List.mem_cons.1 hn with rfl | hn
                · exact htop
                · cases hn
            · intro t ht p hp
              rw [← List.append_assoc] at hp
              rcases List.mem_append.1 hp with hp | hp
              · exact inv.left t (hsubd t ht) p hp
              · rcases List.mem_cons.1 hp with rfl | hp
                · exact fun hu => hs.none t ht ⟨p, List.mem_cons_self, hu⟩
                · cases hp
            · intro n hn
              rcases List.mem_append.1 hn with hn | hn
              · exact inv.composite n hn
              · rcases List.mem_cons.1 hn with rfl | hn
                · exact ⟨id, d, hfield, hcomp⟩
                · cases hn
            · intro n hn t ht hu
              rcases List.mem_append.1 hn with hn | hn
              · exact inv.alone n hn t ht hu
              · rcases List.mem_cons.1 hn with rfl | hn
                · -- `t` is below `n`, which is dropped: it was seen before
                  have htd : t ∉ deps := by
                    intro htd
                    rcases List.mem_cons.1 (hperm.mem_iff.1 htd) with rfl | h1
                    · exact absurd (hi _ hxall _ ht hu) (Nat.lt_irrefl _)
                    · exact hs.none t (m1.mem_iff.2 h1) ⟨n, List.mem_cons_self, hu⟩
                  rcases List.mem_append.1 (inv.perm.mem_iff.2 ht) with h1 | h1
                  · rcases List.mem_append.1 h1 with h2 | h2
                    · rcases nodesOf_under inv.placed h2 with ⟨i, hi', he⟩ | h3
                      · have := inv.low i hi' n hxd
                        have := hi _ hxall _ ht hu
                        omega
                      · exact h3
                    · have := inv.low' t h2 n hxd
                      have := hi _ hxall _ ht hu
                      omega
                  · exact absurd h1 htd
                · cases hn
            · intro i hi' t ht
              exact inv.low i hi' t (hsubd t ht)
            · intro n hn t ht
              rcases List.mem_append.1 hn with hn | hn
              · exact inv.low' n hn t (hsubd t ht)
              · rcases List.mem_cons.1 hn with rfl | hn
                · exact hmin t (hsubd t ht)
                · cases hn
          · rw [if_neg hdrop] at h
            have hnodes : nodesOf (acc ++ [Item.mk id d (ofVec sub)]) = nodesOf acc ++ (x :: nodesOf (ofVec sub)) := by
              rw [nodesOf_append, nodesOf, nodesOf, nodesIn, hnode, List.append_nil]
            refine requiredLoop_inv hg hi hall fuel deps1 _ dropped out h ⟨?_, ?_, ?_, inv.top', ?_, inv.composite, ?_, ?_, ?_⟩
            · refine List.Perm.trans ?_ inv.perm
              rw [hnodes]
              have h1 : (x :: nodesOf (ofVec sub) ++ deps1).Perm deps :=
                ((((nodesOf_perm (ofVec_perm sub)).append_right _).trans m1).cons x).trans hperm.symm
              rw [List.append_assoc, List.append_assoc]
              rw [List.append_assoc]
              refine List.Perm.append_left _ ?_
              refine List.Perm.trans ?_ (h1.append_left dropped)
              rw [← List.append_assoc, ← List.append_assoc]
              exact List.perm_append_comm.append_right _
            · rw [placed_iff]
              intro i hi'
              rcases List.mem_append.1 hi' with hi' | hi'
              · exact placed_iff.1 inv.placed i hi'
              · rcases List.mem_cons.1 hi' with rfl | hi'
                · refine (placedItem_eq _).2 ⟨?_, ?_, ?_⟩
                  · show g.field d.node = some (id, d)
                    rw [hnode, hfield]
                  · intro s hss
                    have hss : s ∈ ofVec sub := hss
                    obtain ⟨q, hq, hu⟩ := u1 s (mem_ofVec.1 hss)
                    rcases List.mem_cons.1 hq with rfl | hq
                    · show Under g d.node s.data.node
                      rw [hnode]
                      exact hu
                    · cases hq
                  · show Placed g (ofVec sub)
                    rw [placed_iff]
                    intro i hi
                    exact placed_iff.1 p1 i (mem_ofVec.1 hi)
                · cases hi'
            · intro i hi'
              rcases List.mem_append.1 hi' with hi' | hi'
              · exact inv.top i hi'
              · rcases List.mem_cons.1 hi' with rfl | hi'
                · show ∀ p ∈ all, ¬ Under g p d.node
                  rw [hnode]
                  exact htop
                · cases hi'
            · intro t ht p hp
              rw [hnodes] at hp
              have hp' : p ∈ nodesOf acc ++ dropped ∨ p = x ∨ p ∈ nodesOf sub := by
                rcases List.mem_append.1 hp with hp | hp
                · rcases List.mem_append.1 hp with hp | hp
                  · exact .inl (List.mem_append_left _ hp)
                  · rcases List.mem_cons.1 hp with hp | hp
                    · exact .inr (.inl hp)
                    · exact .inr (.inr ((nodesOf_perm (ofVec_perm sub)).mem_iff.1 hp))
                · exact .inl (List.mem_append_right _ hp)
              rcases hp' with hp | rfl | hp
              · exact inv.left t (hsubd t ht) p hp
              · exact fun hu => hs.none t ht ⟨p, List.mem_cons_self, hu⟩
              · exact hbelow p hp t ht
            · intro n hn t ht hu
              obtain ⟨p, hp, hpu⟩ := inv.alone n hn t ht hu
              refine ⟨p, ?_, hpu⟩
              rw [hnodes]
              exact List.mem_append_left _ hp
            · intro i hi' t ht
              rcases List.mem_append.1 hi' with hi' | hi'
              · exact inv.low i hi' t (hsubd t ht)
              · rcases List.mem_cons.1 hi' with rfl | hi'
                · show d.node ≤ t
                  rw [hnode]
                  exact hmin t (hsubd t ht)
                · cases hi'
            · intro n hn t ht
              exact inv.low' n hn t (hsubd t ht)

theorem createRequired_inv {g : Graph} (hg : Labelled g) {deps : List Nat} (hi : Increasing g deps) (hd : deps.Nodup)
    {depth : Nat} {out : List (Item Data)} (h : createRequired g depth deps = .ok out) :
    ∃ acc dropped, out = ofVec acc ∧ LoopInv g deps [] acc dropped := by
  refine requiredLoop_inv hg hi hd _ deps [] [] out h ⟨?_, ?_, ?_, ?_, ?_, ?_, ?_, ?_, ?_⟩
  · rw [nodesOf]
    exact .refl _
  · rw [Placed]
    trivial
  all_goals
    first
    | (intro i hi'; cases hi'; done)
    | (intro t ht p hp; rw [nodesOf] at hp; cases hp)

/-! ## No field twice -/

theorem strict_of_sorted {l : List (Item Data)} (hp : l.Pairwise fun a b => a.id ≤ b.id)
    (hn : l.Pairwise fun a b => a.id ≠ b.id) (hs : ∀ i ∈ l, Strict i.sub) : Strict l := by
  induction l with
  | nil => exact .nil
  | cons x t ih =>
    obtain ⟨a, b⟩ := List.pairwise_cons.1 hp
    obtain ⟨c, d⟩ := List.pairwise_cons.1 hn
    refine .cons x t (hs x List.mem_cons_self) ?_ (ih b d (fun i hi => hs i (List.mem_cons_of_mem _ hi)))
    intro j hj
    have := a j hj
    have := c j hj
    omega

theorem sorted_iff {l : List (Item Data)} : Sorted l ↔ (∀ i ∈ l, Sorted i.sub) ∧ l.Pairwise fun a b => a.id ≤ b.id := by
  induction l with
  | nil => rw [Sorted]; simp
  | cons x t ih =>
    have hx : SortedItem x ↔ Sorted x.sub := by
      cases x with
      | mk a b c => rw [SortedItem]; rfl
    rw [Sorted, ih, List.pairwise_cons, hx]
    constructor
    · rintro ⟨a, b, c, d⟩
      refine ⟨?_, b, d⟩
      intro i hi
      rcases List.mem_cons.1 hi with rfl | hi
      · exact a
      · exact c i hi
    · rintro ⟨a, b, c⟩
      exact ⟨a x List.mem_cons_self, b, fun i hi => a i (List.mem_cons_of_mem _ hi), c⟩

theorem sorted_ofVec {l : List (Item Data)} (h : ∀ i ∈ l, Sorted i.sub) : Sorted (ofVec l) :=
  sorted_iff.2 ⟨fun i hi => h i (mem_ofVec.1 hi), ofVec_sorted l⟩

theorem sub_sorted {g : Graph} : ∀ (fuel : Nat),
    (∀ (stack deps : List Nat) (acc : List (Item Data)) (out : List (Item Data) × List Nat),
      subStack g fuel stack deps acc = .ok out → (∀ i ∈ acc, Sorted i.sub) → ∀ i ∈ out.1, Sorted i.sub) ∧
    (∀ (es : List Edge) (stack deps : List Nat) (acc : List (Item Data)) (out : List (Item Data) × List Nat),
      subEdges g fuel es stack deps acc = .ok out → (∀ i ∈ acc, Sorted i.sub) → ∀ i ∈ out.1, Sorted i.sub) := by
  intro fuel
  induction fuel with
  | zero =>
    constructor
    · intro stack deps acc out h
      rw [subStack] at h
      cases h
    · intro es stack deps acc out h
      rw [subEdges] at h
      cases h
  | succ fuel ih =>
    obtain ⟨ih1, ih2⟩ := ih
    constructor
    · intro stack deps acc out h ha
      cases stack with
      | nil =>
        rw [subStack] at h
        cases h
        exact ha
      | cons q stack =>
        rw [subStack] at h
        exact ih2 _ _ _ _ _ h ha
    · intro es stack deps acc out h ha
      cases es with
      | nil =>
        rw [subEdges] at h
        exact ih1 _ _ _ _ h ha
      | cons e es =>
        cases e with
        | other =>
          rw [subEdges] at h
          exact ih2 _ _ _ _ _ h ha
        | partition x =>
          rw [subEdges] at h
          exact ih2 _ _ _ _ _ h ha
        | field x =>
          rw [subEdges] at h
          split at h
          · exact ih2 _ _ _ _ _ h ha
          · split at h
            · cases h
            · split at h
              · cases h
              · cases h
              · rename_i sub deps1 hsub
                refine ih2 _ _ _ _ _ h ?_
                intro i hi
                rcases List.mem_append.1 hi with hi | hi
                · exact ha i hi
                · rcases List.mem_cons.1 hi with rfl | hi
                  · exact sorted_ofVec (ih1 _ _ _ _ hsub (by intro i hi; cases hi))
                  · cases hi

theorem required_sorted {g : Graph} {depth : Nat} : ∀ (fuel : Nat) (deps : List Nat) (acc out : List (Item Data)),
    requiredLoop g depth fuel deps acc = .ok out → (∀ i ∈ acc, Sorted i.sub) → Sorted out
  | 0, deps, acc, out, h, _ => by
    rw [requiredLoop] at h
    cases h
  | fuel + 1, deps, acc, out, h, ha => by
    rw [requiredLoop] at h
    split at h
    · cases h
      exact sorted_ofVec ha
    · split at h
      · cases h
      · split at h
        · cases h
        · split at h
          · cases h
          · cases h
          · rename_i sub deps1 hsub
            split at h
            · exact required_sorted fuel _ _ _ h ha
            · refine required_sorted fuel _ _ _ h ?_
              intro i hi
              rcases List.mem_append.1 hi with hi | hi
              · exact ha i hi
              · rcases List.mem_cons.1 hi with rfl | hi
                · exact sorted_ofVec ((sub_sorted depth).1 _ _ _ _ hsub (by intro i hi; cases hi))
                · cases hi

theorem pairwise_of_nodup {l : List (Item Data)} {R : Item Data → Item Data → Prop} (hn : (nodesOf l).Nodup)
    (h : ∀ a ∈ l, ∀ b ∈ l, a.data.node ≠ b.data.node → R a b) : l.Pairwise R := by
  induction l with
  | nil => exact .nil
  | cons x t ih =>
    rw [nodesOf] at hn
    obtain ⟨-, h2, h3⟩ := List.nodup_append.1 hn
    refine List.pairwise_cons.2 ⟨?_, ih h2 (fun a ha b hb => h a (List.mem_cons_of_mem _ ha) b (List.mem_cons_of_mem _ hb))⟩
    intro b hb
    refine h x List.mem_cons_self b (List.mem_cons_of_mem _ hb) ?_
    refine h3 _ (by rw [nodesIn_eq]; exact List.mem_cons_self) _ (mem_nodesOf.2 ⟨b, hb, ?_⟩)
    rw [nodesIn_eq]
    exact List.mem_cons_self

theorem strict_placed {g : Graph} {deps : List Nat} (ha : Apart g deps) : ∀ (k : Nat) (l : List (Item Data)),
    (nodesOf l).length ≤ k → Placed g l → Sorted l → (nodesOf l).Nodup → (∀ n ∈ nodesOf l, n ∈ deps) →
    (∀ a ∈ l, ∀ b ∈ l, a.data.node ≠ b.data.node → a.id ≠ b.id) → Strict l := by
  intro k
  induction k with
  | zero =>
    intro l hk _ _ _ _ _
    cases l with
    | nil => exact .nil
    | cons x t =>
      rw [nodesOf, nodesIn_eq] at hk
      simp at hk
  | succ k ih =>
    intro l hk hp hs hn hd hne
    obtain ⟨hs1, hs2⟩ := sorted_iff.1 hs
    refine strict_of_sorted hs2 (pairwise_of_nodup hn hne) ?_
    intro i hi
    obtain ⟨h1, h2, h3⟩ := (placedItem_eq i).1 (placed_iff.1 hp i hi)
    obtain ⟨a, b, hab⟩ := List.append_of_mem hi
    have hn' : (nodesOf i.sub).Nodup := by
      rw [hab, nodesOf_append, nodesOf, nodesIn_eq] at hn
      have := (List.nodup_append.1 hn).2.1
      exact (List.nodup_cons.1 (List.nodup_append.1 this).1).2
    have hsubset : ∀ n ∈ nodesOf i.sub, n ∈ nodesOf l := by
      intro n hn
      refine mem_nodesOf.2 ⟨i, hi, ?_⟩
      rw [nodesIn_eq]
      exact List.mem_cons_of_mem _ hn
    refine ih i.sub ?_ h3 (hs1 i hi) hn' (fun n hn => hd n (hsubset n hn)) ?_
    · rw [hab, nodesOf_append, nodesOf, nodesIn_eq] at hk
      simp only [List.length_append, List.length_cons] at hk
      omega
    · intro s hs t ht hst he
      have hmem : ∀ s ∈ i.sub, s.data.node ∈ deps := by
        intro s hs
        refine hd _ (hsubset _ (mem_nodesOf.2 ⟨s, hs, ?_⟩))
        rw [nodesIn_eq]
        exact List.mem_cons_self
      have hfs := ((placedItem_eq s).1 (placed_iff.1 h3 s hs)).1
      have hft := ((placedItem_eq t).1 (placed_iff.1 h3 t ht)).1
      rw [← he] at hft
      exact hst (ha _ _ _ _ _ _ (hmem s hs) (hmem t ht) (h2 s hs) (h2 t ht) hfs hft)

end Verif.Views

namespace Verif.Views

/-! ## No panic -/

theorem sub_panic {g : Graph} (hg : Labelled g) : ∀ (fuel : Nat),
    (∀ (stack deps : List Nat) (acc : List (Item Data)), deps.Nodup → (∀ n ∈ deps, (g.field n).isSome = true) →
      subStack g fuel stack deps acc ≠ .panic) ∧
    (∀ (es : List Edge) (stack deps : List Nat) (acc : List (Item Data)), deps.Nodup →
      (∀ n ∈ deps, (g.field n).isSome = true) → subEdges g fuel es stack deps acc ≠ .panic) := by
  intro fuel
  induction fuel with
  | zero =>
    constructor
    · intro stack deps acc _ _ h
      rw [subStack] at h
      cases h
    · intro es stack deps acc _ _ h
      rw [subEdges] at h
      cases h
  | succ fuel ih =>
    obtain ⟨ih1, ih2⟩ := ih
    constructor
    · intro stack deps acc hn hf h
      cases stack with
      | nil =>
        rw [subStack] at h
        cases h
      | cons q stack =>
        rw [subStack] at h
        exact ih2 _ _ _ _ hn hf h
    · intro es stack deps acc hn hf h
      cases es with
      | nil =>
        rw [subEdges] at h
        exact ih1 _ _ _ hn hf h
      | cons e es =>
        cases e with
        | other =>
          rw [subEdges] at h
          exact ih2 _ _ _ _ hn hf h
        | partition x =>
          rw [subEdges] at h
          exact ih2 _ _ _ _ hn hf h
        | field x =>
          rw [subEdges] at h
          split at h
          · exact ih2 _ _ _ _ hn hf h
          · rename_i ix hpos
            have hperm := swapRemove_perm (position_some hpos)
            have hn1 : (x :: swapRemove deps ix).Nodup := hperm.nodup_iff.1 hn
            obtain ⟨hx, hn2⟩ := List.nodup_cons.1 hn1
            have hf2 : ∀ n ∈ swapRemove deps ix, (g.field n).isSome = true :=
              fun n hn => hf n (hperm.mem_iff.2 (List.mem_cons_of_mem _ hn))
            split at h
            · rename_i hnone
              have := hf x (hperm.mem_iff.2 List.mem_cons_self)
              rw [hnone] at this
              cases this
            · split at h
              · cases h
              · rename_i hsub
                exact ih1 _ _ _ hn2 hf2 hsub
              · rename_i sub deps1 hsub
                have hs := subStack_done hg fuel [x] (swapRemove deps ix) [] (sub, deps1) hsub hn2
                obtain ⟨new1, e1, p1, u1, m1⟩ := hs.added
                have hn3 : deps1.Nodup := (List.nodup_append.1 (m1.nodup_iff.2 hn2)).2.1
                exact ih2 _ _ _ _ hn3 (fun n hn => hf2 n (hs.sub n hn)) h

theorem requiredLoop_panic {g : Graph} (hg : Labelled g) {depth : Nat} : ∀ (fuel : Nat) (deps : List Nat)
    (acc : List (Item Data)), deps.Nodup → (∀ n ∈ deps, (g.field n).isSome = true) →
    requiredLoop g depth fuel deps acc ≠ .panic
  | 0, deps, acc, _, _, h => by
    rw [requiredLoop] at h
    cases h
  | fuel + 1, deps, acc, hn, hf, h => by
    rw [requiredLoop] at h
    split at h
    · cases h
    · rename_i ix hpos
      obtain ⟨x, hx, -⟩ := positionMin_some hpos
      rw [hx] at h
      simp only at h
      have hperm := swapRemove_perm hx
      have hn1 : (x :: swapRemove deps ix).Nodup := hperm.nodup_iff.1 hn
      obtain ⟨hxn, hn2⟩ := List.nodup_cons.1 hn1
      have hf2 : ∀ n ∈ swapRemove deps ix, (g.field n).isSome = true :=
        fun n hn => hf n (hperm.mem_iff.2 (List.mem_cons_of_mem _ hn))
      split at h
      · rename_i hnone
        have := hf x (hperm.mem_iff.2 List.mem_cons_self)
        rw [hnone] at this
        cases this
      · split at h
        · cases h
        · rename_i hsub
          exact (sub_panic hg depth).1 _ _ _ hn2 hf2 hsub
        · rename_i sub deps1 hsub
          have hs := subStack_done hg depth [x] (swapRemove deps ix) [] (sub, deps1) hsub hn2
          obtain ⟨new1, e1, p1, u1, m1⟩ := hs.added
          have hn3 : deps1.Nodup := (List.nodup_append.1 (m1.nodup_iff.2 hn2)).2.1
          have hf3 := fun n hn => hf2 n (hs.sub n hn)
          split at h
          · exact requiredLoop_panic hg fuel _ _ hn3 hf3 h
          · exact requiredLoop_panic hg fuel _ _ hn3 hf3 h

end Verif.Views
