import Verif.MutationOrder.Lemmas
import Verif.MutationOrder.Chain

namespace Verif.MutationOrder

/-! ## Specification -/

/-- What is executed: the partitions one after the other in the computed order, each with the fields under it in
document order. `none` if planning fails. -/
def executed (fields : List Field) (s : State) (after : List (Nat × Nat)) (neighbors : List Nat) :
    Option (List Nat) :=
  (partitionOrder after neighbors).map fun order =>
    order.flatMap fun p => (fields.filter fun f => decide ((p, f.id) ∈ s.edges)).map (·.id)

/-- Two consecutive root fields go to a subgraph (resolver) that was used and left before. -/
def ReturnsTwice (fields : List Field) : Prop :=
  ∃ pre y z post, fields = pre ++ y :: z :: post ∧ y.res = z.res ∧
    ∃ a w, [a, w].Sublist pre ∧ a.res = y.res ∧ w.res ≠ y.res

theorem executed_eq {fields : List Field} {s : State} (hn : s.order.Nodup) (hne : s.order ≠ [])
    {ns : List Nat} (hp : ns.Perm s.order) {after : List (Nat × Nat)} (ha : after.Perm (afterEdges s.order)) :
    executed fields s after ns = some ((s.order.flatMap (under s fields)).map (·.id)) := by
  rw [executed, partitionOrder_chain hn hne hp after ha, List.map_flatMap]
  rfl

/-- The partitions stay distinct. -/
theorem order_nodup {fields : List Field} {next : Nat} (hfresh : ∀ f ∈ fields, f.part < next) :
    (process fields next).order.Nodup := by
  have key : ∀ (ys : List Field) (s : State), (∀ f ∈ ys, f.part < next) → next ≤ s.next →
      s.order.Nodup → (∀ p ∈ s.order, p < s.next) → (ys.foldl processField s).order.Nodup := by
    intro ys
    have hplace : ∀ (s : State) (f : Field), f.part < next → next ≤ s.next → s.order.Nodup →
        (∀ p ∈ s.order, p < s.next) →
        next ≤ (place s f).next ∧ (place s f).order.Nodup ∧ ∀ p ∈ (place s f).order, p < (place s f).next := by
      intro s f hf hnx hnd hlt
      unfold place
      split
      · refine ⟨by simp only; omega, ?_, ?_⟩
        · have : State.order ⟨(s.next, f.id) :: s.edges.erase (f.part, f.id), (s.next, f.res) :: s.partitions,
              s.next + 1, f.id :: s.rootFields⟩ = s.order ++ [s.next] := by simp [State.order]
          rw [this, List.nodup_append]
          refine ⟨hnd, by simp, fun a ha b hb => ?_⟩
          simp at hb
          have := hlt a ha
          omega
        · intro p hp
          simp only [State.order, List.map_cons, List.reverse_cons, List.mem_append, List.mem_singleton] at hp
          rcases hp with hp | rfl
          · exact Nat.lt_succ_of_lt (hlt p hp)
          · exact Nat.lt_succ_self _
      · rename_i hu
        have huo : f.part ∉ s.order := fun h => hu (any_iff.2 h)
        refine ⟨hnx, ?_, ?_⟩
        · have : State.order ⟨s.edges, (f.part, f.res) :: s.partitions, s.next, f.id :: s.rootFields⟩ =
              s.order ++ [f.part] := by simp [State.order]
          rw [this, List.nodup_append]
          refine ⟨hnd, by simp, fun a ha b hb e => ?_⟩
          simp at hb
          exact huo (hb ▸ e ▸ ha)
        · intro p hp
          simp only [State.order, List.map_cons, List.reverse_cons, List.mem_append, List.mem_singleton] at hp
          rcases hp with hp | rfl
          · exact hlt p hp
          · simp only; omega
    induction ys with
    | nil => intro s _ _ h _; exact h
    | cons y ys ih =>
      intro s hf hnx hnd hlt
      have hy := hf y (by simp)
      have hstep : next ≤ (processField s y).next ∧ (processField s y).order.Nodup ∧
          ∀ p ∈ (processField s y).order, p < (processField s y).next := by
        unfold processField
        split
        · split
          · split
            · exact ⟨hnx, hnd, hlt⟩
            · exact hplace _ y hy hnx hnd hlt
          · exact hplace _ y hy hnx hnd hlt
        · exact hplace _ y hy hnx hnd hlt
      exact ih _ (fun f h => hf f (by simp [h])) hstep.1 hstep.2.1 hstep.2.2
  exact key fields _ hfresh (Nat.le_refl _) (by simp [initial, State.order]) (by simp [initial, State.order])

theorem order_ne_nil {fields : List Field} (next : Nat) (h : fields ≠ []) :
    (process fields next).order ≠ [] := by
  obtain ⟨f, fs, rfl⟩ := List.exists_cons_of_ne_nil h
  have h1 : f.part ∈ (processField (initial (f :: fs) next) f).order := by
    simp [processField, initial, place, State.order]
  have h2 : ∀ (ys : List Field) (s : State), f.part ∈ s.order → f.part ∈ (ys.foldl processField s).order := by
    intro ys
    induction ys with
    | nil => intro s hs; exact hs
    | cons y ys ih => intro s hs; exact ih _ (process_order s y _ hs)
  have := h2 fs _ h1
  intro hn
  rw [process, List.foldl_cons] at hn
  rw [hn] at this
  simp at this

theorem dup_not_nodup {fields : List Field} {s : State} (hd : Dup fields s) :
    ¬ ((s.order.flatMap (under s fields)).map (·.id)).Nodup := by
  obtain ⟨z, hz, p, q, hne, hp, hq, ep, eq⟩ := hd
  intro hn
  have hn' := List.Nodup.of_map _ hn
  rw [List.nodup_flatMap] at hn'
  have := hn'.2
  have h1 : s.order.Pairwise fun a b => a ≠ b → List.Disjoint (under s fields a) (under s fields b) :=
    by refine this.imp ?_; intro a b h _; exact h
  have h2 : s.order.Pairwise (flip fun a b => a ≠ b → List.Disjoint (under s fields a) (under s fields b)) :=
    by refine this.imp ?_; intro a b h _; exact List.disjoint_symm h
  have hdis : List.Disjoint (under s fields p) (under s fields q) :=
    List.Pairwise.forall_of_forall_of_flip (fun a _ h => (h rfl).elim) h1 h2 hp hq hne
  exact hdis (List.mem_filter.2 ⟨hz, by simpa using ep⟩) (List.mem_filter.2 ⟨hz, by simpa using eq⟩)

/-! ## C13 -/

/-- With one partition per resolver, and however the graph is iterated, the root fields are executed once each
in document order exactly when the mutation does not send two consecutive fields to a subgraph that it had
used and left before. Missing for the full property: that case, see `C13_counterexample`. -/
theorem C13_serial_iff_partial (fields : List Field) (next : Nat) (hne : fields ≠ []) (wf : Wf fields next)
    (neighbors : List Nat) (hns : neighbors.Perm (process fields next).order)
    (after : List (Nat × Nat)) (ha : after.Perm (afterEdges (process fields next).order)) :
    executed fields (process fields next) after neighbors = some (fields.map (·.id)) ↔
      ¬ ReturnsTwice fields := by
  rw [executed_eq (order_nodup wf.fresh) (order_ne_nil next hne) hns ha]
  rcases run_inv fields [] _ (by simpa using wf) (inv_initial wf) with ⟨hi, hb⟩ | ⟨hd, ys1, z, ys2, e, hb⟩
  · have htr := hi.trace
    simp only [List.nil_append] at htr
    have : (process fields next).order.flatMap (under (process fields next) fields) = fields := htr
    rw [this]
    simp only [true_iff]
    rintro ⟨pre, y, z, post, e, hr, a, w, hs⟩
    exact hb (pre ++ [y]) z post (by simp [e]) ⟨pre, y, by simp, hr, a, w, hs⟩
  · constructor
    · intro h
      simp only [List.nil_append] at hd
      exact absurd (by rw [Option.some.injEq] at h; exact h.symm ▸ wf.ids) (dup_not_nodup hd)
    · intro h
      obtain ⟨pre, y, e', hr, a, w, hs⟩ := hb
      refine absurd ⟨pre, y, z, ys2, ?_, hr, a, w, hs⟩ h
      simp only [List.nil_append] at e'
      simp [e, e']

/-- Planning always succeeds, the partitions form one chain and nothing is lost: the order contains every
partition once. -/
theorem C13_total_order (fields : List Field) (next : Nat) (hne : fields ≠ [])
    (hfresh : ∀ f ∈ fields, f.part < next)
    (neighbors : List Nat) (hns : neighbors.Perm (process fields next).order)
    (after : List (Nat × Nat)) (ha : after.Perm (afterEdges (process fields next).order)) :
    partitionOrder after neighbors = some (process fields next).order ∧ (process fields next).order.Nodup :=
  ⟨partitionOrder_chain (order_nodup hfresh) (order_ne_nil next hne) hns after ha, order_nodup hfresh⟩

/-- Subgraphs A, B, A, A: the last field is executed twice. -/
theorem C13_counterexample :
    let fields : List Field := [⟨10, 1, 1⟩, ⟨11, 2, 2⟩, ⟨12, 1, 1⟩, ⟨13, 1, 1⟩]
    Wf fields 20 ∧
      ∀ neighbors, neighbors.Perm (process fields 20).order →
        executed fields (process fields 20) (afterEdges (process fields 20).order) neighbors =
          some [10, 11, 12, 13, 13] := by
  intro fields
  have wf : Wf fields 20 := ⟨by decide, by decide, by decide⟩
  refine ⟨wf, fun ns hns => ?_⟩
  rw [executed_eq (order_nodup wf.fresh) (order_ne_nil 20 (by decide)) hns (List.Perm.refl _)]
  decide

/-! ## Non-vacuity -/

/-- A, A, B, A, C: the first run has two fields and A is used again for one field. -/
def sample : List Field := [⟨10, 1, 1⟩, ⟨11, 1, 1⟩, ⟨12, 2, 2⟩, ⟨13, 1, 1⟩, ⟨14, 3, 3⟩]

example : Wf sample 20 := ⟨by decide, by decide, by decide⟩
example : (process sample 20).order = [1, 2, 20, 3] := rfl
example : executed sample (process sample 20) (afterEdges (process sample 20).order) [3, 20, 1, 2] =
    some [10, 11, 12, 13, 14] := by decide
example : ¬ ReturnsTwice sample :=
  (C13_serial_iff_partial sample 20 (by decide) ⟨by decide, by decide, by decide⟩ [3, 20, 1, 2] (by decide)
    (afterEdges (process sample 20).order) (List.Perm.refl _)).1 (by decide)

end Verif.MutationOrder
