import Verif.Compose.Model
import Verif.OpChecks.OpLemmas
/-!
# Composition of enums and input objects: lemmas
-/
namespace Verif.Compose
open Verif.PatchPaths Verif.OpChecks

/-! ## Tables -/

theorem cmp2_antisymm {a b : Nat × Nat} (h1 : (cmp2 a b).isLE = true) (h2 : (cmp2 b a).isLE = true) : a = b := by
  rw [cmp2_le] at h1 h2
  obtain ⟨a1, a2⟩ := a
  obtain ⟨b1, b2⟩ := b
  simp only at h1 h2
  have e1 : a1 = b1 := by unfold Name at *; omega
  have e2 : a2 = b2 := by unfold Name at *; omega
  rw [e1, e2]

/-- The rows of one parent in a table sorted by parent and name: a sorted permutation of the rows of that
parent in any order. -/
theorem rows {α : Type} (key : α → Nat × Nat) (l : List α) (id : Nat) :
    let t := sortBy (fun a b => (cmp2 (key a) (key b)).isLE) l
    let r := (t.drop (partitionPoint (fun v => decide ((key v).1 < id)) t)).takeWhile fun v => decide ((key v).1 = id)
    r.Perm (l.filter fun v => decide ((key v).1 = id)) ∧ r.Pairwise fun a b => (key a).2 ≤ (key b).2 := by
  intro t r
  have hsort : t.Pairwise fun a b => (cmp2 (key a) (key b)).isLE = true := sorted_sortBy _ _
  have hs : t.Pairwise fun a b => (key a).1 ≤ (key b).1 := hsort.imp fun {a b} h => by
    have := cmp2_le.1 h
    unfold Name at *
    omega
  have hr : r = t.filter fun v => decide ((key v).1 = id) := run_eq_filter (g := fun v => (key v).1) id hs
  rw [hr]
  refine ⟨(sortBy_perm _ _).filter _, ?_⟩
  refine List.Pairwise.imp_of_mem ?_ (hsort.filter _)
  intro a b ha hb h
  have h1 := (List.mem_filter.1 ha).2
  have h2 := (List.mem_filter.1 hb).2
  simp only [decide_eq_true_eq] at h1 h2
  have := cmp2_le.1 h
  unfold Name at *
  omega

theorem lookup_isSome {α : Type} (key : α → Nat × Nat) (l : List α) (k : Nat × Nat) :
    let t := sortBy (fun a b => (cmp2 (key a) (key b)).isLE) l
    let r := binarySearchBy (fun v => cmp2 (key v) k) t
    (if r.1 then t[r.2]? else none).isSome = true ↔ ∃ v ∈ l, key v = k := by
  intro t r
  have hsort : t.Pairwise fun a b => (cmp2 (key a) (key b)).isLE = true := sorted_sortBy _ _
  constructor
  · intro h
    by_cases hr : r.1 = true
    · obtain ⟨v, h1, h2⟩ := search_index hr
      exact ⟨v, ((sortBy_perm _ _).mem_iff).1 (List.mem_of_getElem? h1), cmp2_eq.1 h2⟩
    · rw [if_neg hr] at h; cases h
  · rintro ⟨v, hv, rfl⟩
    have hr : r.1 = true :=
      search_complete (mono_of_sorted hsort (key v)) ((sortBy_perm _ _).mem_iff.2 hv) (cmp2_eq.2 rfl)
    obtain ⟨w, h1, _⟩ := search_index hr
    rw [if_pos hr, h1]
    rfl

/-! ## Groups -/

/-- The groups of a list: for each of its keys the elements with that key. -/
def IsGroups {α : Type} (g : α → Nat) (l : List α) (out : List (List α)) : Prop :=
  ∃ ks : List Nat, ks.Nodup ∧ (∀ k, k ∈ ks ↔ k ∈ l.map g) ∧ out = ks.map fun k => l.filter fun a => decide (g a = k)

theorem groups_spec {α : Type} (g : α → Nat) (fuel : Nat) : ∀ (l : List α), l.length ≤ fuel →
    (l.Pairwise fun a b => g a ≤ g b) → IsGroups g l (groups g fuel l) := by
  induction fuel with
  | zero =>
    intro l hl _
    have : l = [] := List.eq_nil_of_length_eq_zero (by omega)
    subst this
    exact ⟨[], by simp, by simp, rfl⟩
  | succ n ih =>
    intro l hl hs
    cases l with
    | nil => exact ⟨[], by simp, by simp, rfl⟩
    | cons x xs =>
      have hpp := pp_spec (p := fun a => decide (g a = g x)) (l := x :: xs) (by
        refine List.Pairwise.imp_of_mem ?_ hs
        intro a b ha hb hab h
        simp only [decide_eq_true_eq] at h ⊢
        have hx : ∀ c ∈ x :: xs, g x ≤ g c := by
          intro c hc
          rcases List.mem_cons.1 hc with rfl | hc
          · exact Nat.le_refl _
          · exact (List.pairwise_cons.1 hs).1 c hc
        have := hx a ha
        omega)
      unfold groups
      simp only
      generalize hn : partitionPoint (fun a => decide (g a = g x)) (x :: xs) = m at hpp
      obtain ⟨h1, h2⟩ := hpp
      have hm : 0 < m := by
        rcases Nat.eq_zero_or_pos m with h | h
        · subst h
          have := h2 x (by simp)
          simp at this
        · exact h
      obtain ⟨ks, k1, k2, k3⟩ := ih ((x :: xs).drop m) (by
        rw [List.length_drop]
        simp only [List.length_cons] at hl ⊢
        omega) (hs.sublist (List.drop_sublist _ _))
      have hnot : g x ∉ ks := by
        intro h
        rw [k2] at h
        obtain ⟨c, hc, hg⟩ := List.mem_map.1 h
        have := h2 c hc
        simp [hg] at this
      have hfil : ∀ k, (x :: xs).filter (fun a => decide (g a = k)) =
          ((x :: xs).take m).filter (fun a => decide (g a = k)) ++ ((x :: xs).drop m).filter (fun a => decide (g a = k)) := by
        intro k
        rw [← List.filter_append, List.take_append_drop]
      refine ⟨g x :: ks, List.nodup_cons.2 ⟨hnot, k1⟩, ?_, ?_⟩
      · intro k
        rw [List.mem_cons, k2]
        constructor
        · rintro (rfl | h)
          · exact List.mem_map_of_mem List.mem_cons_self
          · obtain ⟨c, hc, rfl⟩ := List.mem_map.1 h
            exact List.mem_map_of_mem (List.mem_of_mem_drop hc)
        · intro h
          obtain ⟨c, hc, rfl⟩ := List.mem_map.1 h
          rw [← List.take_append_drop m (x :: xs)] at hc
          rcases List.mem_append.1 hc with hc | hc
          · left
            simpa using h1 c hc
          · exact Or.inr (List.mem_map_of_mem hc)
      · rw [List.map_cons, k3]
        congr 1
        · rw [hfil]
          have e1 : ((x :: xs).take m).filter (fun a => decide (g a = g x)) = (x :: xs).take m :=
            List.filter_eq_self.2 h1
          have e2 : ((x :: xs).drop m).filter (fun a => decide (g a = g x)) = [] := by
            rw [List.filter_eq_nil_iff]
            intro a ha
            rw [h2 a ha]
            simp
          rw [e1, e2, List.append_nil]
        · apply List.map_congr_left
          intro k hk
          rw [hfil]
          have : ((x :: xs).take m).filter (fun a => decide (g a = k)) = [] := by
            rw [List.filter_eq_nil_iff]
            intro a ha
            have := h1 a ha
            simp only [decide_eq_true_eq] at this ⊢
            rw [this]
            rintro rfl
            exact hnot hk
          rw [this, List.nil_append]

theorem chunkBy_spec {α : Type} (g : α → Nat) : ∀ (l : List α), (l.Pairwise fun a b => g a ≤ g b) →
    IsGroups g l (chunkBy (fun a b => decide (g a = g b)) l) ∧
    (∀ x xs, l = x :: xs → ∃ ys rest, chunkBy (fun a b => decide (g a = g b)) l = (x :: ys) :: rest) := by
  intro l
  induction l with
  | nil => intro _; exact ⟨⟨[], by simp, by simp, rfl⟩, by simp⟩
  | cons x xs ih =>
    intro hs
    obtain ⟨hx, hs'⟩ := List.pairwise_cons.1 hs
    obtain ⟨⟨ks, k1, k2, k3⟩, hhead⟩ := ih hs'
    cases xs with
    | nil =>
      refine ⟨⟨[g x], by simp, by simp, ?_⟩, ?_⟩
      · simp [chunkBy]
      · intro a as h
        cases h
        exact ⟨[], [], rfl⟩
    | cons y t =>
      obtain ⟨ys, rest, he⟩ := hhead y t rfl
      have hc : chunkBy (fun a b => decide (g a = g b)) (x :: y :: t) =
          if decide (g x = g y) then (x :: y :: ys) :: rest else [x] :: (y :: ys) :: rest := by
        rw [chunkBy, he]
      -- the first key of the rest is that of `y`
      obtain ⟨k0, ks', hks, hk0⟩ : ∃ k0 ks', ks = k0 :: ks' ∧ k0 = g y := by
        cases hks : ks with
        | nil => rw [he, hks] at k3; cases k3
        | cons k0 ks' =>
          refine ⟨k0, ks', rfl, ?_⟩
          rw [he, hks, List.map_cons] at k3
          have h0 := (List.cons.inj k3).1
          have : y ∈ (y :: t).filter fun a => decide (g a = k0) := by rw [← h0]; exact List.mem_cons_self
          have := (List.mem_filter.1 this).2
          simp only [decide_eq_true_eq] at this
          exact this.symm
      subst hk0
      by_cases hxy : g x = g y
      · rw [hc]
        simp only [hxy, decide_true, if_true]
        refine ⟨⟨ks, k1, ?_, ?_⟩, ?_⟩
        · intro k
          rw [k2, List.map_cons (a := x), List.mem_cons]
          constructor
          · exact Or.inr
          · rintro (rfl | h)
            · rw [hxy]; exact List.mem_map_of_mem List.mem_cons_self
            · exact h
        · rw [he, hks, List.map_cons] at k3
          obtain ⟨a1, a2⟩ := List.cons.inj k3
          rw [hks, List.map_cons]
          congr 1
          · rw [List.filter_cons, a1]
            simp [hxy]
          · rw [a2]
            apply List.map_congr_left
            intro k hk
            have hne : g x ≠ k := by
              rw [hks] at k1
              rintro rfl
              exact (List.nodup_cons.1 k1).1 (hxy ▸ hk)
            rw [List.filter_cons (x := x)]
            simp [hne]
        · intro a as h
          cases h
          exact ⟨_, _, rfl⟩
      · rw [hc]
        have hlt : ∀ c ∈ y :: t, g x < g c := by
          intro c hc
          have h1 := hx y List.mem_cons_self
          have h2 : g y ≤ g c := by
            rcases List.mem_cons.1 hc with rfl | hc
            · exact Nat.le_refl _
            · exact (List.pairwise_cons.1 hs').1 c hc
          omega
        have hnot : g x ∉ ks := by
          rw [k2]
          intro h
          obtain ⟨c, hc, he⟩ := List.mem_map.1 h
          have := hlt c hc
          omega
        simp only [hxy, decide_false, Bool.false_eq_true, if_false]
        refine ⟨⟨g x :: ks, List.nodup_cons.2 ⟨hnot, k1⟩, ?_, ?_⟩, ?_⟩
        · intro k
          rw [List.mem_cons, k2, List.map_cons (a := x), List.mem_cons]
        · rw [List.map_cons, ← he, k3]
          congr 1
          · rw [List.filter_cons]
            have : (y :: t).filter (fun a => decide (g a = g x)) = [] := by
              rw [List.filter_eq_nil_iff]
              intro a ha
              have := hlt a ha
              simp only [decide_eq_true_eq]
              omega
            rw [this]
            simp
          · apply List.map_congr_left
            intro k hk
            have hne : g x ≠ k := fun h => hnot (h ▸ hk)
            rw [List.filter_cons (x := x)]
            simp [hne]
        · intro a as h
          cases h
          exact ⟨_, _, rfl⟩

end Verif.Compose
