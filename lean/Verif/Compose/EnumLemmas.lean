import Verif.Compose.Lemmas
import Verif.Compose.Spec
/-!
# Composition of enums: lemmas
-/
namespace Verif.Compose
open Verif.PatchPaths Verif.OpChecks

variable {s : Subgraphs}

theorem enumValues_perm (s : Subgraphs) (id : Nat) :
    (s.sorted.enumValues id).Perm (s.values.filter fun v => decide (v.parent = id)) :=
  (rows EnumValue.key s.values id).1

theorem enumValues_sorted (s : Subgraphs) (id : Nat) :
    (s.sorted.enumValues id).Pairwise fun a b => a.name ≤ b.name :=
  (rows EnumValue.key s.values id).2

theorem enumValueByName_isSome (s : Subgraphs) (id n : Nat) :
    (s.sorted.enumValueByName id n).isSome = true ↔ ∃ v ∈ s.values, v.parent = id ∧ v.name = n := by
  have := lookup_isSome EnumValue.key s.values (id, n)
  refine this.trans ?_
  simp only [EnumValue.key, Prod.mk.injEq]

/-- The names of the values of a definition, in the order of the table. -/
def namesOf (s : Subgraphs) (d : Def) : List Nat := (s.sorted.enumValues d.id).map (·.name)

theorem mem_namesOf (s : Subgraphs) (d : Def) (n : Nat) : n ∈ namesOf s d ↔ s.DeclaresValue d n := by
  unfold namesOf Subgraphs.DeclaresValue
  constructor
  · intro h
    obtain ⟨v, hv, rfl⟩ := List.mem_map.1 h
    have := ((enumValues_perm s d.id).mem_iff).1 hv
    obtain ⟨h1, h2⟩ := List.mem_filter.1 this
    exact ⟨v, h1, by simpa using h2, rfl⟩
  · rintro ⟨v, hv, hp, rfl⟩
    refine List.mem_map_of_mem (((enumValues_perm s d.id).mem_iff).2 (List.mem_filter.2 ⟨hv, ?_⟩))
    simpa using hp

theorem namesOf_nodup (h : s.WF) (d : Def) : (namesOf s d).Nodup := by
  unfold namesOf
  have hp := enumValues_perm s d.id
  refine ((hp.map (·.name)).nodup_iff).2 ?_
  unfold List.Nodup
  rw [List.pairwise_map]
  refine List.Pairwise.imp_of_mem ?_ (h.values.filter _)
  intro a b ha hb hab e
  have h1 := (List.mem_filter.1 ha).2
  have h2 := (List.mem_filter.1 hb).2
  simp only [decide_eq_true_eq] at h1 h2
  exact hab ⟨h1.trans h2.symm, e⟩

theorem namesOf_sorted (d : Def) : (namesOf s d).Pairwise (· ≤ ·) := by
  unfold namesOf
  rw [List.pairwise_map]
  exact enumValues_sorted s d.id

theorem namesOf_eq (h : s.WF) (d e : Def) : namesOf s d = namesOf s e ↔ ∀ n, s.DeclaresValue d n ↔ s.DeclaresValue e n := by
  constructor
  · intro he n
    rw [← mem_namesOf, ← mem_namesOf, he]
  · intro he
    refine List.Perm.eq_of_pairwise (le := (· ≤ ·)) ?_ (namesOf_sorted d) (namesOf_sorted e) ?_
    · intro a b _ _ h1 h2; exact Nat.le_antisymm h1 h2
    · refine (List.perm_ext_iff_of_nodup (namesOf_nodup h d) (namesOf_nodup h e)).2 ?_
      intro n
      rw [mem_namesOf, mem_namesOf, he]

theorem withGraphs_eq (s : Subgraphs) (defs : List Def) (names : List Nat) :
    withGraphs s.sorted defs names = names.map fun n => (n, s.declarers defs n) := by
  unfold withGraphs
  apply List.map_congr_left
  intro n _
  congr 1
  unfold Subgraphs.declarers
  induction defs with
  | nil => rfl
  | cons d ds ih =>
    have hd := enumValueByName_isSome s d.id n
    rw [List.filterMap_cons, List.filter_cons]
    cases hv : s.sorted.enumValueByName d.id n with
    | none =>
      rw [hv] at hd
      have hf : ¬ s.DeclaresValue d n := by
        intro hc
        have := hd.2 hc
        cases this
      simp only [Option.map_none, hf, decide_false, Bool.false_eq_true, if_false]
      exact ih
    | some v =>
      rw [hv] at hd
      have hf : s.DeclaresValue d n := hd.1 rfl
      simp only [Option.map_some, hf, decide_true, if_true, List.map_cons]
      rw [ih]

theorem kindOf_iff (h : s.WF) (p : Nat) (k : Kind) : s.kindOf p = some k ↔ (p, k) ∈ s.kinds := by
  unfold Subgraphs.kindOf
  have hk := h.kinds
  generalize s.kinds = l at hk
  induction l with
  | nil => simp
  | cons x xs ih =>
    obtain ⟨h1, h2⟩ := List.pairwise_cons.1 hk
    rw [List.find?_cons]
    by_cases hx : x.1 = p
    · simp only [hx, decide_true, Option.map_some, Option.some.injEq, List.mem_cons]
      constructor
      · rintro rfl; left; rw [← hx]
      · rintro (e | e)
        · rw [← e]
        · exact absurd hx (h1 _ e)
    · simp only [hx, decide_false, List.mem_cons]
      refine Iff.trans (ih h2) ?_
      constructor
      · exact Or.inr
      · rintro (e | e)
        · exact absurd (by rw [← e]) hx
        · exact e

theorem usedInInput_iff (h : s.WF) (n : Nat) : usedInInput s.sorted n = true ↔ s.InputUse n := by
  unfold usedInInput Subgraphs.InputUse
  have hp : ∀ f, f ∈ s.sorted.fields ↔ f ∈ s.fields := fun f => (sortBy_perm _ _).mem_iff
  have e1 : s.sorted.args = s.args := rfl
  have e2 : ∀ p, s.sorted.kindOf p = s.kindOf p := fun _ => rfl
  simp only [Bool.or_eq_true, List.any_eq_true, decide_eq_true_eq, List.mem_filter, hp, e1, e2, kindOf_iff h]
  constructor
  · rintro (⟨a, h1, rfl⟩ | ⟨f, ⟨h1, h2⟩, h3⟩)
    · exact Or.inl h1
    · exact Or.inr ⟨f, h1, h3, h2⟩
  · rintro (h1 | ⟨f, h1, h2, h3⟩)
    · exact Or.inl ⟨n, h1, rfl⟩
    · exact Or.inr ⟨f, ⟨h1, h3⟩, h2⟩

theorem usedInOutput_iff (h : s.WF) (n : Nat) : usedInOutput s.sorted n = true ↔ s.OutputUse n := by
  unfold usedInOutput Subgraphs.OutputUse
  have hp : ∀ f, f ∈ s.sorted.fields ↔ f ∈ s.fields := fun f => (sortBy_perm _ _).mem_iff
  have e2 : ∀ p, s.sorted.kindOf p = s.kindOf p := fun _ => rfl
  simp only [Bool.or_eq_true, List.any_eq_true, decide_eq_true_eq, List.mem_filter, hp, e2, kindOf_iff h]
  constructor
  · rintro ⟨f, ⟨h1, h2⟩, h3⟩; exact ⟨f, h1, h3, h2⟩
  · rintro ⟨f, h1, h2, h3⟩; exact ⟨f, ⟨h1, h3⟩, h2⟩

/-! ## The three ways to merge -/

theorem intersection_fold (s : Subgraphs) (defs : List Def) (l : List Nat) :
    defs.foldl (fun names d =>
      let scratch := (s.sorted.enumValues d.id).map (·.name)
      names.filter fun n => decide (n ∈ scratch)) l =
    l.filter fun n => decide (∀ d ∈ defs, s.DeclaresValue d n) := by
  induction defs generalizing l with
  | nil =>
    refine (List.filter_eq_self.2 ?_).symm
    simp
  | cons d ds ih =>
    rw [List.foldl_cons, ih, List.filter_filter]
    apply List.filter_congr
    intro n _
    have : n ∈ (s.sorted.enumValues d.id).map (·.name) ↔ s.DeclaresValue d n := mem_namesOf s d n
    by_cases h1 : s.DeclaresValue d n <;> simp [this, h1]

theorem mergeUnion_spec (h : s.WF) (defs : List Def) :
    ∃ ks : List Nat, ks.Nodup ∧ (∀ k, k ∈ ks ↔ ∃ d ∈ defs, s.DeclaresValue d k) ∧
      mergeUnion s.sorted defs = ⟨ks.map fun k => (k, s.declarers defs k), false⟩ := by
  unfold mergeUnion
  simp only
  generalize hall : (defs.flatMap fun d => (s.sorted.enumValues d.id).map fun v => (v.name, d.subgraph)) = all
  have hsort : (sortBy (fun a b => decide (a.1 ≤ b.1)) all).Pairwise fun a b : Nat × Nat => a.1 ≤ b.1 := by
    refine (sortBy_sorted ?_ ?_ all).imp fun {a b} h => by simpa using h
    · intro a b c h1 h2
      simp only [decide_eq_true_eq] at *
      exact Nat.le_trans h1 h2
    · intro a b
      simp only [Bool.or_eq_true, decide_eq_true_eq]
      exact Nat.le_total _ _
  obtain ⟨ks, k1, k2, k3⟩ := (chunkBy_spec (fun a : Nat × Nat => a.1) _ hsort).1
  have hmem : ∀ k, k ∈ ks ↔ ∃ d ∈ defs, s.DeclaresValue d k := by
    intro k
    rw [k2, ((sortBy_perm _ all).map _).mem_iff, ← hall]
    simp only [List.mem_map, List.mem_flatMap]
    constructor
    · rintro ⟨_, ⟨d, hd, v, hv, rfl⟩, rfl⟩
      exact ⟨d, hd, (mem_namesOf s d v.name).1 (List.mem_map_of_mem hv)⟩
    · rintro ⟨d, hd, hk⟩
      obtain ⟨v, hv, rfl⟩ := List.mem_map.1 ((mem_namesOf s d k).2 hk)
      exact ⟨_, ⟨d, hd, v, hv, rfl⟩, rfl⟩
  refine ⟨ks, k1, hmem, ?_⟩
  rw [k3]
  congr 1
  rw [List.map_map]
  apply List.map_congr_left
  intro k hk
  simp only [Function.comp]
  rw [filter_sortBy (fun a : Nat × Nat => a.1)]
  have hfil : all.filter (fun a => decide (a.1 = k)) = (s.declarers defs k).map fun g => (k, g) := by
    rw [← hall]
    clear hall hsort k3 k2 hk hmem
    unfold Subgraphs.declarers
    induction defs with
    | nil => rfl
    | cons d ds ih =>
      rw [List.flatMap_cons, List.filter_append, ih, List.filter_cons]
      have hone : ((s.sorted.enumValues d.id).map fun v => (v.name, d.subgraph)).filter (fun a => decide (a.1 = k)) =
          if s.DeclaresValue d k then [(k, d.subgraph)] else [] := by
        have hn := namesOf_nodup h d
        have hm := mem_namesOf s d k
        unfold namesOf at hn hm
        rw [show (if s.DeclaresValue d k then [(k, d.subgraph)] else []) =
          if k ∈ (s.sorted.enumValues d.id).map (·.name) then [(k, d.subgraph)] else [] from by simp only [hm]]
        clear hm
        generalize s.sorted.enumValues d.id = l at hn
        induction l with
        | nil => simp
        | cons v vs ihv =>
          rw [List.map_cons] at hn
          obtain ⟨h1, h2⟩ := List.nodup_cons.1 hn
          rw [List.map_cons, List.filter_cons, List.map_cons, ihv h2]
          by_cases hv : v.name = k
          · subst hv
            simp [h1]
          · have hv' : k ≠ v.name := fun e => hv e.symm
            simp [hv, hv']
      rw [hone]
      by_cases hd : s.DeclaresValue d k
      · simp [hd]
      · simp [hd]
  rw [hfil]
  congr 1
  · obtain ⟨d, hd, hk'⟩ := (hmem k).1 hk
    have : d.subgraph ∈ s.declarers defs k :=
      List.mem_map_of_mem (List.mem_filter.2 ⟨hd, decide_eq_true hk'⟩)
    cases hl : s.declarers defs k with
    | nil => rw [hl] at this; cases this
    | cons a l => rfl
  · rw [List.map_map]
    exact List.map_id _

end Verif.Compose
