import Verif.Compose.EnumLemmas
/-!
# Composition of input objects: lemmas
-/
namespace Verif.Compose
open Verif.PatchPaths Verif.OpChecks
open Verif.FieldTypes (FieldType composeAll composeForInput)

variable {s : Subgraphs}

theorem fieldsOf_perm (s : Subgraphs) (id : Nat) :
    (s.sorted.fieldsOf id).Perm (s.fields.filter fun v => decide (v.parent = id)) :=
  (rows Field.key s.fields id).1

theorem mem_fieldsOf (s : Subgraphs) (d : Def) (f : Field) : f ∈ s.sorted.fieldsOf d.id ↔ s.Declares d f := by
  rw [(fieldsOf_perm s d.id).mem_iff, List.mem_filter]
  simp [Subgraphs.Declares]

theorem fieldByName_isSome (s : Subgraphs) (d : Def) (n : Nat) :
    (s.sorted.fieldByName d.id n).isSome = true ↔ s.DeclaresField d n := by
  have := lookup_isSome Field.key s.fields (d.id, n)
  refine this.trans ?_
  simp only [Field.key, Prod.mk.injEq, Subgraphs.DeclaresField, Subgraphs.Declares]
  constructor
  · rintro ⟨f, h1, h2, h3⟩; exact ⟨f, ⟨h1, h2⟩, h3⟩
  · rintro ⟨f, ⟨h1, h2⟩, h3⟩; exact ⟨f, h1, h2, h3⟩

/-- The field of a definition with a given name. -/
def fieldNamed (s : Subgraphs) (d : Def) (n : Nat) : Option Field :=
  s.fields.find? fun f => decide (f.parent = d.id ∧ f.name = n)

theorem fieldNamed_some (h : s.WF) {d : Def} {n : Nat} {f : Field} :
    fieldNamed s d n = some f ↔ s.Declares d f ∧ f.name = n := by
  unfold fieldNamed Subgraphs.Declares
  constructor
  · intro hf
    have h1 := List.mem_of_find?_eq_some hf
    have h2 := List.find?_some hf
    simp only [decide_eq_true_eq] at h2
    exact ⟨⟨h1, h2.1⟩, h2.2⟩
  · rintro ⟨⟨h1, h2⟩, h3⟩
    have hw := h.fields
    generalize s.fields = l at hw h1
    induction l with
    | nil => cases h1
    | cons x xs ih =>
      obtain ⟨a1, a2⟩ := List.pairwise_cons.1 hw
      rw [List.find?_cons]
      rcases List.mem_cons.1 h1 with rfl | h1
      · simp [h2, h3]
      · have : ¬ (x.parent = d.id ∧ x.name = n) := fun hx => a1 f h1 ⟨hx.1.trans h2.symm, hx.2.trans h3.symm⟩
        simp only [this, decide_false]
        exact ih a2 h1

theorem fieldNamed_none {d : Def} {n : Nat} : fieldNamed s d n = none ↔ ¬ s.DeclaresField d n := by
  unfold fieldNamed Subgraphs.DeclaresField Subgraphs.Declares
  rw [List.find?_eq_none]
  simp only [decide_eq_true_eq]
  constructor
  · rintro h ⟨f, ⟨h1, h2⟩, h3⟩; exact h f h1 ⟨h2, h3⟩
  · intro h f h1 h2; exact h ⟨f, ⟨h1, h2.1⟩, h2.2⟩

/-- The fields called `n`, with their subgraphs, in the order of the definitions. -/
def column (s : Subgraphs) (defs : List Def) (n : Nat) : List (Field × Nat) :=
  defs.filterMap fun d => (fieldNamed s d n).map fun f => (f, d.subgraph)

theorem mem_column (h : s.WF) {defs : List Def} {n : Nat} {p : Field × Nat} :
    p ∈ column s defs n ↔ ∃ d ∈ defs, s.Declares d p.1 ∧ p.1.name = n ∧ p.2 = d.subgraph := by
  unfold column
  rw [List.mem_filterMap]
  constructor
  · rintro ⟨d, hd, he⟩
    cases hf : fieldNamed s d n with
    | none => rw [hf] at he; cases he
    | some f =>
      rw [hf] at he
      obtain ⟨h1, h2⟩ := (fieldNamed_some h).1 hf
      cases he
      exact ⟨d, hd, h1, h2, rfl⟩
  · rintro ⟨d, hd, h1, h2, h3⟩
    refine ⟨d, hd, ?_⟩
    rw [(fieldNamed_some h).2 ⟨h1, h2⟩, Option.map_some, ← h3]

theorem filter_unique {α : Type} {p : α → Bool} {l : List α} (h : l.Pairwise fun a b => ¬ (p a = true ∧ p b = true)) :
    l.filter p = (l.find? p).toList := by
  induction l with
  | nil => rfl
  | cons x xs ih =>
    obtain ⟨h1, h2⟩ := List.pairwise_cons.1 h
    rw [List.filter_cons, List.find?_cons]
    cases hx : p x
    · simpa using ih h2
    · have : xs.filter p = [] := by
        rw [List.filter_eq_nil_iff]
        intro a ha hp
        exact h1 a ha ⟨hx, hp⟩
      simp [this]

theorem column_eq (h : s.WF) (defs : List Def) (n : Nat) :
    (defs.flatMap fun d => (s.sorted.fieldsOf d.id).map fun f => (f, d.subgraph)).filter (fun a => decide (a.1.name = n)) =
      column s defs n := by
  unfold column
  induction defs with
  | nil => rfl
  | cons d ds ih =>
    rw [List.flatMap_cons, List.filter_append, ih, List.filterMap_cons, List.filter_map]
    have h1 : (s.sorted.fieldsOf d.id).filter ((fun a : Field × Nat => decide (a.1.name = n)) ∘ fun f => (f, d.subgraph)) =
        (fieldNamed s d n).toList := by
      have hperm := (fieldsOf_perm s d.id).filter (fun f : Field => decide (f.name = n))
      rw [List.filter_filter] at hperm
      have hu : s.fields.filter (fun f => decide (f.name = n) && decide (f.parent = d.id)) = (fieldNamed s d n).toList := by
        rw [filter_unique]
        · unfold fieldNamed
          congr 2
          funext f
          by_cases a : f.name = n <;> by_cases b : f.parent = d.id <;> simp [a, b]
        · refine h.fields.imp fun {a b} hab hc => ?_
          simp only [Bool.and_eq_true, decide_eq_true_eq] at hc
          exact hab ⟨hc.1.2.trans hc.2.2.symm, hc.1.1.trans hc.2.1.symm⟩
      rw [hu] at hperm
      show (s.sorted.fieldsOf d.id).filter (fun f : Field => decide (f.name = n)) = _
      cases hf : fieldNamed s d n with
      | none => rw [hf] at hperm; simpa using hperm.eq_nil
      | some f => rw [hf] at hperm; simpa using hperm
    rw [h1]
    cases fieldNamed s d n <;> simp

/-- The names of the fields every definition has. -/
def common (s : Subgraphs) (first : Def) (defs : List Def) : List Nat :=
  ((s.sorted.fieldsOf first.id).map (·.name)).filter fun n =>
    (defs.drop 1).all fun d => (s.sorted.fieldByName d.id n).isSome

theorem mem_common (s : Subgraphs) (first : Def) (rest : List Def) (n : Nat) :
    n ∈ common s first (first :: rest) ↔ ∀ d ∈ first :: rest, s.DeclaresField d n := by
  unfold common
  rw [List.mem_filter, List.mem_map]
  simp only [List.drop_succ_cons, List.drop_zero, List.all_eq_true, fieldByName_isSome, List.forall_mem_cons]
  refine and_congr ?_ Iff.rfl
  unfold Subgraphs.DeclaresField
  constructor
  · rintro ⟨f, h1, h2⟩; exact ⟨f, (mem_fieldsOf s first f).1 h1, h2⟩
  · rintro ⟨f, h1, h2⟩; exact ⟨f, (mem_fieldsOf s first f).2 h1, h2⟩

theorem mergeInput_spec (h : s.WF) (first : Def) (defs : List Def) :
    ∃ ks : List Nat, ks.Nodup ∧ (∀ k, k ∈ ks ↔ ∃ d ∈ defs, s.DeclaresField d k) ∧
      mergeInputObject s.sorted first defs =
        ⟨ks.filterMap fun k => (mergeGroup (common s first defs) (column s defs k)).1,
         ks.any fun k => (mergeGroup (common s first defs) (column s defs k)).2⟩ := by
  unfold mergeInputObject
  simp only
  rw [show ((s.sorted.fieldsOf first.id).map (·.name)).filter (fun n =>
    (defs.drop 1).all fun d => (s.sorted.fieldByName d.id n).isSome) = common s first defs from rfl]
  have hcol := column_eq h defs
  generalize hall : (defs.flatMap fun d => (s.sorted.fieldsOf d.id).map fun f => (f, d.subgraph)) = all at hcol
  have hsort : (sortBy (fun a b => decide (a.1.name ≤ b.1.name)) all).Pairwise
      fun a b : Field × Nat => a.1.name ≤ b.1.name := by
    refine (sortBy_sorted ?_ ?_ all).imp fun {a b} h => by simpa using h
    · intro a b c h1 h2
      simp only [decide_eq_true_eq] at *
      exact Nat.le_trans h1 h2
    · intro a b
      simp only [Bool.or_eq_true, decide_eq_true_eq]
      exact Nat.le_total _ _
  obtain ⟨ks, k1, k2, k3⟩ := groups_spec (fun f : Field × Nat => f.1.name) _ _ (Nat.le_refl _) hsort
  refine ⟨ks, k1, ?_, ?_⟩
  · intro k
    rw [k2, ((sortBy_perm _ all).map _).mem_iff, ← hall]
    simp only [List.mem_map, List.mem_flatMap]
    unfold Subgraphs.DeclaresField
    constructor
    · rintro ⟨_, ⟨d, hd, f, hf, rfl⟩, rfl⟩
      exact ⟨d, hd, f, (mem_fieldsOf s d f).1 hf, rfl⟩
    · rintro ⟨d, hd, f, hf, rfl⟩
      exact ⟨_, ⟨d, hd, f, (mem_fieldsOf s d f).2 hf, rfl⟩, rfl⟩
  · rw [k3, List.map_map]
    have he : ∀ k, (sortBy (fun a b : Field × Nat => decide (a.1.name ≤ b.1.name)) all).filter
        (fun a => decide (a.1.name = k)) = column s defs k := by
      intro k
      rw [filter_sortBy (fun a : Field × Nat => a.1.name), hcol]
    simp only [Function.comp_def, he]
    congr 1
    · rw [List.filterMap_map]; rfl
    · rw [List.any_map]; rfl

theorem column_cons (h : s.WF) {defs : List Def} {k : Nat} (hk : ∃ d ∈ defs, s.DeclaresField d k) :
    ∃ p ps, column s defs k = p :: ps ∧ p.1.name = k := by
  obtain ⟨d, hd, f, hf, hn⟩ := hk
  have hm : (f, d.subgraph) ∈ column s defs k := (mem_column h).2 ⟨d, hd, hf, hn, rfl⟩
  cases hc : column s defs k with
  | nil => rw [hc] at hm; cases hm
  | cons p ps =>
    have : p ∈ column s defs k := by rw [hc]; exact List.mem_cons_self
    obtain ⟨_, _, _, h3, _⟩ := (mem_column h).1 this
    exact ⟨p, ps, rfl, h3⟩

theorem mergeGroup_missing (h : s.WF) (first : Def) (rest : List Def) (k : Nat)
    (hk : ∃ d ∈ first :: rest, s.DeclaresField d k) (hm : ¬ ∀ d ∈ first :: rest, s.DeclaresField d k) :
    mergeGroup (common s first (first :: rest)) (column s (first :: rest) k) =
      (none, (column s (first :: rest) k).any fun f => f.1.ty.wrapping.isNonNull) := by
  obtain ⟨p, ps, hc, hn⟩ := column_cons h hk
  rw [hc]
  unfold mergeGroup
  simp only
  rw [if_pos]
  rw [hn, mem_common]
  exact hm

theorem mergeGroup_common (h : s.WF) (first : Def) (rest : List Def) (k : Nat)
    (hm : ∀ d ∈ first :: rest, s.DeclaresField d k) :
    (composeAll composeForInput ((column s (first :: rest) k).map (·.1.ty)) = none →
      mergeGroup (common s first (first :: rest)) (column s (first :: rest) k) = (none, true)) ∧
    ∀ ty, composeAll composeForInput ((column s (first :: rest) k).map (·.1.ty)) = some ty →
      mergeGroup (common s first (first :: rest)) (column s (first :: rest) k) =
        (some ⟨k, ty, (column s (first :: rest) k).findSome? (·.1.default),
          (column s (first :: rest) k).map fun f => (f.2, if f.1.ty ≠ ty then some f.1.ty else none)⟩, false) := by
  obtain ⟨p, ps, hc, hn⟩ := column_cons h ⟨first, List.mem_cons_self, hm first List.mem_cons_self⟩
  have hcm : ¬ p.1.name ∉ common s first (first :: rest) := by
    rw [hn, mem_common]
    exact fun hx => hx hm
  rw [hc]
  constructor
  · intro he
    unfold mergeGroup
    simp only
    rw [if_neg hcm, he]
  · intro ty he
    unfold mergeGroup
    simp only
    rw [if_neg hcm, he, hn]

end Verif.Compose
