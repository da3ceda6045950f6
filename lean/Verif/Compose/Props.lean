import Verif.Compose.InputLemmas
import Verif.FieldTypes.Props
/-!
Properties C33 (composed enums) and C34 (composed input objects).
-/
namespace Verif.Compose
open Verif.FieldTypes (FieldType composeAll composeForInput Sub Denotes admits_split)
open Verif.Wrapping Verif.Common

/-! ## C33 -/

/-- C33, the values of the composed enum. No value is listed twice. Used as an input only, the enum has the
values every subgraph declares, and composition fails iff there are none. Not used as an input, it has the
values some subgraph declares. Used both ways, composition fails iff two subgraphs declare different sets, in
whatever order, and otherwise the enum has that set. -/
theorem C33_values (s : Subgraphs) (h : s.WF) (name : Nat) (first : Def) (rest : List Def) :
    let defs := first :: rest
    let out := mergeEnum s.sorted name first defs
    (out.values.map (·.1)).Nodup ∧
    (s.InputUse name → ¬ s.OutputUse name →
      (∀ n, n ∈ out.values.map (·.1) ↔ ∀ d ∈ defs, s.DeclaresValue d n) ∧
      (out.fatal = true ↔ ¬ ∃ n, ∀ d ∈ defs, s.DeclaresValue d n)) ∧
    (¬ s.InputUse name →
      (∀ n, n ∈ out.values.map (·.1) ↔ ∃ d ∈ defs, s.DeclaresValue d n) ∧ out.fatal = false) ∧
    (s.InputUse name → s.OutputUse name →
      (out.fatal = true ↔ ∃ d ∈ defs, ∃ e ∈ defs, ∃ n, s.DeclaresValue d n ∧ ¬ s.DeclaresValue e n) ∧
      (out.fatal = false → ∀ n, ∀ d ∈ defs, n ∈ out.values.map (·.1) ↔ s.DeclaresValue d n)) := by
  intro defs out
  have hin := usedInInput_iff h name
  have hout := usedInOutput_iff h name
  by_cases hi : s.InputUse name
  · have hi' := hin.2 hi
    by_cases ho : s.OutputUse name
    · have ho' := hout.2 ho
      have he : out = mergeExactlyMatching s.sorted first defs := by
        show mergeEnum _ _ _ _ = _
        unfold mergeEnum
        rw [hi', ho']
      have hany : (defs.any fun d => decide (namesOf s first ≠ namesOf s d)) = true ↔
          ∃ d ∈ defs, ∃ e ∈ defs, ∃ n, s.DeclaresValue d n ∧ ¬ s.DeclaresValue e n := by
        rw [List.any_eq_true]
        simp only [decide_eq_true_eq, ne_eq, namesOf_eq h]
        constructor
        · rintro ⟨d, hd, hx⟩
          obtain ⟨n, hn⟩ := Classical.not_forall.1 hx
          by_cases h1 : s.DeclaresValue first n
          · exact ⟨first, List.mem_cons_self, d, hd, n, h1, fun h2 => hn ⟨fun _ => h2, fun _ => h1⟩⟩
          · refine ⟨d, hd, first, List.mem_cons_self, n, ?_, h1⟩
            apply Classical.byContradiction
            intro h2
            exact hn ⟨fun x => absurd x h1, fun x => absurd x h2⟩
        · rintro ⟨d, hd, e, he, n, h1, h2⟩
          by_cases hf : s.DeclaresValue first n
          · exact ⟨e, he, fun hx => h2 ((hx n).1 hf)⟩
          · exact ⟨d, hd, fun hx => hf ((hx n).2 h1)⟩
      have hun : mergeExactlyMatching s.sorted first defs =
          if (defs.any fun d => decide (namesOf s first ≠ namesOf s d)) = true then ⟨[], true⟩
          else ⟨withGraphs s.sorted defs (namesOf s first), false⟩ := rfl
      rw [hun] at he
      refine ⟨?_, fun _ hx => absurd ho hx, fun hx => absurd hi hx, fun _ _ => ?_⟩
      · rw [he]
        split
        · simp
        · rw [withGraphs_eq, List.map_map]
          simpa [Function.comp_def] using namesOf_nodup h first
      · rw [← hany, he]
        by_cases ha : (defs.any fun d => decide (namesOf s first ≠ namesOf s d)) = true
        · rw [if_pos ha]
          exact ⟨⟨fun _ => ha, fun _ => rfl⟩, fun hc => by cases hc⟩
        · rw [if_neg ha]
          refine ⟨⟨fun hc => (by cases hc), fun hc => absurd hc ha⟩, fun _ n d hd => ?_⟩
          rw [withGraphs_eq, List.map_map]
          simp only [Function.comp_def, List.map_id']
          have hsame : namesOf s first = namesOf s d := by
            apply Classical.byContradiction
            intro hne
            exact ha (List.any_eq_true.2 ⟨d, hd, decide_eq_true hne⟩)
          rw [hsame, mem_namesOf]
    · have ho' : usedInOutput s.sorted name = false := by
        cases hx : usedInOutput s.sorted name
        · rfl
        · exact absurd (hout.1 hx) ho
      have he : out = mergeIntersection s.sorted first defs := by
        show mergeEnum _ _ _ _ = _
        unfold mergeEnum
        rw [hi', ho']
      unfold mergeIntersection at he
      simp only at he
      rw [intersection_fold, withGraphs_eq] at he
      have hmem : ∀ n, n ∈ (namesOf s first).filter (fun n => decide (∀ d ∈ defs, s.DeclaresValue d n)) ↔
          ∀ d ∈ defs, s.DeclaresValue d n := by
        intro n
        rw [List.mem_filter, mem_namesOf, decide_eq_true_eq]
        exact ⟨fun hx => hx.2, fun hx => ⟨hx first List.mem_cons_self, hx⟩⟩
      rw [show ((s.sorted.enumValues first.id).map (·.name)) = namesOf s first from rfl] at he
      refine ⟨?_, fun _ _ => ?_, fun hx => absurd hi hx, fun _ hx => absurd hx ho⟩
      · rw [he, List.map_map]
        simp only [Function.comp_def, List.map_id']
        exact List.Pairwise.filter _ (namesOf_nodup h first)
      · rw [he]
        constructor
        · intro n
          rw [List.map_map]
          simp only [Function.comp_def, List.map_id']
          exact hmem n
        · rw [List.isEmpty_iff]
          constructor
          · rintro hnil ⟨n, hn⟩
            have := (hmem n).2 hn
            rw [hnil] at this
            cases this
          · intro hno
            rw [List.eq_nil_iff_forall_not_mem]
            exact fun n hn => hno ⟨n, (hmem n).1 hn⟩
  · have hi' : usedInInput s.sorted name = false := by
      cases hx : usedInInput s.sorted name
      · rfl
      · exact absurd (hin.1 hx) hi
    have he : out = mergeUnion s.sorted defs := by
      show mergeEnum _ _ _ _ = _
      unfold mergeEnum
      rw [hi']
      cases usedInOutput s.sorted name <;> rfl
    obtain ⟨ks, k1, k2, k3⟩ := mergeUnion_spec h defs
    rw [k3] at he
    have hn : out.values.map (·.1) = ks := by
      rw [he, List.map_map]
      simp [Function.comp_def]
    rw [hn]
    refine ⟨k1, fun hx => absurd hx hi, fun _ => ⟨k2, by rw [he]⟩, fun hx => absurd hx hi⟩

/-- C33, the subgraphs of a value: each value is tagged with exactly the subgraphs that declare it, in the order
of the subgraphs. -/
theorem C33_graphs (s : Subgraphs) (h : s.WF) (name : Nat) (first : Def) (rest : List Def) :
    ∀ p ∈ (mergeEnum s.sorted name first (first :: rest)).values, p.2 = s.declarers (first :: rest) p.1 := by
  have hw : ∀ (names : List Nat), ∀ p ∈ withGraphs s.sorted (first :: rest) names,
      p.2 = s.declarers (first :: rest) p.1 := by
    intro names p hp
    rw [withGraphs_eq] at hp
    obtain ⟨n, _, rfl⟩ := List.mem_map.1 hp
    rfl
  have hu : ∀ p ∈ (mergeUnion s.sorted (first :: rest)).values, p.2 = s.declarers (first :: rest) p.1 := by
    intro p hp
    obtain ⟨ks, _, _, k3⟩ := mergeUnion_spec h (first :: rest)
    rw [k3] at hp
    obtain ⟨n, _, rfl⟩ := List.mem_map.1 hp
    rfl
  unfold mergeEnum
  cases usedInInput s.sorted name <;> cases usedInOutput s.sorted name
  · exact hu
  · exact hu
  · exact hw _
  · intro p hp
    simp only [mergeExactlyMatching] at hp
    split at hp
    · cases hp
    · exact hw _ p hp

/-- C33, the order of the subgraphs changes neither the verdict nor the set of values. -/
theorem C33_order_independent (s : Subgraphs) (h : s.WF) (name : Nat) (first : Def) (rest : List Def)
    (first' : Def) (rest' : List Def) (hp : (first :: rest).Perm (first' :: rest')) :
    let out := mergeEnum s.sorted name first (first :: rest)
    let out' := mergeEnum s.sorted name first' (first' :: rest')
    out.fatal = out'.fatal ∧
      (out.fatal = false → (out.values.map (·.1)).Perm (out'.values.map (·.1))) := by
  intro out out'
  have h1 := C33_values s h name first rest
  have h2 := C33_values s h name first' rest'
  simp only at h1 h2
  obtain ⟨n1, a1, b1, c1⟩ := h1
  obtain ⟨n2, a2, b2, c2⟩ := h2
  have hm : ∀ d, d ∈ first :: rest ↔ d ∈ first' :: rest' := fun d => hp.mem_iff
  have beq : ∀ {x y : Bool} {P Q : Prop}, (x = true ↔ P) → (y = true ↔ Q) → (P ↔ Q) → x = y := by
    intro x y P Q hx hy hpq
    cases x <;> cases y
    · rfl
    · exact absurd (hx.2 (hpq.2 (hy.1 rfl))) (by simp)
    · exact absurd (hy.2 (hpq.1 (hx.1 rfl))) (by simp)
    · rfl
  have perm : (∀ n, n ∈ out.values.map (·.1) ↔ n ∈ out'.values.map (·.1)) →
      (out.values.map (·.1)).Perm (out'.values.map (·.1)) :=
    fun hx => (List.perm_ext_iff_of_nodup n1 n2).2 hx
  by_cases hi : s.InputUse name
  · by_cases ho : s.OutputUse name
    · obtain ⟨f1, g1⟩ := c1 hi ho
      obtain ⟨f2, g2⟩ := c2 hi ho
      have hf : out.fatal = out'.fatal := beq f1 f2 (by simp only [hm])
      refine ⟨hf, fun hx => perm fun n => ?_⟩
      rw [g1 hx n first List.mem_cons_self, g2 (hf ▸ hx) n first ((hm first).1 List.mem_cons_self)]
    · obtain ⟨f1, g1⟩ := a1 hi ho
      obtain ⟨f2, g2⟩ := a2 hi ho
      refine ⟨beq g1 g2 (by simp only [hm]), fun _ => perm fun n => ?_⟩
      rw [f1, f2]
      simp only [hm]
  · obtain ⟨f1, g1⟩ := b1 hi
    obtain ⟨f2, g2⟩ := b2 hi
    refine ⟨g1.trans g2.symm, fun _ => perm fun n => ?_⟩
    rw [f1, f2]
    simp only [hm]

/-! ### A concrete case: enum 9 with values {1,2,3} and {3,2} -/

def plain (n : Nat) : FieldType := ⟨n, .new⟩

def twoEnums (args : List Nat) (out : List Field) : Subgraphs :=
  { values := [⟨0, 1⟩, ⟨0, 2⟩, ⟨0, 3⟩, ⟨1, 3⟩, ⟨1, 2⟩], fields := out, args
    kinds := [(0, .enum), (1, .enum), (2, .object)] }

theorem twoEnums_wf (args : List Nat) : (twoEnums args []).WF ∧ (twoEnums args [⟨2, 50, plain 9, none⟩]).WF := by
  refine ⟨⟨?_, ?_, ?_⟩, ⟨?_, ?_, ?_⟩⟩ <;> simp [twoEnums]

/-- Input only: the common values. -/
example : (twoEnums [9] []).InputUse 9 ∧ ¬ (twoEnums [9] []).OutputUse 9 ∧
    mergeEnum (twoEnums [9] []).sorted 9 ⟨0, 0, .enum⟩ [⟨0, 0, .enum⟩, ⟨1, 1, .enum⟩] =
      ⟨[(2, [0, 1]), (3, [0, 1])], false⟩ := by
  refine ⟨Or.inl (by simp [twoEnums]), ?_, by decide +kernel⟩
  rintro ⟨f, hf, _⟩
  simp [twoEnums] at hf

/-- Output only: all values. -/
example : ¬ (twoEnums [] [⟨2, 50, plain 9, none⟩]).InputUse 9 ∧ (twoEnums [] [⟨2, 50, plain 9, none⟩]).OutputUse 9 ∧
    mergeEnum (twoEnums [] [⟨2, 50, plain 9, none⟩]).sorted 9 ⟨0, 0, .enum⟩ [⟨0, 0, .enum⟩, ⟨1, 1, .enum⟩] =
      ⟨[(1, [0]), (2, [0, 1]), (3, [0, 1])], false⟩ := by
  refine ⟨?_, ⟨_, List.mem_singleton.2 rfl, rfl, Or.inl ?_⟩, by decide +kernel⟩
  · rintro (hx | ⟨f, hf, _, hk⟩)
    · simp [twoEnums] at hx
    · simp [twoEnums] at hf hk
  · simp [twoEnums]

/-- Both: refused, as the sets differ. -/
example : (mergeEnum (twoEnums [9] [⟨2, 50, plain 9, none⟩]).sorted 9 ⟨0, 0, .enum⟩
    [⟨0, 0, .enum⟩, ⟨1, 1, .enum⟩]).fatal = true := by decide +kernel

/-- A gap next to C33: the kinds of the definitions are not compared. An enum of one subgraph merges with an object
type of the same name in another, and the values are reported as those of the enum alone. -/
theorem C33_kind_not_compared :
    let s : Subgraphs := { values := [⟨0, 1⟩], fields := [⟨1, 60, plain 8, none⟩, ⟨2, 50, plain 9, none⟩], args := []
                           kinds := [(0, .enum), (1, .object), (2, .object)] }
    s.WF ∧ s.OutputUse 9 ∧
      mergeEnum s.sorted 9 ⟨0, 0, .enum⟩ [⟨0, 0, .enum⟩, ⟨1, 1, .object⟩] = ⟨[(1, [0])], false⟩ := by
  refine ⟨⟨by simp, by simp, by simp⟩, ⟨⟨2, 50, plain 9, none⟩, by simp, rfl, Or.inl (by simp)⟩, by decide +kernel⟩

/-! ## C34 -/

/-- C34, the fields of the composed input object. No field is listed twice; a listed field is declared by every
subgraph; and if composition succeeds, every field declared by all subgraphs is listed. -/
theorem C34_fields (s : Subgraphs) (h : s.WF) (first : Def) (rest : List Def) :
    let defs := first :: rest
    let out := mergeInputObject s.sorted first defs
    (out.fields.map (·.name)).Nodup ∧
    (∀ n ∈ out.fields.map (·.name), ∀ d ∈ defs, s.DeclaresField d n) ∧
    (out.fatal = false → ∀ n, (∀ d ∈ defs, s.DeclaresField d n) → n ∈ out.fields.map (·.name)) := by
  intro defs out
  obtain ⟨ks, k1, k2, k3⟩ := mergeInput_spec h first defs
  have he : out = _ := k3
  have hname : ∀ k o, (mergeGroup (common s first defs) (column s defs k)).1 = some o → k ∈ ks →
      o.name = k ∧ ∀ d ∈ defs, s.DeclaresField d k := by
    intro k o ho hk
    by_cases hc : ∀ d ∈ defs, s.DeclaresField d k
    · obtain ⟨m1, m2⟩ := mergeGroup_common h first rest k hc
      cases hcomp : composeAll composeForInput ((column s defs k).map (·.1.ty)) with
      | none => rw [m1 hcomp] at ho; cases ho
      | some ty => rw [m2 ty hcomp] at ho; cases ho; exact ⟨rfl, hc⟩
    · rw [mergeGroup_missing h first rest k ((k2 k).1 hk) hc] at ho
      cases ho
  refine ⟨?_, ?_, ?_⟩
  · rw [he]
    unfold List.Nodup
    rw [List.pairwise_map]
    simp only
    rw [List.pairwise_filterMap]
    refine List.Pairwise.imp_of_mem ?_ k1
    intro a b ha hb hab o ho o' ho'
    rw [(hname a o ho ha).1, (hname b o' ho' hb).1]
    exact hab
  · intro n hn
    rw [he] at hn
    obtain ⟨o, ho, rfl⟩ := List.mem_map.1 hn
    obtain ⟨k, hk, ho⟩ := List.mem_filterMap.1 ho
    obtain ⟨e, hd⟩ := hname k o ho hk
    rw [e]
    exact hd
  · intro hf n hn
    have hk : n ∈ ks := (k2 n).2 ⟨first, List.mem_cons_self, hn first List.mem_cons_self⟩
    obtain ⟨m1, m2⟩ := mergeGroup_common h first rest n hn
    cases hcomp : composeAll composeForInput ((column s defs n).map (·.1.ty)) with
    | none =>
      rw [he] at hf
      have : (ks.any fun k => (mergeGroup (common s first defs) (column s defs k)).2) = true :=
        List.any_eq_true.2 ⟨n, hk, by rw [m1 hcomp]⟩
      rw [this] at hf
      cases hf
    | some ty =>
      rw [he]
      have hg : (mergeGroup (common s first defs) (column s defs n)).1 = some ⟨n, ty,
          (column s defs n).findSome? (·.1.default),
          (column s defs n).map fun f => (f.2, if f.1.ty ≠ ty then some f.1.ty else none)⟩ := by
        rw [m2 ty hcomp]
      exact List.mem_map.2 ⟨_, List.mem_filterMap.2 ⟨n, hk, hg⟩, rfl⟩

/-- `den` gives the GraphQL type each subgraph wrote, and subgraphs that declare a field of the same name use the
same number of list levels. -/
structure Typed (s : Subgraphs) (den : FieldType → GType) (defs : List Def) : Prop where
  reach : ∀ d ∈ defs, ∀ f, s.Declares d f → Reachable f.ty.wrapping (den f.ty)
  depth : ∀ d ∈ defs, ∀ e ∈ defs, ∀ f g, s.Declares d f → s.Declares e g → f.name = g.name →
    (den f.ty).depth = (den g.ty).depth

theorem Typed.denotes {s : Subgraphs} {den defs} (ht : Typed s den defs) (h : s.WF) {k : Nat} {d0 : Def} {f0 : Field}
    (hd0 : d0 ∈ defs) (hf0 : s.Declares d0 f0) (hk : f0.name = k) :
    Denotes den (den f0.ty).depth ((column s defs k).map (·.1.ty)) := by
  constructor
  · intro x hx
    obtain ⟨p, hp, rfl⟩ := List.mem_map.1 hx
    obtain ⟨d, hd, h1, _⟩ := (mem_column h).1 hp
    exact ht.reach d hd p.1 h1
  · intro x hx
    obtain ⟨p, hp, rfl⟩ := List.mem_map.1 hx
    obtain ⟨d, hd, h1, h2, _⟩ := (mem_column h).1 hp
    exact ht.depth d hd d0 hd0 p.1 f0 h1 hf0 (h2.trans hk.symm)

/-- C34, when composition fails. MISSING: `Typed.depth`. Composition fails iff some subgraph requires a field that
another does not declare, or a field declared by all has types that differ in their name or below the outermost
non-null. -/
theorem C34_fatal_partial (s : Subgraphs) (h : s.WF) (den : FieldType → GType) (first : Def) (rest : List Def)
    (ht : Typed s den (first :: rest)) :
    let defs := first :: rest
    (mergeInputObject s.sorted first defs).fatal = true ↔
      (∃ d ∈ defs, ∃ f, s.Declares d f ∧ (den f.ty).required = true ∧ ∃ e ∈ defs, ¬ s.DeclaresField e f.name) ∨
      (∃ d ∈ defs, ∃ e ∈ defs, ∃ f g, s.Declares d f ∧ s.Declares e g ∧ f.name = g.name ∧
        (∀ c ∈ defs, s.DeclaresField c f.name) ∧
        (f.ty.definitionNameId ≠ g.ty.definitionNameId ∨ (den f.ty).nullable ≠ (den g.ty).nullable)) := by
  intro defs
  obtain ⟨ks, k1, k2, k3⟩ := mergeInput_spec h first defs
  rw [k3]
  simp only [List.any_eq_true]
  have hreq : ∀ d ∈ defs, ∀ f, s.Declares d f → f.ty.wrapping.isNonNull = (den f.ty).required := by
    intro d hd f hf
    obtain ⟨i, ls, hr, he⟩ := reachable_rep (ht.reach d hd f hf)
    rw [he]
    exact rep_isNonNull hr
  constructor
  · rintro ⟨k, hk, hg⟩
    have hk' := (k2 k).1 hk
    by_cases hc : ∀ d ∈ defs, s.DeclaresField d k
    · obtain ⟨m1, m2⟩ := mergeGroup_common h first rest k hc
      cases hcomp : composeAll composeForInput ((column s defs k).map (·.1.ty)) with
      | some ty => rw [m2 ty hcomp] at hg; cases hg
      | none =>
        obtain ⟨d0, hd0, f0, hf0, hn0⟩ := hk'
        obtain ⟨c1, _⟩ := Verif.FieldTypes.C03_input_greatest_lower_bound_partial den _ _ (ht.denotes h hd0 hf0 hn0)
        rcases c1.1 hcomp with hnil | ⟨a, ha, b, hb, hne⟩
        · have : (f0, d0.subgraph) ∈ column s defs k := (mem_column h).2 ⟨d0, hd0, hf0, hn0, rfl⟩
          have := List.mem_map_of_mem (f := fun p : Field × Nat => p.1.ty) this
          rw [hnil] at this
          cases this
        · obtain ⟨p, hp, rfl⟩ := List.mem_map.1 ha
          obtain ⟨q, hq, rfl⟩ := List.mem_map.1 hb
          obtain ⟨d, hd, hdf, hdn, _⟩ := (mem_column h).1 hp
          obtain ⟨e, he, hef, hen, _⟩ := (mem_column h).1 hq
          exact Or.inr ⟨d, hd, e, he, p.1, q.1, hdf, hef, hdn.trans hen.symm, by rw [hdn]; exact hc, hne⟩
    · rw [mergeGroup_missing h first rest k hk' hc] at hg
      simp only [List.any_eq_true] at hg
      obtain ⟨p, hp, hpr⟩ := hg
      obtain ⟨d, hd, hdf, hdn, _⟩ := (mem_column h).1 hp
      obtain ⟨e, he⟩ := Classical.not_forall.1 hc
      obtain ⟨hem, he⟩ := Classical.not_imp.1 he
      exact Or.inl ⟨d, hd, p.1, hdf, by rw [← hreq d hd p.1 hdf]; exact hpr, e, hem, by rw [hdn]; exact he⟩
  · rintro (⟨d, hd, f, hf, hr, e, he, hne⟩ | ⟨d, hd, e, he, f, g, hf, hg, hn, hc, hne⟩)
    · have hk' : ∃ d ∈ defs, s.DeclaresField d f.name := ⟨d, hd, f, hf, rfl⟩
      refine ⟨f.name, (k2 _).2 hk', ?_⟩
      rw [mergeGroup_missing h first rest f.name hk' (fun hx => hne (hx e he))]
      simp only [List.any_eq_true]
      exact ⟨(f, d.subgraph), (mem_column h).2 ⟨d, hd, hf, rfl, rfl⟩, by rw [hreq d hd f hf]; exact hr⟩
    · refine ⟨f.name, (k2 _).2 ⟨d, hd, f, hf, rfl⟩, ?_⟩
      obtain ⟨c1, _⟩ := Verif.FieldTypes.C03_input_greatest_lower_bound_partial den _ _ (ht.denotes h hd hf rfl)
      have hcomp : composeAll composeForInput ((column s defs f.name).map (·.1.ty)) = none := by
        refine c1.2 (Or.inr ⟨f.ty, ?_, g.ty, ?_, hne⟩)
        · exact List.mem_map.2 ⟨(f, d.subgraph), (mem_column h).2 ⟨d, hd, hf, rfl, rfl⟩, rfl⟩
        · exact List.mem_map.2 ⟨(g, e.subgraph), (mem_column h).2 ⟨e, he, hg, hn.symm, rfl⟩, rfl⟩
      rw [(mergeGroup_common h first rest f.name hc).1 hcomp]

/-- What a composed field is made of: it is tagged with every subgraph in order, a subgraph whose type differs from
the composed one carries it, and the default is that of the first subgraph that has one. -/
theorem C34_composed_field (s : Subgraphs) (h : s.WF) (first : Def) (rest : List Def) :
    let defs := first :: rest
    ∀ o ∈ (mergeInputObject s.sorted first defs).fields,
      o.graphs.map (·.1) = defs.map (·.subgraph) ∧
      (∀ d ∈ defs, ∀ f, s.Declares d f → f.name = o.name →
        (d.subgraph, if f.ty = o.ty then none else some f.ty) ∈ o.graphs) ∧
      (∀ v, o.default = some v → ∃ pre d post f, defs = pre ++ d :: post ∧ s.Declares d f ∧ f.name = o.name ∧
        f.default = some v ∧ ∀ e ∈ pre, ∀ g, s.Declares e g → g.name = o.name → g.default = none) ∧
      (o.default = none → ∀ d ∈ defs, ∀ f, s.Declares d f → f.name = o.name → f.default = none) := by
  intro defs o ho
  obtain ⟨ks, k1, k2, k3⟩ := mergeInput_spec h first defs
  rw [k3] at ho
  obtain ⟨k, hk, ho⟩ := List.mem_filterMap.1 ho
  by_cases hc : ∀ d ∈ defs, s.DeclaresField d k
  · obtain ⟨m1, m2⟩ := mergeGroup_common h first rest k hc
    cases hcomp : composeAll composeForInput ((column s defs k).map (·.1.ty)) with
    | none => rw [m1 hcomp] at ho; cases ho
    | some ty =>
      rw [m2 ty hcomp] at ho
      cases ho
      refine ⟨?_, ?_, ?_, ?_⟩
      · show ((column s defs k).map _).map _ = _
        rw [List.map_map]
        unfold column
        clear k3 m1 m2 hcomp k2 hk k1
        generalize defs = l at hc
        induction l with
        | nil => rfl
        | cons d ds ih =>
          rw [List.filterMap_cons, List.map_cons]
          cases hf : fieldNamed s d k with
          | none => exact absurd (hc d List.mem_cons_self) (fieldNamed_none.1 hf)
          | some f =>
            simp only [Option.map_some, List.map_cons, Function.comp]
            rw [← ih fun e he => hc e (List.mem_cons_of_mem _ he)]
      · intro d hd f hf hn
        refine List.mem_map.2 ⟨(f, d.subgraph), (mem_column h).2 ⟨d, hd, hf, hn, rfl⟩, ?_⟩
        by_cases he : f.ty = ty <;> simp [he]
      · intro v hv
        obtain ⟨l1, p, l2, hl, hp, hpre⟩ := List.findSome?_eq_some_iff.1 (show (column s defs k).findSome? (·.1.default) = some v from hv)
        unfold column at hl
        obtain ⟨m1', m2', e1, e2, e3⟩ := List.filterMap_eq_append_iff.1 hl
        obtain ⟨n1, d, n2, e4, e5, e6, e7⟩ := List.filterMap_eq_cons_iff.1 e3
        cases hf : fieldNamed s d k with
        | none => rw [hf] at e6; cases e6
        | some f =>
          rw [hf] at e6
          obtain ⟨g1, g2⟩ := (fieldNamed_some h).1 hf
          cases e6
          refine ⟨m1' ++ n1, d, n2, f, by rw [e1, e4, List.append_assoc], g1, g2, hp, ?_⟩
          intro e he g hg hgn
          have hgk : fieldNamed s e k = some g := (fieldNamed_some h).2 ⟨hg, hgn⟩
          rcases List.mem_append.1 he with he | he
          · have : (g, e.subgraph) ∈ l1 := by
              rw [← e2]
              exact List.mem_filterMap.2 ⟨e, he, by rw [hgk]; rfl⟩
            exact hpre _ this
          · have := e5 e he
            rw [hgk] at this
            cases this
      · intro hnone d hd f hf hn
        have := List.findSome?_eq_none_iff.1 (show (column s defs k).findSome? (·.1.default) = none from hnone)
        exact this (f, d.subgraph) ((mem_column h).2 ⟨d, hd, hf, hn, rfl⟩)
  · rw [mergeGroup_missing h first rest k ((k2 k).1 hk) hc] at ho
    cases ho

/-- Every default is a value of the type it is written for, and no default `null` meets a subgraph that requires the
field. -/
structure DefaultsOk (s : Subgraphs) (den : FieldType → GType) (lit : Nat → Val) (defs : List Def) : Prop where
  valid : ∀ d ∈ defs, ∀ f, s.Declares d f → ∀ v, f.default = some v → (den f.ty).Admits (v.toVal lit)
  notNull : ∀ d ∈ defs, ∀ e ∈ defs, ∀ f g, s.Declares d f → s.Declares e g → f.name = g.name →
    ∀ v, f.default = some v → v.toVal lit = .null → (den g.ty).required = false

/-- C34, soundness. MISSING: `Typed.depth` and `DefaultsOk.notNull`; without them the claim is false, see
`C34_depth_mismatch_unsound` and `C34_null_default_unsound`. If composition succeeds, every value of the composed
type, completed with the composed defaults, is a value of the type of each subgraph. -/
theorem C34_sound_partial (s : Subgraphs) (h : s.WF) (den : FieldType → GType) (lit : Nat → Val)
    (first : Def) (rest : List Def) (ht : Typed s den (first :: rest)) (hdef : DefaultsOk s den lit (first :: rest))
    (hok : (mergeInputObject s.sorted first (first :: rest)).fatal = false) :
    let out := mergeInputObject s.sorted first (first :: rest)
    ∀ o : Obj, Accepts (out.type den lit) o →
      ∀ d ∈ first :: rest, Accepts (s.declared den lit d) (coerce (out.type den lit) o) := by
  intro out o ha d hd
  have hfields := C34_fields s h first rest
  have hfatal := C34_fatal_partial s h den first rest ht
  have hcf := C34_composed_field s h first rest
  simp only at hfields hfatal hcf
  obtain ⟨_, hall, hcommon⟩ := hfields
  -- the composed type is one of the declared types, and below all of them
  have hty : ∀ c ∈ out.fields, ∀ e ∈ first :: rest, ∀ g, s.Declares e g → g.name = c.name →
      Sub (den c.ty) (den g.ty) ∧ (den c.ty).nullable = (den g.ty).nullable ∧
      ((den c.ty).required = true → ∃ e' ∈ first :: rest, ∃ g', s.Declares e' g' ∧ g'.name = c.name ∧ (den g'.ty).required = true) := by
    intro c hc e he g hg hgn
    obtain ⟨ks, k1, k2, k3⟩ := mergeInput_spec h first (first :: rest)
    have hc' : c ∈ (mergeInputObject s.sorted first (first :: rest)).fields := hc
    rw [k3] at hc'
    obtain ⟨k, hk, hc'⟩ := List.mem_filterMap.1 hc'
    by_cases hcm : ∀ d ∈ first :: rest, s.DeclaresField d k
    · obtain ⟨m1, m2⟩ := mergeGroup_common h first rest k hcm
      cases hcomp : composeAll composeForInput ((column s (first :: rest) k).map (·.1.ty)) with
      | none => rw [m1 hcomp] at hc'; cases hc'
      | some ty =>
        rw [m2 ty hcomp] at hc'
        cases hc'
        obtain ⟨c1, c2⟩ := Verif.FieldTypes.C03_input_greatest_lower_bound_partial den _ _ (ht.denotes h he hg hgn)
        obtain ⟨r1, r2, r3, _⟩ := c2 ty hcomp
        have hgm : g.ty ∈ (column s (first :: rest) k).map (·.1.ty) :=
          List.mem_map.2 ⟨(g, e.subgraph), (mem_column h).2 ⟨e, he, hg, hgn, rfl⟩, rfl⟩
        refine ⟨r3 _ hgm, ?_, ?_⟩
        · apply Classical.byContradiction
          intro hne
          have := c1.2 (Or.inr ⟨ty, r1, g.ty, hgm, Or.inr hne⟩)
          rw [this] at hcomp
          cases hcomp
        · intro hreq
          obtain ⟨p, hp, hpt⟩ := List.mem_map.1 r1
          obtain ⟨e', he', h1, h2, _⟩ := (mem_column h).1 hp
          exact ⟨e', he', p.1, h1, h2, by rw [hpt]; exact hreq⟩
    · rw [mergeGroup_missing h first rest k ((k2 k).1 hk) hcm] at hc'
      cases hc'
  have hdecl : ∀ g, s.Declares d g → (⟨g.name, den g.ty, g.default.map (·.toVal lit)⟩ : InField) ∈ s.declared den lit d := by
    intro g hg
    unfold Subgraphs.declared
    exact List.mem_map.2 ⟨g, List.mem_filter.2 ⟨hg.1, decide_eq_true hg.2⟩, rfl⟩
  -- the field of the subgraph behind a composed field
  have hback : ∀ c ∈ out.fields, ∃ g, s.Declares d g ∧ g.name = c.name := fun c hc =>
    hall c.name (List.mem_map_of_mem hc) d hd
  constructor
  · intro e he
    unfold coerce at he
    rcases List.mem_append.1 he with he | he
    · obtain ⟨F, hF, hn, hadm⟩ := ha.known e he
      unfold InputOut.type at hF
      obtain ⟨c, hc, rfl⟩ := List.mem_map.1 hF
      obtain ⟨g, hg, hgn⟩ := hback c hc
      exact ⟨_, hdecl g hg, hgn.trans hn, (hty c hc d hd g hg hgn).1 _ hadm⟩
    · obtain ⟨F, hF, hv⟩ := List.mem_filterMap.1 he
      unfold InputOut.type at hF
      obtain ⟨c, hc, rfl⟩ := List.mem_map.1 hF
      split at hv
      · cases hv
      · obtain ⟨g, hg, hgn⟩ := hback c hc
        cases hcd : c.default with
        | none => rw [hcd] at hv; cases hv
        | some v =>
          rw [hcd] at hv
          simp only [Option.map_some, Option.some.injEq] at hv
          subst hv
          refine ⟨_, hdecl g hg, hgn, ?_⟩
          obtain ⟨pre, e', post, f, hdefs, hf, hfn, hfv, _⟩ := (hcf c hc).2.2.1 v hcd
          have he' : e' ∈ first :: rest := by rw [hdefs]; simp
          have hadm := hdef.valid e' he' f hf v hfv
          obtain ⟨_, n1, n2⟩ := hty c hc e' he' f hf hfn
          obtain ⟨hsub, _⟩ := hty c hc d hd g hg hgn
          apply hsub
          rw [admits_split] at hadm ⊢
          refine ⟨fun hreq hnull => ?_, by rw [n1]; exact hadm.2⟩
          obtain ⟨e2, he2, g2, hg2, hgn2, hr2⟩ := n2 hreq
          rw [hdef.notNull e' he' e2 he2 f g2 hf hg2 (hfn.trans hgn2.symm) v hfv hnull] at hr2
          cases hr2
  · intro F hF hreq hnodef
    unfold Subgraphs.declared at hF
    obtain ⟨g, hg, rfl⟩ := List.mem_map.1 hF
    obtain ⟨hg1, hg2⟩ := List.mem_filter.1 hg
    have hgd : s.Declares d g := ⟨hg1, by simpa using hg2⟩
    simp only at hreq
    -- a required field is declared everywhere
    have hev : ∀ e ∈ first :: rest, s.DeclaresField e g.name := by
      intro e he
      apply Classical.byContradiction
      intro hne
      have := hfatal.2 (Or.inl ⟨d, hd, g, hgd, hreq, e, he, hne⟩)
      rw [hok] at this
      cases this
    obtain ⟨c, hc, hcn⟩ := List.mem_map.1 (hcommon hok g.name hev)
    have hcreq : (den c.ty).required = true := by
      have := (hty c hc d hd g hgd hcn.symm).1
      apply Classical.byContradiction
      intro hx
      have hx' : (den c.ty).required = false := by simpa using hx
      have hn := (admits_null_iff (den g.ty)).1 (this _ ((admits_null_iff (den c.ty)).2 hx'))
      rw [hreq] at hn
      cases hn
    have hcF : (⟨c.name, den c.ty, c.default.map (·.toVal lit)⟩ : InField) ∈ out.type den lit :=
      List.mem_map.2 ⟨c, hc, rfl⟩
    show ∃ e ∈ coerce (out.type den lit) o, e.1 = g.name
    unfold coerce
    by_cases hin : (o.any fun e => decide (e.1 = c.name)) = true
    · obtain ⟨e, he, hen⟩ := List.any_eq_true.1 hin
      exact ⟨e, List.mem_append_left _ he, (by simpa using hen : e.1 = c.name).trans hcn⟩
    · cases hcd : c.default with
      | none =>
        obtain ⟨e, he, hen⟩ := ha.complete _ hcF hcreq (by rw [hcd]; rfl)
        exact ⟨e, List.mem_append_left _ he, hen.trans hcn⟩
      | some v =>
        refine ⟨(c.name, v.toVal lit), List.mem_append_right _ (List.mem_filterMap.2 ⟨_, hcF, ?_⟩), hcn⟩
        simp only
        rw [if_neg hin, hcd]
        rfl

/-! ### A concrete case -/

/-- `X!`. -/
def nonNull (n : Nat) : FieldType := ⟨n, ⟨0b1000000000000000#16⟩⟩

/-- `[X]`. -/
def listOf (n : Nat) : FieldType := ⟨n, ⟨0b0000100000000000#16⟩⟩

/-- The GraphQL types of the cases below. -/
def denotation (f : FieldType) : GType :=
  if f.wrapping.bits = 0b1000000000000000#16 then .nonNull .named
  else if f.wrapping.bits = 0b0000100000000000#16 then .list .named else .named

/-- `input I { a: X! = 4, b: X }` and `input I { a: X, b: X!, c: X }`. -/
def twoInputs : Subgraphs :=
  { values := []
    fields := [⟨0, 10, nonNull 7, some (.value 4)⟩, ⟨0, 11, plain 7, none⟩,
               ⟨1, 12, plain 7, none⟩, ⟨1, 11, nonNull 7, none⟩, ⟨1, 10, plain 7, none⟩]
    args := [], kinds := [(0, .inputObject), (1, .inputObject)] }

def inputA : Def := ⟨0, 0, .inputObject⟩
def inputB : Def := ⟨1, 1, .inputObject⟩

/-- The hypotheses of `C34_sound_partial` are met, composition succeeds, and the composed type is
`{ a: X! = 4, b: X! }`, which `{ b: 1 }` is a value of. -/
example : twoInputs.WF ∧ Typed twoInputs denotation [inputA, inputB] ∧
    DefaultsOk twoInputs denotation .leaf [inputA, inputB] ∧
    mergeInputObject twoInputs.sorted inputA [inputA, inputB] =
      ⟨[⟨10, nonNull 7, some (.value 4), [(0, none), (1, some (plain 7))]⟩,
        ⟨11, nonNull 7, none, [(0, some (plain 7)), (1, none)]⟩], false⟩ ∧
    Accepts ((mergeInputObject twoInputs.sorted inputA [inputA, inputB]).type denotation .leaf) [(11, .leaf 1)] := by
  have hm : mergeInputObject twoInputs.sorted inputA [inputA, inputB] =
      ⟨[⟨10, nonNull 7, some (.value 4), [(0, none), (1, some (plain 7))]⟩,
        ⟨11, nonNull 7, none, [(0, some (plain 7)), (1, none)]⟩], false⟩ := by decide +kernel
  have hp : denotation (plain 7) = .named := by decide
  have hn : denotation (nonNull 7) = .nonNull .named := by decide
  have hr : ∀ f ∈ twoInputs.fields, Reachable f.ty.wrapping (denotation f.ty) := by
    have r1 : Reachable (plain 7).wrapping .named := ⟨[], by decide, by decide⟩
    have r2 : Reachable (nonNull 7).wrapping (.nonNull .named) := ⟨[.nonNull], by decide, by decide⟩
    intro f hf
    simp only [twoInputs, List.mem_cons, List.not_mem_nil, or_false] at hf
    rcases hf with rfl | rfl | rfl | rfl | rfl
    · show Reachable _ (denotation (nonNull 7)); rw [hn]; exact r2
    · show Reachable _ (denotation (plain 7)); rw [hp]; exact r1
    · show Reachable _ (denotation (plain 7)); rw [hp]; exact r1
    · show Reachable _ (denotation (nonNull 7)); rw [hn]; exact r2
    · show Reachable _ (denotation (plain 7)); rw [hp]; exact r1
  have hd : ∀ f ∈ twoInputs.fields, (denotation f.ty).depth = 0 := by decide
  refine ⟨⟨by simp [twoInputs], by simp [twoInputs], by simp [twoInputs]⟩, ⟨?_, ?_⟩, ⟨?_, ?_⟩, hm, ?_⟩
  · intro d _ f hf; exact hr f hf.1
  · intro d _ e _ f g hf hg _; rw [hd f hf.1, hd g hg.1]
  · intro d _ f hf v hv
    have hf := hf.1
    simp only [twoInputs, List.mem_cons, List.not_mem_nil, or_false] at hf
    rcases hf with rfl | rfl | rfl | rfl | rfl
    · cases hv
      show (denotation (nonNull 7)).Admits _
      rw [hn]
      exact ⟨by simp [Default.toVal], Or.inr ⟨4, rfl⟩⟩
    all_goals cases hv
  · intro d _ e _ f g hf _ _ v hv hnull
    have hf := hf.1
    simp only [twoInputs, List.mem_cons, List.not_mem_nil, or_false] at hf
    rcases hf with rfl | rfl | rfl | rfl | rfl
    · cases hv; cases hnull
    all_goals cases hv
  · rw [hm]
    constructor
    · intro e he
      rw [List.mem_singleton] at he
      subst he
      refine ⟨⟨11, denotation (nonNull 7), none⟩, by simp [InputOut.type], rfl, ?_⟩
      show (denotation (nonNull 7)).Admits _
      rw [hn]
      exact ⟨by simp, Or.inr ⟨1, rfl⟩⟩
    · intro f hf hreq hdef
      simp only [InputOut.type, List.map_cons, List.map_nil, List.mem_cons, List.not_mem_nil, or_false] at hf
      rcases hf with rfl | rfl
      · cases hdef
      · exact ⟨_, List.mem_singleton.2 rfl, rfl⟩

/-! ### The full property is false of the code -/

/-- C34 is false when list depths differ: `a: [X]` in one subgraph and `a: X` in another compose to `[X]`, and the
second subgraph does not accept the lists the composed type accepts. -/
theorem C34_depth_mismatch_unsound :
    let s : Subgraphs := { values := [], fields := [⟨0, 10, listOf 7, none⟩, ⟨1, 10, plain 7, none⟩], args := []
                           kinds := [(0, .inputObject), (1, .inputObject)] }
    let out := mergeInputObject s.sorted inputA [inputA, inputB]
    s.WF ∧ (∀ f ∈ s.fields, Reachable f.ty.wrapping (denotation f.ty)) ∧ out.fatal = false ∧
      ∃ o, Accepts (out.type denotation .leaf) o ∧
        ¬ Accepts (s.declared denotation .leaf inputB) (coerce (out.type denotation .leaf) o) := by
  intro s out
  have hm : out = ⟨[⟨10, listOf 7, none, [(0, none), (1, some (plain 7))]⟩], false⟩ := by decide +kernel
  have hp : denotation (plain 7) = .named := by decide
  have hl : denotation (listOf 7) = .list .named := by decide
  refine ⟨⟨by simp [s], by simp [s], by simp [s]⟩, ?_, by rw [hm], [(10, .list [])], ?_, ?_⟩
  · intro f hf
    simp only [s, List.mem_cons, List.not_mem_nil, or_false] at hf
    rcases hf with rfl | rfl
    · show Reachable _ (denotation (listOf 7)); rw [hl]; exact ⟨[.list], by decide, by decide⟩
    · show Reachable _ (denotation (plain 7)); rw [hp]; exact ⟨[], by decide, by decide⟩
  · rw [hm]
    constructor
    · intro e he
      rw [List.mem_singleton] at he
      subst he
      refine ⟨⟨10, denotation (listOf 7), none⟩, by simp [InputOut.type], rfl, ?_⟩
      show (denotation (listOf 7)).Admits _
      rw [hl]
      exact Or.inr ⟨[], rfl, by simp⟩
    · intro f hf hreq _
      simp only [InputOut.type, List.map_cons, List.map_nil, List.mem_singleton] at hf
      subst hf
      rw [show (⟨10, denotation (listOf 7), none⟩ : InField).ty = .list .named from hl] at hreq
      cases hreq
  · intro ha
    obtain ⟨f, hf, _, hadm⟩ := ha.known (10, .list []) (by simp [coerce])
    simp only [Subgraphs.declared, s, inputB, List.mem_map, List.mem_filter, List.mem_cons, List.not_mem_nil, or_false] at hf
    obtain ⟨g, ⟨hg, hg2⟩, rfl⟩ := hf
    rcases hg with rfl | rfl
    · simp at hg2
    · rw [show (denotation (plain 7)) = .named from hp] at hadm
      rcases hadm with hadm | ⟨n, hadm⟩ <;> cases hadm

/-- C34 is false with a default `null`: `a: X = null` in one subgraph and `a: X!` in another compose to
`a: X! = null`, so that leaving the field out sends `null` to the subgraph that refuses it. -/
theorem C34_null_default_unsound :
    let s : Subgraphs := { values := [], fields := [⟨0, 10, plain 7, some .null⟩, ⟨1, 10, nonNull 7, none⟩], args := []
                           kinds := [(0, .inputObject), (1, .inputObject)] }
    let out := mergeInputObject s.sorted inputA [inputA, inputB]
    s.WF ∧ Typed s denotation [inputA, inputB] ∧ out.fatal = false ∧
      (out.fields.map fun f => (f.name, f.ty, f.default)) = [(10, nonNull 7, some .null)] ∧
      Accepts (out.type denotation .leaf) [] ∧
      ¬ Accepts (s.declared denotation .leaf inputB) (coerce (out.type denotation .leaf) []) := by
  intro s out
  have hm : out = ⟨[⟨10, nonNull 7, some .null, [(0, some (plain 7)), (1, none)]⟩], false⟩ := by decide +kernel
  have hp : denotation (plain 7) = .named := by decide
  have hn : denotation (nonNull 7) = .nonNull .named := by decide
  have hd : ∀ f ∈ s.fields, (denotation f.ty).depth = 0 := by decide
  refine ⟨⟨by simp [s], by simp [s], by simp [s]⟩, ⟨?_, ?_⟩, by rw [hm], by rw [hm]; rfl, ?_, ?_⟩
  · intro d _ f hf
    have hf := hf.1
    simp only [s, List.mem_cons, List.not_mem_nil, or_false] at hf
    rcases hf with rfl | rfl
    · show Reachable _ (denotation (plain 7)); rw [hp]; exact ⟨[], by decide, by decide⟩
    · show Reachable _ (denotation (nonNull 7)); rw [hn]; exact ⟨[.nonNull], by decide, by decide⟩
  · intro d _ e _ f g hf hg _; rw [hd f hf.1, hd g hg.1]
  · rw [hm]
    constructor
    · intro e he; cases he
    · intro f hf _ hdef
      simp only [InputOut.type, List.map_cons, List.map_nil, List.mem_singleton] at hf
      subst hf
      cases hdef
  · intro ha
    obtain ⟨f, hf, _, hadm⟩ := ha.known (10, .null) (by rw [hm]; simp [coerce, InputOut.type, Default.toVal])
    simp only [Subgraphs.declared, s, inputB, List.mem_map, List.mem_filter, List.mem_cons, List.not_mem_nil, or_false] at hf
    obtain ⟨g, ⟨hg, hg2⟩, rfl⟩ := hf
    rcases hg with rfl | rfl
    · simp at hg2
    · rw [show (denotation (nonNull 7)) = .nonNull .named from hn] at hadm
      exact hadm.1 rfl

/-- Two input objects without a common field compose, without an error, to an input object that has no fields; and an
input object composes with an object type of the same name. -/
theorem C34_no_common_field_accepted :
    let s : Subgraphs := { values := [], fields := [⟨0, 10, plain 7, none⟩, ⟨1, 11, plain 7, none⟩], args := []
                           kinds := [(0, .inputObject), (1, .object)] }
    s.WF ∧ mergeInputObject s.sorted inputA [inputA, ⟨1, 1, .object⟩] = ⟨[], false⟩ := by
  refine ⟨⟨by simp, by simp, by simp⟩, by decide +kernel⟩

end Verif.Compose
