import Verif.NullProp.PlanLemmas
import Verif.NullProp.ConformLemmas
import Verif.NullProp.Witness

/-!
# C10: nulls in required positions
-/
namespace Verif.NullProp

open Verif.DefaultMerge (Key Field)
open Verif.OpChecks (sortBy)

/-- The response of any number of root plans, whatever the subgraphs answered, is the completion of
the GraphQL specification, and nothing panics.

Missing for C10: plans with a parent below the root, derived fields and polymorphic shapes; plans that
share a root field, for which it is false (`C10_merged_null`); subgraph responses with a key twice or
that are cut off, for which it is false too. -/
theorem C10_exact_partial {hid : Nat → Bool} {ty fuel : Nat} {plans : List (RootShape × Entries)} (h : RootsOk plans)
    (hr : ∀ p ∈ plans, p.2.Readable) :
    ∃ r, runPlans hid ty fuel (plans.map fun p => (p.1, .map p.2)) Response.new = some r ∧
      ∃ n, ∀ m, n ≤ m → r.show m = some (completeData hid ty plans) := by
  obtain ⟨r, h1, n, h2⟩ := runPlans_ok (fuel := fuel) plans h hr (by simp) Inv.new
  refine ⟨r, h1, n, fun m hm => ?_⟩
  rw [h2 m hm]
  unfold completeData
  cases plans.mapM (rootFields hid ty) <;> simp

/-- The response of any number of root plans is null, or it has all the fields that were asked for and
no null in a required position.  Missing: as above. -/
theorem C10_conforms_partial {hid : Nat → Bool} {ty fuel : Nat} {plans : List (RootShape × Entries)} (h : RootsOk plans)
    (hr : ∀ p ∈ plans, p.2.Readable) :
    ∃ r n, runPlans hid ty fuel (plans.map fun p => (p.1, .map p.2)) Response.new = some r ∧
      ∀ m, n ≤ m → ∃ out, r.show m = some out ∧
        (out = .null ∨ Conforms (.base true) (shapeOf (plans.flatMap fun p => p.1.fields)) out) := by
  obtain ⟨r, h1, n, h2⟩ := C10_exact_partial (hid := hid) (ty := ty) (fuel := fuel) h hr
  refine ⟨r, n, h1, fun m hm => ⟨_, h2 m hm, ?_⟩⟩
  by_cases hn : completeData hid ty plans = .null
  · exact .inl hn
  · exact .inr (completeData_conforms h hn)

/-- The completed value of a position never is a null it may not have. -/
theorem C10_complete_conforms {hid : Nat → Bool} {ty : Ty} {sh : Shape} {j : Json} {out : Out} (hw : WF sh)
    (h : complete hid ty sh j = some out) : Conforms ty sh out := complete_conforms j ty sh out hw h

/-- Nulls of a part change the marked positions only: the other fields of the objects keep their
values, and so do the other items of the lists. -/
theorem C10_only_marked {M : List VId} {ps h : List Data} (hm : makeAll ps M = some h) (hn : ∀ v ∈ M, v.nullable = true) :
    (∀ id F, getObj ps id = some F → (∀ k, VId.field id k true ∈ M → k ∈ F.map (·.key)) →
      ∃ F', getObj h id = some F' ∧ F'.map (·.key) = F.map (·.key) ∧
        ∀ (i : Nat) f f', F[i]? = some f → F'[i]? = some f' →
          if .field id f.key true ∈ M then ∃ c, f'.value = .inacc c else f'.value = f.value) ∧
    (∀ id vs, getList ps id = some vs →
      ∃ vs', getList h id = some vs' ∧ vs'.length = vs.length ∧
        ∀ (i : Nat) v v', vs[i]? = some v → vs'[i]? = some v' →
          if .index id i true ∈ M then ∃ c, v' = .inacc c else v' = v) := by
  constructor
  · intro id F hF hk
    obtain ⟨c, hc⟩ := makeAll_obj hm hn hF hk
    refine ⟨_, hc, by simp, ?_⟩
    intro i f f' hf hf'
    rw [List.getElem?_map, hf] at hf'
    simp only [Option.map_some, Option.some.injEq] at hf'
    subst hf'
    simp only
    split
    · exact ⟨_, rfl⟩
    · rfl
  · intro id vs hvs
    obtain ⟨c, hc⟩ := makeAll_list hm hn hvs
    refine ⟨_, hc, by simp, ?_⟩
    intro i v v' hv hv'
    rw [List.getElem?_mapIdx, hv] at hv'
    simp only [Option.map_some, Option.some.injEq] at hv'
    subst hv'
    split
    · exact ⟨_, rfl⟩
    · rfl

/-- A subgraph that gives no object for required root fields makes the data null. -/
theorem C10_no_object {hid : Nat → Bool} {ty fuel : Nat} {shape : RootShape} {j : Json} {r : Response}
    (hs : shape.onError = .propagateNull) (hj : ∀ es, j ≠ .map es) :
    ∃ r', runPlan hid ty fuel (shape, j) r = some r' ∧ r'.show 0 = some .null := by
  unfold runPlan Response.rootRef
  cases hr : r.root with
  | none => exact ⟨r, rfl, by simp [Response.show, hr]⟩
  | some id =>
    simp only [Option.map_some, Response.createPart]
    have key : (rootSeed hid shape ⟨id, [], ty⟩ j { id := r.parts.length }).toRoot = true := by
      unfold rootSeed emptyUpdate
      cases j with
      | map es => exact absurd rfl (hj es)
      | null => simp [hs, Part.propagateParent]
      | leaf l => simp [hs, Part.propagateParent]
      | bad => simp [hs, Part.propagateParent]
      | list js => cases hb : js.broken <;> simp [hs, hb, Part.propagateParent]
    unfold ingest
    rw [if_pos key]
    exact ⟨_, rfl, rfl⟩

/-! ## Where it is false -/

/-- Two plans share a root field: the null in the required position of the second one is not moved,
as the object it was found in was merged into the first one. -/
theorem C10_merged_null :
    ∃ r out, runPlans noneHidden 7 10 [(sharedA, jsonA), (sharedB, jsonB)] Response.new = some r ∧
      r.show 10 = some out ∧ out = .obj [(1, .obj [(2, .leaf ⟨false, 5⟩), (3, .obj [(4, .null)])])] ∧
      ¬ Conforms (.base true) sharedBoth out := by
  refine ⟨_, _, rfl, rfl, rfl, ?_⟩
  intro h
  cases h with
  | obj _ h =>
    have h := h _ (List.mem_singleton.2 rfl) rfl _ (List.mem_singleton.2 rfl)
    cases h with
    | obj _ h =>
      have h := h (objField 3 false [leafField 4 true]) (by simp) rfl _ (List.mem_cons_of_mem _ (List.mem_singleton.2 rfl))
      cases h with
      | obj _ h =>
        have h := h (leafField 4 true) (by simp) rfl _ (List.mem_singleton.2 rfl)
        cases h with
        | null h => exact absurd h (by decide)

/-- A key twice in the subgraph response hides that a required field is missing. -/
theorem C10_duplicate_key :
    ∃ r out, runPlans noneHidden 7 10 [(dupShape, dupJson)] Response.new = some r ∧ r.show 10 = some out ∧
      out = .obj [(2, .leaf ⟨false, 5⟩), (2, .leaf ⟨false, 5⟩)] ∧
      ¬ Conforms (.base true) (shapeOf dupShape.fields) out := by
  refine ⟨_, _, rfl, rfl, rfl, ?_⟩
  intro h
  cases h with
  | obj h _ =>
    have := h (leafField 1 true) (by simp [dupShape, rootOf]) rfl
    exact absurd this (by decide)

/-- A subgraph response that ends in a nullable field: the required field after it is missing. -/
theorem C10_cut_off :
    ∃ r out, runPlans noneHidden 7 10 [(dupShape, cutJson)] Response.new = some r ∧ r.show 10 = some out ∧
      out = .obj [(2, .null)] ∧ ¬ Conforms (.base true) (shapeOf dupShape.fields) out := by
  refine ⟨_, _, rfl, rfl, rfl, ?_⟩
  intro h
  cases h with
  | obj h _ =>
    have := h (leafField 1 true) (by simp [dupShape, rootOf]) rfl
    exact absurd this (by decide)

/-- A `__typename` that is not a string, in an item of a list: the item of a list that was never
written is marked, which panics.  However large the fuel. -/
theorem C10_typename_panic (fuel : Nat) :
    runPlans noneHidden 7 fuel [(listShape, listJson)] Response.new = none := rfl

/-- Two plans share a root field, and one subgraph gives null: this panics. -/
theorem C10_merge_panic (n : Nat) :
    runPlans noneHidden 7 n [(sharedA, single 1 .null), (sharedB, single 1 (single 3 .null))] Response.new = none := by
  cases n with
  | zero => rfl
  | succ n => rfl

/-! ## The hypotheses can be met -/

theorem wf_leaf {n : Nat} {req : Bool} : WF (leafField n req).shape := .scalar

example : RootsOk [planP, planQ] ∧ ∀ p ∈ [planP, planQ], p.2.Readable := by
  have w : ∀ {tns fs}, (fs.map (·.key.key) ++ tns.map (·.key)).Nodup → (fs.map (·.expected)).Nodup →
      (∀ f ∈ fs, f.expected ≠ typenameKey) → (∀ f ∈ fs, f.absent = false) → (∀ f ∈ fs, f.errors = 0) →
      WFFields tns fs := by
    intro tns fs h1 h2 h3 h4 h5
    exact ⟨h1, h2, h3, fun f hf ha => by simp [h4 f hf] at ha, fun f hf he => absurd (h5 f hf) he⟩
  have o : ∀ {n req fs}, WFFields [] fs → (∀ f ∈ fs, f.vis = false → AllHidden f.shape) → (∀ f ∈ fs, WF f.shape) →
      WF (objField n req fs).shape := fun h1 h2 h3 => .obj h1 h2 h3
  refine ⟨⟨?_, ?_, ?_, by decide, ?_⟩, ?_⟩
  · intro p hp
    simp only [List.mem_cons, List.not_mem_nil, or_false] at hp
    rcases hp with rfl | rfl
    · exact w (by decide) (by decide) (by decide) (by decide) (by decide)
    · exact w (by decide) (by decide) (by decide) (by decide) (by decide)
  · intro p hp f hf hv
    simp only [List.mem_cons, List.not_mem_nil, or_false] at hp
    rcases hp with rfl | rfl <;> simp only [planP, planQ, rootOf, List.mem_cons, List.not_mem_nil, or_false] at hf <;>
      rcases hf with rfl | rfl <;> simp [FieldShape.vis, FieldShape.key, visible, leafField, objField, fieldOf] at hv
  · intro p hp f hf
    simp only [List.mem_cons, List.not_mem_nil, or_false] at hp
    rcases hp with rfl | rfl <;> simp only [planP, planQ, rootOf, List.mem_cons, List.not_mem_nil, or_false] at hf <;>
      rcases hf with rfl | rfl
    · exact wf_leaf
    · refine o (w (by decide) (by decide) (by decide) (by decide) (by decide)) (fun f hf hv => absurd hv (by revert f; decide)) ?_
      intro f hf
      simp only [List.mem_cons, List.not_mem_nil, or_false] at hf
      rcases hf with rfl | rfl <;> exact wf_leaf
    · refine o (w (by decide) (by decide) (by decide) (by decide) (by decide)) (fun f hf hv => absurd hv (by revert f; decide)) ?_
      intro f hf
      simp only [List.mem_cons, List.not_mem_nil, or_false] at hf
      subst hf
      exact wf_leaf
    · exact .scalar
  · intro p hp
    simp only [List.mem_cons, List.not_mem_nil, or_false] at hp
    rcases hp with rfl | rfl <;>
      simp [planP, planQ, single, num, Json.Uniq, Jsons.Uniq, Entries.Uniq, Entries.keys]
  · intro p hp
    simp only [List.mem_cons, List.not_mem_nil, or_false] at hp
    rcases hp with rfl | rfl <;>
      simp [planP, planQ, single, num, Json.Readable, Jsons.Readable, Entries.Readable, typenameKey]

/-- The required field 4 is missing, so 3 is null; the rest is there. -/
example : completeData noneHidden 7 [planP, planQ] =
    .obj [(1, .leaf ⟨false, 6⟩), (20, .leaf ⟨true, 7⟩), (3, .null), (6, .obj [(7, .leaf ⟨false, 9⟩)]),
      (8, .list [.list [.leaf ⟨false, 1⟩, .null]])] := by rfl

/-- A required root field that is null makes the data null. -/
example : completeData noneHidden 7 [planP, (rootOf [leafField 6 true], .cons 6 .null .nil)] = .null := by rfl

example : ∃ h, makeAll [{ objs := [[⟨⟨1, 1⟩, .null⟩, ⟨⟨2, 2⟩, .unexpected⟩]] }] [.field ⟨0, 0⟩ ⟨2, 2⟩ true] = some h := ⟨_, rfl⟩

end Verif.NullProp
