import Verif.CheckTypes.Lemmas
/-
Property C04.
-/
namespace Verif.CheckTypes
open Verif.Common

/-- The GraphQL type the parser saw (specification). -/
def AType.toGType : AType → GType
  | .named true => .named
  | .named false => .nonNull .named
  | .list true t => .list t.toGType
  | .list false t => .nonNull (.list t.toGType)

theorem toG_atLists (t : AType) : toG (atInner t) (atLists t) = t.toGType := by
  induction t with
  | named n => cases n <;> rfl
  | list n t ih => cases n <;> simp [atInner, atLists, toG, AType.toGType, ih]

theorem atLists_length (t : AType) : (atLists t).length = t.toGType.depth := by
  induction t with
  | named n => cases n <;> rfl
  | list n t ih => cases n <;> simp [atLists, AType.toGType, GType.depth, ih]

/-- C04. Whether a type is required is right at every depth. -/
theorem C04_required (t : AType) : (extractType t).isNonnull = t.toGType.required := by
  cases t with
  | named n => cases n <;> decide
  | list n t =>
    rw [isNonnull_list]
    cases n <;> rfl

/-- C04. MISSING for the full property: types deeper than 57 list levels, for which the claim is false
(`C04_deep_list_corrupts_inner`). For every pair of parsed types of at most 57 list levels (the number
the code documents), the comparison says exactly how the set of admitted values changed. -/
theorem C04_compare_value_sets_partial (src tgt : AType)
    (hs : src.toGType.depth ≤ 57) (ht : tgt.toGType.depth ≤ 57) :
    let up := ∀ v, src.toGType.Admits v → tgt.toGType.Admits v
    let down := ∀ v, tgt.toGType.Admits v → src.toGType.Admits v
    let c := (extractType src).compare (extractType tgt)
    (c = .noChange ↔ up ∧ down) ∧ (c = .removedNonNull ↔ up ∧ ¬ down) ∧
    (c = .addedNonNull ↔ ¬ up ∧ down) ∧ (c = .notCompatible ↔ ¬ up ∧ ¬ down) := by
  intro up down c
  have h1 := rep_extract src (by rw [atLists_length]; exact hs)
  have h2 := rep_extract tgt (by rw [atLists_length]; exact ht)
  have hc := compare_eq h1 h2
  have hu := incl_iff (atInner src) (atInner tgt) (atLists src) (atLists tgt)
  have hd := incl_iff (atInner tgt) (atInner src) (atLists tgt) (atLists src)
  rw [toG_atLists, toG_atLists] at hu hd
  have hu' : up ↔ incl (atInner src) (atInner tgt) (atLists src) (atLists tgt) = true := hu.symm
  have hd' : down ↔ incl (atInner tgt) (atInner src) (atLists tgt) (atLists src) = true := hd.symm
  rw [hu', hd']
  change enc c = _ at hc
  revert hc
  generalize incl (atInner src) (atInner tgt) (atLists src) (atLists tgt) = x
  generalize incl (atInner tgt) (atInner src) (atLists tgt) (atLists src) = y
  cases c <;> cases x <;> cases y <;> simp [enc]

theorem joinRev (ls : List ListType) : ∀ (inner : Bool) (name : String),
    (toG inner ls).render name = String.join (ls.map fun _ => "[") ++ name ++ (if inner then "!" else "") ++
      String.join (ls.reverse.map fun | .list => "]" | .nonNullList => "]!") := by
  induction ls with
  | nil => intro inner name; cases inner <;> simp [toG, GType.render]
  | cons x xs ih =>
    intro inner name
    cases x <;> simp [toG, GType.render, ih, String.join_append, String.join_cons, String.append_assoc]

/-- C04. The text shown for such a type, and its requiredness, are those of the GraphQL type. -/
theorem C04_render_partial (t : AType) (h : t.toGType.depth ≤ 57) (name : String) :
    (extractType t).render name = t.toGType.render name ∧
    (extractType t).isNonnull = t.toGType.required := by
  refine ⟨?_, C04_required t⟩
  have hr := rep_extract t (by rw [atLists_length]; exact h)
  rw [← toG_atLists, joinRev]
  unfold WrappingTypes.render
  rw [rep_iter hr, innerIsNonnull_eq, hr.flag]
  rfl

def nest : Nat → AType → AType
  | 0, t => t
  | n + 1, t => .list true (nest n t)

/-- C04 is false beyond 57 levels: with 58 list levels the guard lets the 58th list overwrite the bit
of the innermost type, so that changing `[..[[X]]..]` to `[..[[X]!]..]` (58 levels, last one required)
is reported as "no change". -/
theorem C04_deep_list_corrupts_inner :
    let src := nest 57 (.list true (.named true))
    let tgt := nest 57 (.list false (.named true))
    src.toGType ≠ tgt.toGType ∧ (extractType src).compare (extractType tgt) = .noChange := by
  decide +kernel

/-- ... and a required innermost type makes the innermost list look required. -/
theorem C04_deep_list_renders_wrong :
    let t := nest 57 (.list true (.named false))
    (extractType t).render "X" ≠ t.toGType.render "X" := by
  decide +kernel

/-- Non-vacuity: `[X!]` to `[X]!` is incompatible, `[X!]!` to `[X!]` removes a non-null. -/
example : (extractType (.list true (.named false))).compare (extractType (.list false (.named true)))
    = .notCompatible ∧
    (extractType (.list false (.named false))).compare (extractType (.list true (.named false)))
    = .removedNonNull := by decide +kernel

end Verif.CheckTypes
