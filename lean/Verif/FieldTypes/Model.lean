import Verif.Wrapping.Model
/-
Model of the composition of field types across subgraphs:
graphql-composition/src/subgraphs/field_types.rs:12-63 and
graphql-composition/src/compose/fields.rs:48-151.
-/
namespace Verif.FieldTypes
open Verif.Wrapping

/-- `FieldType`, field_types.rs:6-10. Interned strings are numbers. -/
structure FieldType where
  definitionNameId : Nat
  wrapping : Wrapping
  deriving DecidableEq, Repr

abbrev LW := ListWrapping

/-- `Iterator::next` of `(&mut a).zip(&mut b)`: the standard library pulls `a` first and then `b`, so
that an item of `a` is lost when `b` is exhausted. Returns the item and what is left in both. -/
def zipNext : List LW → List LW → Option (LW × LW) × List LW × List LW
  | [], b => (none, [], b)
  | _ :: a, [] => (none, a, [])
  | x :: a, y :: b => (some (x, y), a, b)

/-- The `while let` loop of `FieldType::compose`, field_types.rs:45-62. `cur` is what
`zipped_wrappers.next()` returns (the peeked element), `a` and `b` what is left in the underlying
iterators, `otherRequired` is `other.is_required()`. The three last cases are those of `zipNext a b`
(the `peek` of field_types.rs:46) inlined; `composeLoop_eq` gives the loop as written. -/
def composeLoop (otherRequired : Bool) : Option (LW × LW) → List LW → List LW → Option Bool
  | none, _, _ => some otherRequired
  | some (_, o), [], b => if b.head?.isSome then none else some (o == .listNonNull)
  | some (_, o), _ :: a, [] => if a.head?.isSome then none else some (o == .listNonNull)
  | some (s, o), x :: a, y :: b =>
    if s != o then none else composeLoop otherRequired (some (x, y)) a b

/-- The loop body as in the source: peek, check both iterators are exhausted, compare, continue. -/
theorem composeLoop_eq (r : Bool) (s o : LW) (a b : List LW) :
    composeLoop r (some (s, o)) a b =
      match zipNext a b with
      | (none, a', b') =>
        if a'.head?.isSome || b'.head?.isSome then none
        else some (o == .listNonNull)
      | (some nx, a', b') =>
        if s != o then none
        else composeLoop r (some nx) a' b' := by
  cases a <;> cases b <;> simp [composeLoop, zipNext]

/-- `FieldType::compose`, field_types.rs:26-63. -/
def compose (self other : FieldType) : Option Bool :=
  if self = other then some true
  else if self.definitionNameId ≠ other.definitionNameId then none
  else
    let (peeked, a, b) := zipNext self.wrapping.listWrappings other.wrapping.listWrappings
    if peeked.isSome && (self.wrapping.innerIsRequired != other.wrapping.innerIsRequired) then none
    else composeLoop other.wrapping.isNonNull peeked a b

/-- `FieldType::compose_for_input`, field_types.rs:14-16. -/
def composeForInput (self other : FieldType) : Option FieldType := do
  let b ← compose self other
  pure (if b then other else self)

/-- `FieldType::compose_for_output`, field_types.rs:19-21. -/
def composeForOutput (self other : FieldType) : Option FieldType := do
  let b ← compose self other
  pure (if b then self else other)

/-- `compose_field_types` / `compose_argument_types`, fields.rs:48-115 and 117-151, without the
diagnostics and without the `@require` batching adjustment of fields.rs:54-71 (we take the list of
types after it). -/
def composeAll (f : FieldType → FieldType → Option FieldType) : List FieldType → Option FieldType
  | [] => none
  | first :: rest => rest.foldlM f first

end Verif.FieldTypes
