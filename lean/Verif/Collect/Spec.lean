import Verif.Collect.Model
/-!
# Field collection as the GraphQL specification defines it

Only the syntax (`Sels`, `Dir`, `Info`) is shared with the model.
-/
namespace Verif.Collect

/-- Neither `@skip` with a true condition nor `@include` with a false one. -/
def dirsOk (env : Nat → Bool) (ds : List Dir) : Bool :=
  ds.all fun d => env d.cond != d.skip

/-- Whether a type condition lets an object type through. -/
def applies (poss : Nat → List Nat) (obj : Nat) : Option Nat → Bool
  | none => true
  | some ty => (poss ty).contains obj

/-- A field selected for an object: its response key, whether all the `@skip` and `@include` around
it keep it, the type of its selection set and the selection set. -/
structure Sel where
  key : Nat
  inc : Bool
  out : Option Nat
  sub : Sels
  deriving DecidableEq, Repr

/-- All the selections of fields that apply to an object type, in document order, those dropped by
`@skip` and `@include` with `inc = false`. -/
def selections (poss : Nat → List Nat) (env : Nat → Bool) (obj : Nat) : Sels → Bool → List Sel
  | .nil, _ => []
  | .field key info ds sub rest, inc =>
    ⟨key, inc && dirsOk env ds, info.out, sub⟩ :: selections poss env obj rest inc
  | .frag c ds sub rest, inc =>
    (if applies poss obj c then selections poss env obj sub (inc && dirsOk env ds) else []) ++
      selections poss env obj rest inc

/-- `CollectFields` of the specification without the grouping. -/
def collectFields (poss : Nat → List Nat) (env : Nat → Bool) (obj : Nat) :
    Sels → List (Nat × Option Nat × Sels)
  | .nil => []
  | .field key info ds sub rest =>
    if dirsOk env ds then (key, info.out, sub) :: collectFields poss env obj rest
    else collectFields poss env obj rest
  | .frag c ds sub rest =>
    if dirsOk env ds && applies poss obj c then
      collectFields poss env obj sub ++ collectFields poss env obj rest
    else collectFields poss env obj rest

/-- The selection sets merged for the object at the end of a path, with the type they were written
for: `CollectFields` then `MergeSelectionSets` at each step. -/
def specSets (poss : Nat → List Nat) (env : Nat → Bool) :
    List (Nat × Sels) → List (Nat × Nat) → List (Nat × Sels)
  | sets, [] => sets
  | sets, (obj, key) :: path =>
    specSets poss env
      ((sets.flatMap fun s => collectFields poss env obj s.2).filterMap fun f =>
        if f.1 = key then f.2.1.map fun t => (t, f.2.2) else none) path

/-- The response keys of an object of type `obj` in the order of the specification. -/
def specKeys (poss : Nat → List Nat) (env : Nat → Bool) (sets : List (Nat × Sels)) (obj : Nat) :
    List Nat :=
  ((sets.flatMap fun s => collectFields poss env obj s.2).map Prod.fst).eraseDups

/-- As `specSets`, but keeping the selections dropped by `@skip` and `@include`. -/
def allSets (poss : Nat → List Nat) (env : Nat → Bool) :
    List (Nat × Sels) → List (Nat × Nat) → List (Nat × Sels)
  | sets, [] => sets
  | sets, (obj, key) :: path =>
    allSets poss env
      ((sets.flatMap fun s => selections poss env obj s.2 true).filterMap fun f =>
        if f.key = key then f.out.map fun t => (t, f.sub) else none) path

/-- The first element of each key. -/
def firstOfKey {α : Type} (key : α → Nat) : List α → List α
  | [] => []
  | s :: rest => s :: (firstOfKey key rest).filter fun t => key t ≠ key s

/-- Selections of the same response key are all kept or all dropped. -/
def Uniform (l : List Sel) : Prop := ∀ a ∈ l, ∀ b ∈ l, a.key = b.key → a.inc = b.inc

/-- `Uniform` for each object on a path. -/
def UniformPath (poss : Nat → List Nat) (env : Nat → Bool) :
    List (Nat × Sels) → List (Nat × Nat) → Prop
  | _, [] => True
  | sets, (obj, key) :: path =>
    Uniform (sets.flatMap fun s => selections poss env obj s.2 true) ∧
    UniformPath poss env
      ((sets.flatMap fun s => selections poss env obj s.2 true).filterMap fun f =>
        if f.key = key then f.out.map fun t => (t, f.sub) else none) path

/-- Each object on a path has a possible type of every selection set it merges. -/
def TypedPath (poss : Nat → List Nat) (env : Nat → Bool) :
    List (Nat × Sels) → List (Nat × Nat) → Prop
  | _, [] => True
  | sets, (obj, key) :: path =>
    (∀ s ∈ sets, obj ∈ poss s.1) ∧
    TypedPath poss env
      ((sets.flatMap fun s => selections poss env obj s.2 true).filterMap fun f =>
        if f.key = key then f.out.map fun t => (t, f.sub) else none) path

/-- Validity: a field is selected on the type in scope, and so are the fields below. -/
def Scoped (scope : Nat) : Sels → Prop
  | .nil => True
  | .field _ info _ sub rest =>
    (∀ t, info.ty = some t → t = scope) ∧ (∀ t, info.out = some t → Scoped t sub) ∧ Scoped scope rest
  | .frag none _ sub rest => Scoped scope sub ∧ Scoped scope rest
  | .frag (some t) _ sub rest => Scoped t sub ∧ Scoped scope rest

end Verif.Collect
