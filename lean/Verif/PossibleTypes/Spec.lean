import Verif.PossibleTypes.Model
/-! What the tables and operations on possible types should say, in terms of the document and of sets. -/
namespace Verif.PossibleTypes

/-- The object `o` implements the interface `i` in the composed schema. -/
def Implements (sdl : Sdl) (o i : Nat) : Prop := ∃ d, sdl.objects[o]? = some d ∧ i ∈ d.interfaces

/-- The object `o` implements the interface `i` in the subgraph `s`. -/
def ImplementsIn (sdl : Sdl) (o s i : Nat) : Prop := ∃ d, sdl.objects[o]? = some d ∧ (s, i) ∈ d.joinImplements

/-- A type with the given `@join__type` directives is part of the subgraph `s`; without directive it is part of all. -/
def InSubgraph (sdl : Sdl) (joinTypes : List Nat) (s : Nat) : Prop := s ∈ joinTypes ∨ joinTypes = [] ∧ s ∈ sdl.subgraphs

/-- The object `o` is a possible type of a composite type in the composed schema. -/
def Possible (sdl : Sdl) : Composite → Nat → Prop
  | .object id, o => o = id
  | .interface id, o => id < sdl.interfaces.length ∧ Implements sdl o id
  | .union id, o => ∃ u, sdl.unions[id]? = some u ∧ o ∈ u.members

/-- The object `o` is a possible type of a composite type in the subgraph `s`. -/
def PossibleIn (sdl : Sdl) (s : Nat) : Composite → Nat → Prop
  | .object id, o => o = id ∧ ∃ d, sdl.objects[o]? = some d ∧ InSubgraph sdl d.joinTypes s
  | .interface id, o => ImplementsIn sdl o s id
  | .union id, o => ∃ u, sdl.unions[id]? = some u ∧ (s, o) ∈ u.joinMembers

/-- No interface or member is given twice. -/
structure SdlOk (sdl : Sdl) : Prop where
  interfaces : ∀ d ∈ sdl.objects, d.interfaces.Nodup
  members : ∀ u ∈ sdl.unions, u.members.Nodup

/-- Every definition is visited once. -/
structure Visits (sdl : Sdl) (order : List Nat) : Prop where
  nodup : order.Nodup
  all : ∀ o, o < sdl.objects.length → o ∈ order

/-- The objects common to both sets, in order. -/
def common (left right : List Nat) : List Nat := left.filter fun a => decide (a ∈ right)

/-- The outcome of splitting an interface field over the objects still to be visited, as it is: `none` if it never ends. -/
inductive Splits (e : SplitEnv) : List Nat → List Nat → Option (Bool × List Nat) → Prop
  | done (added) : Splits e added [] (some (!added.isEmpty, added))
  | stuck {added o rest} : e.implementsHere o = false → Splits e added (o :: rest) none
  | unresolvable {added o rest} : e.implementsHere o = true → e.resolvable o = false → Splits e added (o :: rest) (some (false, added))
  | refused {added o rest} : e.implementsHere o = true → e.resolvable o = true → e.provides added o = false →
      Splits e added (o :: rest) (some (false, added ++ [o]))
  | next {added o rest out} : e.implementsHere o = true → e.resolvable o = true → e.provides added o = true →
      Splits e (added ++ [o]) rest out → Splits e added (o :: rest) out

/-- The outcome as it should be: objects that do not implement the interface in the subgraph are skipped. -/
inductive ShouldSplit (e : SplitEnv) : List Nat → List Nat → Bool × List Nat → Prop
  | done (added) : ShouldSplit e added [] (!added.isEmpty, added)
  | skip {added o rest out} : e.implementsHere o = false → ShouldSplit e added rest out → ShouldSplit e added (o :: rest) out
  | unresolvable {added o rest} : e.implementsHere o = true → e.resolvable o = false → ShouldSplit e added (o :: rest) (false, added)
  | refused {added o rest} : e.implementsHere o = true → e.resolvable o = true → e.provides added o = false →
      ShouldSplit e added (o :: rest) (false, added ++ [o])
  | next {added o rest out} : e.implementsHere o = true → e.resolvable o = true → e.provides added o = true →
      ShouldSplit e (added ++ [o]) rest out → ShouldSplit e added (o :: rest) out

/-- The loop ends with the given result. -/
def Ends (e : SplitEnv) (left right : List Nat) (res : Bool × List Nat) : Prop :=
  ∃ n, splitRun e n (.running left right []) = .finished res.1 res.2

/-- The loop never ends. -/
def NeverEnds (e : SplitEnv) (left right : List Nat) : Prop :=
  ∀ n, ∃ l r added, splitRun e n (.running left right []) = .running l r added

end Verif.PossibleTypes
