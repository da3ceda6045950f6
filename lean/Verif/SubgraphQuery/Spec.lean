import Verif.SubgraphQuery.Model
import Verif.PossibleTypes.Spec
/-! What a subgraph understands of a selection set, and what should be requested. -/
namespace Verif.SubgraphQuery
open Verif.PossibleTypes

/-- The object is part of the subgraph. -/
def ObjectIn (sdl : Sdl) (s o : Nat) : Prop := ∃ d, sdl.objects[o]? = some d ∧ InSubgraph sdl d.joinTypes s

/-- The interface is part of the subgraph. -/
def InterfaceIn (sdl : Sdl) (s i : Nat) : Prop := ∃ d, sdl.interfaces[i]? = some d ∧ InSubgraph sdl d.joinTypes s

/-- The subgraph may return the object `t` for the type; no type is `_Any`. -/
def MayBe (sdl : Sdl) (s : Nat) : Option Composite → Nat → Prop
  | none, t => ObjectIn sdl s t
  | some c, t => PossibleIn sdl s c t

/-- The selections of a field on an object of type `t`, as the subgraph collects them: key, name and type of the field and the
selection set. -/
inductive Selects (sdl : Sdl) (s : Nat) : List Sel → Nat → Nat → Nat → Option Composite → List Sel → Prop
  | field {sels t key name ty sub} : Sel.field key name ty sub ∈ sels → Selects sdl s sels t key name ty sub
  | on {sels e inner t key name ty sub} : Sel.on e inner ∈ sels → PossibleIn sdl s e.composite t → Selects sdl s inner t key name ty sub →
      Selects sdl s sels t key name ty sub

/-- A path through the data of the subgraph: the type of the object and the key and name of the field. -/
abbrev Path := List (Nat × Nat × Nat)

/-- The selection set requests a path, for a parent of the given type. -/
inductive Sent (sdl : Sdl) (s : Nat) : Option Composite → List Sel → Path → Prop
  | nil {parent sels} : Sent sdl s parent sels []
  | cons {parent sels t key name ty sub rest} : MayBe sdl s parent t → Selects sdl s sels t key name ty sub →
      Sent sdl s ty sub rest → Sent sdl s parent sels ((t, key, name) :: rest)

/-- The plan wants a path: every field on it applies to its object in the composed schema. -/
inductive Wanted (sdl : Sdl) (s : Nat) : Option Composite → List Field → List Field → Path → Prop
  | nil {parent data lookups} : Wanted sdl s parent data lookups []
  | data {parent data lookups t f rest} : MayBe sdl s parent t → f ∈ data → f.included = true → f.derived = false →
      Possible sdl f.entity.composite t → (rest ≠ [] → f.ty ≠ none) → Wanted sdl s f.ty f.data f.lookups rest →
      Wanted sdl s parent data lookups ((t, f.key, f.name) :: rest)
  | lookup {parent data lookups t f rest} : MayBe sdl s parent t → f ∈ lookups → (rest ≠ [] → f.ty ≠ none) →
      Wanted sdl s f.ty f.data f.lookups rest → Wanted sdl s parent data lookups ((t, f.key, f.name) :: rest)

/-- What a subgraph says about implementors and members also holds in the composed schema, and is said of objects of the subgraph. -/
structure Consistent (sdl : Sdl) : Prop where
  implements : ∀ o s i, ImplementsIn sdl o s i → i < sdl.interfaces.length ∧ Implements sdl o i ∧ ObjectIn sdl s o
  members : ∀ u ∈ sdl.unions, ∀ s o, (s, o) ∈ u.joinMembers → o ∈ u.members ∧ ObjectIn sdl s o

/-- A field of a selection set of the given type is planned in the subgraph as it should. -/
structure Fits (sdl : Sdl) (s : Nat) (parent : Option Composite) (entity : Entity) : Prop where
  /-- `is_field_providable_in_subgraph`. -/
  providable : match entity with
    | .object o => ObjectIn sdl s o
    | .interface i => InterfaceIn sdl s i
  /-- Within an object all fields apply to it. -/
  object : ∀ o, parent = some (.object o) → Possible sdl entity.composite o
  /-- Within `_Any`, the objects of an interface all implement it in the subgraph. -/
  any : parent = none → ∀ t, ObjectIn sdl s t → Possible sdl entity.composite t → PossibleIn sdl s entity.composite t

mutual
/-- All fields of a tree fit, and only objects have lookup fields. -/
def FieldFits (sdl : Sdl) (s : Nat) : Field → Prop
  | .mk _ _ _ _ _ superTy subgraphTy _ data lookups =>
    ((∃ o, subgraphTy.or superTy = some (.object o)) ∨ lookups = []) ∧ DataFits sdl s (subgraphTy.or superTy) data ∧ LookupsFit sdl s lookups
def DataFits (sdl : Sdl) (s : Nat) (parent : Option Composite) : List Field → Prop
  | [] => True
  | f :: rest => ((f.included = true ∧ f.derived = false → Fits sdl s parent f.entity) ∧ FieldFits sdl s f) ∧ DataFits sdl s parent rest
def LookupsFit (sdl : Sdl) (s : Nat) : List Field → Prop
  | [] => True
  | f :: rest => FieldFits sdl s f ∧ LookupsFit sdl s rest
end

/-- The whole operation. -/
def OperationFits (sdl : Sdl) (s : Nat) (parent : Option Composite) (data lookups : List Field) : Prop :=
  ((∃ o, parent = some (.object o)) ∨ lookups = []) ∧ DataFits sdl s parent data ∧ LookupsFit sdl s lookups

/-! ## Validity -/

/-- A fragment on the entity may apply within the parent. -/
def Overlap (sdl : Sdl) (s : Nat) (parent : Option Composite) (e : Entity) : Prop :=
  ∃ t, MayBe sdl s parent t ∧ PossibleIn sdl s e.composite t

mutual
/-- The subgraph accepts the selection: fields are defined on their parent, fragments may apply, composite fields have a non-empty selection set.
`defined` says which fields the types of the subgraph have. -/
inductive Accepted (sdl : Sdl) (s : Nat) (defined : Composite → Nat → Prop) : Option Composite → Sel → Prop
  | leaf {c key name} : defined c name → Accepted sdl s defined (some c) (.field key name none [])
  | composite {c key name ty sub} : defined c name → sub ≠ [] → AllAccepted sdl s defined (some ty) sub →
      Accepted sdl s defined (some c) (.field key name (some ty) sub)
  | on {parent e inner} : Overlap sdl s parent e → inner ≠ [] → AllAccepted sdl s defined (some e.composite) inner →
      Accepted sdl s defined parent (.on e inner)
  | typename {parent} : Accepted sdl s defined parent .typename
  | typenameSkipped {parent} : Accepted sdl s defined parent .typenameSkipped
inductive AllAccepted (sdl : Sdl) (s : Nat) (defined : Composite → Nat → Prop) : Option Composite → List Sel → Prop
  | nil {parent} : AllAccepted sdl s defined parent []
  | cons {parent x xs} : Accepted sdl s defined parent x → AllAccepted sdl s defined parent xs → AllAccepted sdl s defined parent (x :: xs)
end

mutual
/-- Every pair of braces has something in it, and only leaves have no braces. -/
def Filled : Sel → Prop
  | .field _ _ none sub => sub = []
  | .field _ _ (some _) sub => sub ≠ [] ∧ AllFilled sub
  | .on _ inner => inner ≠ [] ∧ AllFilled inner
  | _ => True
def AllFilled : List Sel → Prop
  | [] => True
  | x :: xs => Filled x ∧ AllFilled xs
end

/-- What makes a data field acceptable: it is defined on its entity (`is_field_providable_in_subgraph`) and, within an object, on
the object. An interface other than the parent is fully implemented in the subgraph and has an object in common with the parent. -/
structure Sound (sdl : Sdl) (s : Nat) (defined : Composite → Nat → Prop) (parent : Option Composite) (entity : Entity) (name : Nat) : Prop where
  defined_ : defined entity.composite name
  object : ∀ o, parent = some (.object o) → defined (.object o) name
  entity_ : ∀ o, entity = .object o → ObjectIn sdl s o
  interface : ∀ i, entity = .interface i → parent ≠ some (.interface i) → (∀ o, parent ≠ some (.object o)) →
    (∀ t, Possible sdl (.interface i) t → PossibleIn sdl s (.interface i) t) ∧ Overlap sdl s parent (.interface i)

mutual
def FieldSound (sdl : Sdl) (s : Nat) (defined : Composite → Nat → Prop) : Field → Prop
  | .mk _ _ _ _ _ superTy subgraphTy _ data lookups =>
    DataSound sdl s defined (subgraphTy.or superTy) data ∧ LookupsSound sdl s defined (subgraphTy.or superTy) lookups
def DataSound (sdl : Sdl) (s : Nat) (defined : Composite → Nat → Prop) (parent : Option Composite) : List Field → Prop
  | [] => True
  | f :: rest =>
    ((f.included = true ∧ f.derived = false → Sound sdl s defined parent f.entity f.name) ∧ FieldSound sdl s defined f) ∧
      DataSound sdl s defined parent rest
def LookupsSound (sdl : Sdl) (s : Nat) (defined : Composite → Nat → Prop) (parent : Option Composite) : List Field → Prop
  | [] => True
  | f :: rest => ((∀ c, parent = some c → defined c f.name) ∧ FieldSound sdl s defined f) ∧ LookupsSound sdl s defined parent rest
end

end Verif.SubgraphQuery
