import Verif.OpChecks.Model
/-!
Possible types of abstract types, /repo/crates/engine/schema/src (`builder/graph/definitions.rs`, `builder/graph/directives/federation.rs`,
`composite_type.rs`, `object.rs`, `interface.rs`, `union.rs`), and the planning of an interface field through its implementors,
/repo/crates/engine/query-solver/src/solution_space/builder/alternative.rs.

Ids of objects, interfaces, unions and subgraphs are numbers, the position in the respective table; ids compare like these numbers.
The names of the document have been resolved. The tables of a real graph also hold fields, names and directives.
-/
namespace Verif.PossibleTypes
open Verif.OpChecks (sortBy cmp2)
open Verif.PatchPaths (binarySearchBy)

/-! ## The document -/

/-- `type … implements … @join__implements(graph:, interface:) @join__type(graph:)`; pairs are (subgraph, interface). -/
structure ObjectSdl where
  interfaces : List Nat
  joinImplements : List (Nat × Nat)
  joinTypes : List Nat

structure InterfaceSdl where
  joinTypes : List Nat

/-- `union … @join__unionMember(graph:, member:)`; pairs are (subgraph, member). -/
structure UnionSdl where
  members : List Nat
  joinMembers : List (Nat × Nat)

structure Sdl where
  subgraphs : List Nat
  objects : List ObjectSdl
  interfaces : List InterfaceSdl
  unions : List UnionSdl

/-! ## The graph -/

/-- `ObjectDefinitionRecord`. -/
structure Object where
  interfaceIds : List Nat
  joinImplements : List (Nat × Nat)
  existsIn : List Nat
  deriving DecidableEq

/-- `InterfaceDefinitionRecord`. -/
structure Interface where
  possible : List Nat
  existsIn : List Nat
  notFully : List Nat
  deriving DecidableEq

/-- `UnionDefinitionRecord`. -/
structure Union where
  possible : List Nat
  joinMembers : List (Nat × Nat)
  notFully : List Nat
  deriving DecidableEq

structure Graph where
  objects : List Object
  interfaces : List Interface
  unions : List Union

/-- `sort_unstable` on ids; equal ids are indistinguishable. -/
def sortIds (l : List Nat) : List Nat := sortBy (fun a b => decide (a ≤ b)) l

/-- `Itertools::dedup` and `Vec::dedup`: consecutive equal elements are merged. -/
def dedup : List Nat → List Nat
  | [] => []
  | a :: rest =>
    match dedup rest with
    | [] => [a]
    | b :: tail => if a = b then b :: tail else a :: b :: tail

/-- The objects pushed to `possible_type_ids` of the interface `i`, definitions.rs:635-647; `order` is the order in which the
definitions are visited. -/
def pushed (objects : List ObjectSdl) (order : List Nat) (i : Nat) : List Nat :=
  order.flatMap fun o =>
    match objects[o]? with
    | some def_ => def_.interfaces.filterMap fun j => if j = i then some o else none
    | none => []

/-- federation.rs:164-176. -/
def existsIn (all joinTypes : List Nat) : List Nat := if joinTypes.isEmpty then all else sortIds joinTypes

/-- `ingest_object_definition_federation_directive`, federation.rs:121-178. -/
def buildObject (all : List Nat) (d : ObjectSdl) : Object where
  interfaceIds := d.interfaces
  joinImplements := sortBy (fun a b => (cmp2 a b).isLE) d.joinImplements
  existsIn := existsIn all d.joinTypes

/-- `implements_interface_in_subgraph`, object.rs:6-19. -/
def Object.implementsInSubgraph (o : Object) (subgraph interface : Nat) : Bool :=
  (binarySearchBy (fun r => (compare r.1 subgraph).then (compare r.2 interface)) o.joinImplements).1

/-- `exists_in_subgraph`, object.rs:21-23. -/
def Object.existsInSubgraph (o : Object) (subgraph : Nat) : Bool := o.existsIn.contains subgraph

/-- `has_member_in_subgraph`, union.rs:12-21. -/
def hasMember (members : List (Nat × Nat)) (subgraph object : Nat) : Bool :=
  (binarySearchBy (fun r => (compare r.1 subgraph).then (compare r.2 object)) members).1

def implements (objects : List Object) (o subgraph interface : Nat) : Bool :=
  match objects[o]? with
  | some ob => ob.implementsInSubgraph subgraph interface
  | none => false

/-- `add_not_fully_implemented_in`, federation.rs:405-429. -/
def notFullyInterface (objects : List Object) (i : Nat) (possible existsIn : List Nat) : List Nat :=
  dedup (sortIds (possible.flatMap fun o => existsIn.filter fun s => !implements objects o s i))

/-- federation.rs:431-457. -/
def notFullyUnion (possible : List Nat) (members : List (Nat × Nat)) : List Nat :=
  let existsIn := dedup (sortIds (members.map (·.1)))
  dedup (sortIds (possible.flatMap fun o => existsIn.filter fun s => !hasMember members s o))

/-- definitions.rs:751-756 and the above. -/
def buildInterface (sdl : Sdl) (objects : List Object) (order : List Nat) (i : Nat) (d : InterfaceSdl) : Interface :=
  let possible := sortIds (pushed sdl.objects order i)
  let ex := existsIn sdl.subgraphs d.joinTypes
  { possible := possible, existsIn := ex, notFully := notFullyInterface objects i possible ex }

/-- definitions.rs:658-667 and 763-768, federation.rs:216-220. -/
def buildUnion (d : UnionSdl) : Union :=
  let possible := sortIds d.members
  let members := sortBy (fun a b => (cmp2 a b).isLE) d.joinMembers
  { possible := possible, joinMembers := members, notFully := notFullyUnion possible members }

def build (sdl : Sdl) (order : List Nat) : Graph :=
  let objects := sdl.objects.map (buildObject sdl.subgraphs)
  { objects := objects
    interfaces := sdl.interfaces.mapIdx (buildInterface sdl objects order)
    unions := sdl.unions.map buildUnion }

/-- `CompositeTypeId`. -/
inductive Composite where
  | object (id : Nat)
  | interface (id : Nat)
  | union (id : Nat)
  deriving DecidableEq

/-- `possible_type_ids`, composite_type.rs:97-103. -/
def Graph.possible (g : Graph) : Composite → List Nat
  | .object id => [id]
  | .interface id => ((g.interfaces[id]?).map (·.possible)).getD []
  | .union id => ((g.unions[id]?).map (·.possible)).getD []

/-- `is_fully_implemented_in_subgraph`, composite_type.rs:79-85. -/
def Graph.fullyImplemented (g : Graph) (subgraph : Nat) : Composite → Bool
  | .object id => ((g.objects[id]?).map fun o => o.existsInSubgraph subgraph).getD false
  | .interface id => ((g.interfaces[id]?).map fun i => !i.notFully.contains subgraph).getD false
  | .union id => ((g.unions[id]?).map fun u => !u.notFully.contains subgraph).getD false

/-- `possible_types_include_in_subgraph`, composite_type.rs:87-95. -/
def Graph.includesInSubgraph (g : Graph) (subgraph object : Nat) : Composite → Bool
  | .object id => decide (id = object) && ((g.objects[id]?).map fun o => o.existsInSubgraph subgraph).getD false
  | .interface id => implements g.objects object subgraph id
  | .union id => ((g.unions[id]?).map fun u => hasMember u.joinMembers subgraph object).getD false

/-- The loop of `has_non_empty_intersection_with`, composite_type.rs:106-118, on what is left of both slices; one unit of
fuel per iteration. -/
def intersectLoop : Nat → List Nat → List Nat → Bool
  | 0, _, _ => false
  | fuel + 1, a :: as, b :: bs =>
    match compare a b with
    | .lt => intersectLoop fuel as (b :: bs)
    | .eq => true
    | .gt => intersectLoop fuel (a :: as) bs
  | _ + 1, _, _ => false

/-- `has_non_empty_intersection_with`. -/
def intersects (left right : List Nat) : Bool := intersectLoop (left.length + right.length + 1) left right

/-- The loop of `is_disjoint`, builder/coerce/field_set.rs:292-303. -/
def disjointLoop : Nat → List Nat → List Nat → Bool
  | 0, _, _ => true
  | fuel + 1, a :: as, b :: bs =>
    match compare a b with
    | .lt => disjointLoop fuel as (b :: bs)
    | .eq => false
    | .gt => disjointLoop fuel (a :: as) bs
  | _ + 1, _, _ => true

def isDisjoint (left right : List Nat) : Bool := disjointLoop (left.length + right.length + 1) left right

/-- The loop of `is_subset_of`, composite_type.rs:128-138. -/
def subsetLoop : Nat → List Nat → List Nat → Bool
  | 0, _, _ => true
  | fuel + 1, a :: as, b :: bs =>
    match compare a b with
    | .lt => false
    | .eq => subsetLoop fuel as (b :: bs)
    | .gt => subsetLoop fuel (a :: as) bs
  | _ + 1, _, _ => true

/-- `is_subset_of`, composite_type.rs:121-139. -/
def isSubset (sub super : List Nat) : Bool :=
  if sub.length > super.length then false else subsetLoop (sub.length + super.length + 1) sub super

/-! ## `try_providing_interface_field_through_implementors` -/

/-- What the loop depends on: `implements_interface_in_subgraph` for the subgraph of the parent and the interface,
whether the field of an object is resolved anywhere, and whether `could_provide_new_field` succeeds after the given additions. -/
structure SplitEnv where
  implementsHere : Nat → Bool
  resolvable : Nat → Bool
  provides : List Nat → Nat → Bool

/-- State of the loop: what is left of both slices and the objects whose field was added. -/
inductive SplitState where
  | running (left right added : List Nat)
  | finished (result : Bool) (added : List Nat)
  deriving DecidableEq

/-- One iteration, alternative.rs:202-253; `found_alternative` is true once an addition succeeded. -/
def splitStep (e : SplitEnv) : SplitState → SplitState
  | .finished b added => .finished b added
  | .running (a :: as) (b :: bs) added =>
    match compare a b with
    | .lt => .running as (b :: bs) added
    | .gt => .running (a :: as) bs added
    | .eq =>
      if !e.implementsHere b then .running (a :: as) (b :: bs) added
      else if !e.resolvable b then .finished false added
      else if !e.provides added b then .finished false (added ++ [b])
      else .running as bs (added ++ [b])
  | .running _ _ added => .finished (!added.isEmpty) added

/-- `n` iterations. -/
def splitRun (e : SplitEnv) : Nat → SplitState → SplitState
  | 0, s => s
  | n + 1, s => splitRun e n (splitStep e s)

end Verif.PossibleTypes
