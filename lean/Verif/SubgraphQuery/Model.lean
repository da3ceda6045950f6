import Verif.PossibleTypes.Model
/-!
Selection sets of the operations sent to GraphQL subgraphs, /repo/crates/engine/src/resolver/graphql/request/prepare.rs:158-335.

The text is a tree here. Keys and names of fields are numbers, arguments are left out (see SubgraphVars). A field written keeps the type
with which its selection set was written.
-/
namespace Verif.SubgraphQuery
open Verif.PossibleTypes

/-- `EntityDefinition`. -/
inductive Entity where
  | object (id : Nat)
  | interface (id : Nat)
  deriving DecidableEq

def Entity.composite : Entity → Composite
  | .object id => .object id
  | .interface id => .interface id

/-- A `SubgraphField` with its selection set (`PartitionSelectionSetRecord`): response key within the subgraph, name, parent entity,
whether it is included in the request and whether it is derived, its type in the composed schema and in the subgraph if these are
composite types, whether its selection set requires `__typename`, the data fields ordered by parent entity and the lookup fields. -/
inductive Field where
  | mk (key name : Nat) (entity : Entity) (included derived : Bool) (superTy subgraphTy : Option Composite) (typename : Bool)
      (data lookups : List Field)

namespace Field
def key : Field → Nat
  | .mk k _ _ _ _ _ _ _ _ _ => k
def name : Field → Nat
  | .mk _ n _ _ _ _ _ _ _ _ => n
def entity : Field → Entity
  | .mk _ _ e _ _ _ _ _ _ _ => e
def included : Field → Bool
  | .mk _ _ _ i _ _ _ _ _ _ => i
def derived : Field → Bool
  | .mk _ _ _ _ d _ _ _ _ _ => d
/-- The type used for the selection set, prepare.rs:325-333. -/
def ty : Field → Option Composite
  | .mk _ _ _ _ _ superTy subgraphTy _ _ _ => subgraphTy.or superTy
def typename : Field → Bool
  | .mk _ _ _ _ _ _ _ t _ _ => t
def data : Field → List Field
  | .mk _ _ _ _ _ _ _ _ d _ => d
def lookups : Field → List Field
  | .mk _ _ _ _ _ _ _ _ _ l => l
end Field

/-- What is written. `typenameSkipped` is `__typename @skip(if: true)`. -/
inductive Sel where
  | field (key name : Nat) (ty : Option Composite) (sub : List Sel)
  | on (entity : Entity) (inner : List Sel)
  | typename
  | typenameSkipped

/-- `chunk_by` of the parent entity. -/
def chunks : List (Entity × Sel) → List (Entity × List Sel)
  | [] => []
  | (e, x) :: rest =>
    match chunks rest with
    | [] => [(e, [x])]
    | c :: cs => if c.1 = e then (e, x :: c.2) :: cs else (e, [x]) :: c :: cs

def existsIn (g : Graph) (s o : Nat) : Bool := ((g.objects[o]?).map fun ob => ob.existsInSubgraph s).getD false

/-- The objects of the interface in the subgraph, prepare.rs:257-259. -/
def subgraphObjects (g : Graph) (s i : Nat) : List Nat := (g.possible (.interface i)).filter (existsIn g s)

/-- prepare.rs:217-280, the fields of an entity within an interface or union. -/
def writeChunk (g : Graph) (s : Nat) (parent : Composite) : Entity × List Sel → List Sel
  | (.object o, sels) => if g.includesInSubgraph s o parent then [.on (.object o) sels] else []
  | (.interface i, sels) =>
    if parent = .interface i then sels
    else if g.fullyImplemented s (.interface i) then [.on (.interface i) sels]
    else
      ((subgraphObjects g s i).filter fun o =>
        !implements g.objects o s i && (g.fullyImplemented s parent || g.includesInSubgraph s o parent)).map (fun o => .on (.object o) sels)
      ++ (if (subgraphObjects g s i).any fun o => implements g.objects o s i then [.on (.interface i) sels] else [])

/-- `write_selection_set_fields`, prepare.rs:180-284; no parent is `ParentType::Any`. -/
def writeSetFields (g : Graph) (s : Nat) (parent : Option Composite) (items : List (Entity × Sel)) (lookups : List Sel) : List Sel :=
  match parent with
  | none => (chunks items).map fun c => .on c.1 c.2
  | some (.object _) => items.map (·.2) ++ lookups
  | some parent => (chunks items).flatMap (writeChunk g s parent)

/-- `write_selection_set`, prepare.rs:158-178. -/
def writeSet (g : Graph) (s : Nat) (parent : Option Composite) (typename : Bool) (items : List (Entity × Sel)) (lookups : List Sel) : List Sel :=
  let out := (if typename then [Sel.typename] else []) ++ writeSetFields g s parent items lookups
  if out.isEmpty then [.typenameSkipped] else out

mutual
/-- `write_field`, prepare.rs:314-335. -/
def writeField (g : Graph) (s : Nat) : Field → Sel
  | .mk key name _ _ _ superTy subgraphTy typename data lookups =>
    match subgraphTy.or superTy with
    | some ty => .field key name (some ty) (writeSet g s (some ty) typename (writeItems g s data) (writeFields g s lookups))
    | none => .field key name none []
/-- `data_fields_ordered_by_parent_entity_then_key`, operation_plan/model/selection_set.rs:30-39, with their entity. -/
def writeItems (g : Graph) (s : Nat) : List Field → List (Entity × Sel)
  | [] => []
  | f :: rest => if f.included && !f.derived then (f.entity, writeField g s f) :: writeItems g s rest else writeItems g s rest
def writeFields (g : Graph) (s : Nat) : List Field → List Sel
  | [] => []
  | f :: rest => writeField g s f :: writeFields g s rest
end

/-- The selection set of an operation: the root object, or any entity. -/
def writeOperation (g : Graph) (s : Nat) (parent : Option Composite) (typename : Bool) (data lookups : List Field) : List Sel :=
  writeSet g s parent typename (writeItems g s data) (writeFields g s lookups)

end Verif.SubgraphQuery
