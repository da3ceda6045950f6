import Verif.QueryGraph.Model
/-!
# Building the solution space

Model of `crates/engine/query-solver/src/solution_space/builder/providable_fields.rs` and `prune.rs` and of the loop over
tasks in `builder/mod.rs`.

Simplifications:
* The graph is a list of nodes and a list of edges; before pruning nothing is removed.  Edges of a node are seen newest
  first.  The root is node 0, as it is the first one added.
* The schema is given by functions (`Env`).  What a providable field carries along (`provides`, `only_providable`,
  `derive`) is one number, `provide_field_from_parent` is a function of it.  `as_composite_type` of a type is `none` for
  scalars and enums.
* Of a field of the query there are its definition, its arguments as one number and `matching_field_id`.  Locations, type
  conditions and directives are left out; so are split ids, as all nodes have the same one before
  `handle_unplannable_field`, which is not part of this model.
* A `FieldSet` is `Sel`.
* The fields of the operation, with their requirements, are given; see `ingest_operation_fields` for where they come from.
* The loops have fuel.
-/
namespace Verif.SpaceBuilder

open Verif.Updater (Out)
open Verif.QueryGraph (Kind SEdge)

/-- `QueryField`, query/mod.rs. -/
structure Field where
  definition : Option Nat
  args : Nat
  /-- `matching_field_id`. -/
  used : Option Nat
  deriving DecidableEq, Repr

/-- `FieldNode` with `FieldFlags`, query/mod.rs:25-72. -/
structure FNode where
  id : Nat
  extra : Bool
  indispensable : Bool
  leaf : Bool
  providable : Bool
  unreachable : Bool
  deriving DecidableEq, Repr

/-- `ProvidableField`, solution_space/node.rs:77-84. -/
structure PNode where
  resolver : Nat
  field : Nat
  data : Nat
  deriving DecidableEq, Repr

/-- `SpaceNode`, solution_space/node.rs:11-26. -/
inductive Node where
  | root
  | field (f : FNode)
  | resolver (entity definition : Nat)
  | providable (p : PNode)
  deriving DecidableEq, Repr

/-- `FieldSet`: an item with its subselection, and the other items. -/
inductive Sel where
  | nil
  | cons (field : Nat) (sub rest : Sel)
  deriving DecidableEq, Repr

/-- `ParentProvideResult`, providable_fields.rs:727-733. -/
inductive Prov where
  | yes (data : Nat)
  | unreachable
  | no
  deriving DecidableEq, Repr

/-- The schema. -/
structure Env where
  rootType : Nat
  /-- `ty().definition_id.as_composite_type()` of a field definition. -/
  out : Nat → Option Nat
  /-- `parent_entity_id`. -/
  entity : Nat → Nat
  /-- `resolvers()` of a field definition. -/
  resolvers : Nat → List Nat
  /-- `subgraph_id()` of a resolver. -/
  subgraph : Nat → Nat
  isLookup : Nat → Bool
  /-- `is_field_connected_to_parent_resolver`: subgraph, output of the parent, field definition. -/
  connected : Nat → Nat → Nat → Bool
  /-- `required_field_set()` of a resolver. -/
  required : Nat → Option Sel
  /-- `requires_for_subgraph`: field definition, subgraph. -/
  needs : Nat → Nat → Option Sel
  /-- `provides_for_subgraph`: what a providable field below a resolver carries: field definition, subgraph. -/
  provides : Nat → Nat → Nat
  /-- `provide_field_from_parent`: the parent, its output, the arguments of the field, its definition. -/
  provide : PNode → Nat → Nat → Nat → Prov
  /-- Definition and arguments of a field in a `FieldSet`. -/
  itemDef : Nat → Nat
  itemArgs : Nat → Nat
  /-- The loops over arguments of `is_field_equivalent`. -/
  argsEq : Nat → Nat → Bool

/-- `Parent`, providable_fields.rs:25-29. -/
structure Parent where
  field : Nat
  output : Nat
  source : Nat
  deriving DecidableEq, Repr

/-- `CreateProvidableFieldsTask`, providable_fields.rs:31-35. -/
structure Task where
  parent : Parent
  node : Nat
  id : Nat
  deriving DecidableEq, Repr

/-- `CreateRequirementTask`, providable_fields.rs:15-22. -/
structure Req where
  dependent : Nat
  indispensable : Bool
  parent : Nat
  output : Nat
  items : Sel
  deriving DecidableEq, Repr

/-- `QuerySolutionSpaceBuilder`; the top of a stack is first. -/
structure St where
  nodes : List Node
  edges : List SEdge
  fields : List Field
  tasks : List Task
  reqs : List Req
  /-- `maybe_unplannable_query_fields_stack`: parent and field. -/
  unplannable : List (Nat × Nat)
  deriving DecidableEq, Repr

def St.addNode (st : St) (v : Node) : St := { st with nodes := st.nodes ++ [v] }
def St.addEdge (st : St) (a b : Nat) (k : Kind) : St := { st with edges := st.edges ++ [⟨a, b, k⟩] }

/-- `edges_directed(n, Outgoing)` and `edges_directed(n, Incoming)`. -/
def St.outgoing (st : St) (n : Nat) : List SEdge := st.edges.reverse.filter fun e => decide (e.src = n)
def St.incoming (st : St) (n : Nat) : List SEdge := st.edges.reverse.filter fun e => decide (e.dst = n)

/-- `as_query_field`, `as_providable_field`. -/
def St.asField (st : St) (n : Nat) : Option FNode :=
  match st.nodes[n]? with
  | some (.field f) => some f
  | _ => none
def St.asProvidable (st : St) (n : Nat) : Option PNode :=
  match st.nodes[n]? with
  | some (.providable p) => some p
  | _ => none

/-- `as_query_field_mut().unwrap().flags |= …`. -/
def St.flag (st : St) (n : Nat) (g : FNode → FNode) : Option St :=
  match st.asField n with
  | some f => some { st with nodes := st.nodes.set n (.field (g f)) }
  | none => none

/-- `create_providable_fields_tasks_for_subselection`, providable_fields.rs:46-61. -/
def St.subTasks (st : St) (parent : Parent) : St :=
  { st with tasks := ((st.outgoing parent.field).filterMap fun e =>
      (st.asField e.dst).map fun f => (⟨parent, e.dst, f.id⟩ : Task)).reverse ++ st.tasks }

/-- Its call for a field that got a provider, providable_fields.rs:106-112 and 274-280. -/
def St.subSelection (E : Env) (st : St) (n source d : Nat) : St :=
  match E.out d with
  | some o => st.subTasks ⟨n, o, source⟩
  | none => st

/-- A new `ProvidableField`: providable_fields.rs:94-112 and 241-280. -/
def St.newProvider (E : Env) (st : St) (parent n d : Nat) (p : PNode) : Option St :=
  let i := st.nodes.length
  let st := ((st.addNode (.providable p)).addEdge parent i .canProvide).addEdge i n .provides
  match st.flag n fun f => { f with providable := true } with
  | some st => some (st.subSelection E n i d)
  | none => none

/-- `create_requirement_task_stack.push`. -/
def St.push (st : St) (dependent parent output : Nat) : Option Sel → St
  | some s => { st with reqs := ⟨dependent, false, parent, output, s⟩ :: st.reqs }
  | none => st

/-- A resolver of the parent that is there already, providable_fields.rs:155-165. -/
def St.findResolver (st : St) (parent r : Nat) : Option Nat :=
  (st.outgoing parent).findSome? fun (e : SEdge) =>
    if e.kind = .hasChildResolver then
      match st.nodes[e.dst]? with
      | some (.resolver _ r') => if r' = r then some e.dst else none
      | _ => none
    else none

/-- Whether a resolver provides the field already, providable_fields.rs:185-205. -/
def St.providesAlready (st : St) (i id : Nat) : Bool :=
  (st.outgoing i).any fun e => decide (e.kind = .canProvide) &&
    match st.asProvidable e.dst with
    | some p => decide (p.field = id)
    | none => false

/-- A new resolver, providable_fields.rs:207-233. -/
def St.newResolver (E : Env) (st : St) (t : Task) (d r : Nat) : St :=
  let i := st.nodes.length
  (((st.addNode (.resolver (E.entity d) r)).addEdge t.parent.source i .createChildResolver).addEdge t.parent.field i
    .hasChildResolver).push i t.parent.field t.parent.output (E.required r)

/-- The relation to a resolver that is there already, providable_fields.rs:170-181. -/
def St.linkResolver (st : St) (t : Task) (i : Nat) : St :=
  if (st.incoming i).any fun e => decide (e.src = t.parent.source) then st
  else st.addEdge t.parent.source i .createChildResolver

/-- The providable field below a resolver, providable_fields.rs:235-280. -/
def St.viaResolver (E : Env) (st : St) (t : Task) (d r i : Nat) : Option St :=
  let p : PNode := ⟨r, t.id, E.provides d (E.subgraph r)⟩
  -- The requirements are pushed between `add_node` and `add_edge` in the code.
  (st.push st.nodes.length t.parent.field t.parent.output (E.needs d (E.subgraph r))).newProvider E i t.node d p

/-- Whether a resolver is passed over, providable_fields.rs:138-151. -/
def skips (E : Env) (could : Bool) (sub : Option Nat) (output d r : Nat) : Bool :=
  (could && decide (some (E.subgraph r) = sub)) || (E.isLookup r && !E.connected (E.subgraph r) output d)

/-- One resolver, providable_fields.rs:136-281. -/
def St.tryResolver (E : Env) (t : Task) (d : Nat) (could : Bool) (sub : Option Nat) (st : St) (r : Nat) : Option St :=
  if skips E could sub t.parent.output d r then some st
  else
    match st.findResolver t.parent.field r with
    | some i =>
      let st := st.linkResolver t i
      if st.providesAlready i t.id then some st else st.viaResolver E t d r i
    | none => (st.newResolver E t d r).viaResolver E t d r st.nodes.length

/-- All resolvers of the field. -/
def St.tryResolvers (E : Env) (t : Task) (d : Nat) (could : Bool) (sub : Option Nat) : List Nat → St → Option St
  | [], st => some st
  | r :: rs, st =>
    match st.tryResolver E t d could sub r with
    | some st => st.tryResolvers E t d could sub rs
    | none => none

/-- The end of `create_providable_fields`, providable_fields.rs:283-292. -/
def St.finish (st : St) (t : Task) : Option St :=
  match st.asField t.node with
  | some f => some (if f.providable then st else { st with unplannable := (t.parent.field, t.node) :: st.unplannable })
  | none => none

/-- providable_fields.rs:130-292. -/
def St.others (E : Env) (st : St) (t : Task) (d : Nat) (could : Bool) : Option St :=
  let sub := (st.asProvidable t.parent.source).map fun p => E.subgraph p.resolver
  match st.tryResolvers E t d could sub (E.resolvers d) with
  | some st => st.finish t
  | none => none

/-- `provide_result`, providable_fields.rs:82-92. -/
def St.fromParent (E : Env) (st : St) (t : Task) (fl : Field) (d : Nat) : Prov × Nat :=
  match st.asProvidable t.parent.source with
  | some p => (E.provide p t.parent.output fl.args d, p.resolver)
  | none => (.no, 0)

/-- `create_providable_fields`, providable_fields.rs:63-292. -/
def St.provideField (E : Env) (st : St) (t : Task) : Option St :=
  match st.fields[t.id]? with
  | none => none
  | some fl =>
    match fl.definition with
    | none => st.flag t.node fun f => { f with providable := true }
    | some d =>
      match st.fromParent E t fl d with
      | (.yes data, r) =>
        match st.newProvider E t.parent.source t.node d ⟨r, t.id, data⟩ with
        | some st => st.others E t d true
        | none => none
      | (.no, _) => st.others E t d false
      | (.unreachable, _) =>
        match st.flag t.node fun f => { f with unreachable := true } with
        | some st => some { st with unplannable := (t.parent.field, t.node) :: st.unplannable }
        | none => none

/-- `is_field_equivalent`, providable_fields.rs:656-719. -/
def Field.same (E : Env) (fl : Field) (item : Nat) : Bool :=
  decide (fl.definition = some (E.itemDef item)) && E.argsEq fl.args item

/-- The field that satisfies the requirement already, providable_fields.rs:516-549. -/
def St.findExisting (E : Env) (st : St) (parent item : Nat) : Option (Nat × Nat) :=
  (st.outgoing parent).findSome? fun (e : SEdge) =>
    if e.kind = .field then
      match st.asField e.dst with
      | some f =>
        match st.fields[f.id]? with
        | some fl => if fl.used = some item ∨ fl.same E item = true then some (e.dst, f.id) else none
        | none => none
      | none => none
    else none

/-- `create_providable_fields_task_for_new_field`, providable_fields.rs:618-654. -/
def St.newTasks (st : St) (parent output n id : Nat) : St :=
  if parent = 0 then { st with tasks := ⟨⟨parent, output, 0⟩, n, id⟩ :: st.tasks }
  else
    { st with tasks := ((st.incoming parent).filterMap fun e =>
        if e.kind = .provides ∧ (st.asProvidable e.src).isSome then some (⟨⟨parent, output, e.src⟩, n, id⟩ : Task) else none).reverse
          ++ st.tasks }

/-- A new field, providable_fields.rs:556-595, with `push_query_field_node`, mod.rs:106-126. -/
def St.newField (E : Env) (st : St) (q : Req) (item : Nat) : St :=
  let id := st.fields.length
  let n := st.nodes.length
  let st := { st with fields := st.fields ++ [(⟨some (E.itemDef item), E.itemArgs item, some item⟩ : Field)] }
  let st := st.addNode (.field ⟨id, true, q.indispensable, (E.out (E.itemDef item)).isNone, false, false⟩)
  (st.addEdge q.parent n .field).newTasks q.parent q.output n id

/-- The field an item of the requirement stands for, providable_fields.rs:551-598. -/
def St.takeField (E : Env) (st : St) (q : Req) (item : Nat) : St × Nat × Nat :=
  match st.findExisting E q.parent item with
  | some (n, id) => ({ st with fields := st.fields.modify id fun fl => { fl with used := some item } }, n, id)
  | none => (st.newField E q item, st.nodes.length, st.fields.length)

/-- One item of the requirement, providable_fields.rs:514-615. -/
def St.requireItem (E : Env) (st : St) (q : Req) (item : Nat) (sub : Sel) : St :=
  let (st, n, id) := st.takeField E q item
  let st := st.addEdge q.dependent n .requires
  match ((st.fields[id]?).bind (·.definition)).bind E.out with
  | some o => { st with reqs := ⟨q.dependent, q.indispensable, n, o, sub⟩ :: st.reqs }
  | none => st

/-- `create_requirement`, providable_fields.rs:504-616. -/
def St.createRequirement (E : Env) (q : Req) : Sel → St → St
  | .nil, st => st
  | .cons item sub rest, st => (st.requireItem E q item sub).createRequirement E q rest

/-- `loop_over_tasks`, mod.rs:86-104. -/
def run (E : Env) : Nat → St → Out St
  | 0, _ => .timeout
  | fuel + 1, st =>
    match st.tasks with
    | t :: ts =>
      match ({ st with tasks := ts } : St).provideField E t with
      | some st => run E fuel st
      | none => .panic
    | [] =>
      match st.reqs with
      | q :: qs => run E fuel (({ st with reqs := qs } : St).createRequirement E q q.items)
      | [] => .ok st

/-- `build` up to the first `handle_unplannable_field`, mod.rs:62-72. -/
def build (E : Env) (fuel : Nat) (st : St) : Out St := run E fuel (st.subTasks ⟨0, E.rootType, 0⟩)

/-! ## `prune_resolvers_not_leading_any_leafs`, prune.rs -/

/-- The parent that only has `__typename` fields below it, prune.rs:25-46. -/
def St.bareParent (st : St) (n : Nat) : Option Nat :=
  match (st.incoming n).find? fun e => decide (e.kind = .typename) && (st.asField e.src).isSome with
  | some e => if (st.outgoing e.src).any fun e => decide (e.kind = .field) then none else some e.src
  | none => none

/-- Whether a field has no definition, i.e. is a `__typename`. -/
def St.isTypename (st : St) (f : FNode) : Bool := (((st.fields[f.id]?).map (·.definition)).getD none).isNone

/-- Where the search starts from, prune.rs:17-50. -/
def St.seeds (st : St) : List Nat :=
  (List.range st.nodes.length).filterMap fun n =>
    match st.asField n with
    | some f => if st.isTypename f then st.bareParent n else if f.leaf then some n else none
    | none => none

/-- `extra_leafs`. -/
def St.bare (st : St) : List Nat :=
  (List.range st.nodes.length).filterMap fun n =>
    match st.asField n with
    | some f => if st.isTypename f then st.bareParent n else none
    | none => none

/-- Edges followed backwards, prune.rs:66-72. -/
def follows : Kind → Bool
  | .createChildResolver | .canProvide | .typename | .provides => true
  | _ => false

/-- The search, prune.rs:60-76. -/
def search (st : St) : Nat → List Nat → List Nat → Option (List Nat)
  | _, visited, [] => some visited
  | 0, _, _ :: _ => none
  | fuel + 1, visited, n :: stack =>
    if n ∈ visited then search st fuel visited stack
    else search st fuel (n :: visited) ((((st.incoming n).filter fun e => follows e.kind).map (·.src)).reverse ++ stack)

def St.visited (st : St) : List Nat := (search st (st.seeds.length + st.edges.length) [] st.seeds.reverse).getD []

/-- `retain_nodes`, prune.rs:78-81. -/
def Node.kept (visited : List Nat) (n : Nat) : Node → Bool
  | .root | .field _ => true
  | .resolver .. | .providable _ => decide (n ∈ visited)

def St.kept (st : St) (visited : List Nat) (n : Nat) : Bool :=
  match st.nodes[n]? with
  | some v => v.kept visited n
  | none => false

/-- A node of the space as the solver sees it. -/
def St.show (st : St) : Node → QueryGraph.Node
  | .root => .root
  | .field f => .field f.id 0 (st.isTypename f)
  | .resolver entity definition => .resolver entity definition
  | .providable _ => .providable

/-- The solution space, with the slots of removed nodes and edges. -/
def St.prune (st : St) (order : List Nat) : QueryGraph.Space :=
  let vis := st.visited
  { nodes := st.nodes.mapIdx fun n v => if v.kept vis n then st.show v else .gone
    edges := st.edges.map fun e => if st.kept vis e.src && st.kept vis e.dst then e else { e with kind := .gone }
    order := order
    root := 0 }

/-- The leaf fields with whether they are indispensable: `LEAF_NODE`, also set by prune.rs:52-59. -/
def St.leafs (st : St) : List (Nat × Bool) :=
  (List.range st.nodes.length).filterMap fun n =>
    match st.asField n with
    | some f => if f.leaf || decide (n ∈ st.bare) then some (n, f.indispensable) else none
    | none => none

end Verif.SpaceBuilder
