import Verif.Updater.Model
/-!
# From the chosen edges of the solution space to the query graph

Model of `ingest_nodes` in `crates/engine/query-solver/src/solve/solution.rs` and of
`crates/engine/query-solver/src/post_process/root_typename.rs`.

Simplifications:
* The solution space is a `StableGraph`; a node is its index in `nodes`, an edge its index in `edges`; the slots of removed
  ones are of kind `gone`.  The order in which edges are seen is any order of their indices.
* A field is its `QueryFieldId` and `SplitId` and whether it is a `__typename`; flags are left out.  So are fields that are
  derived from others (`insert_derived_field`) and the deduplication map, which is not used further.
* `IdToMany` finds all values of a key.
* The query graph is a list of nodes and a list of edges; the order of the latter is not that of petgraph after a removal.
* Every node of the query graph remembers the node of the space it was made for (`origin`), which the code does not.
* The loop has fuel.
-/
namespace Verif.QueryGraph

open Verif.Updater (Out)

/-- `SpaceNode`, solution_space/node.rs:11-26. -/
inductive Node where
  | root
  | field (id split : Nat) (typename : Bool)
  | resolver (entity definition : Nat)
  | providable
  | gone
  deriving DecidableEq, Repr

/-- `SpaceEdge`, solution_space/edge.rs:4-29. -/
inductive Kind where
  | createChildResolver
  | canProvide
  | field
  | typename
  | hasChildResolver
  | provides
  | «requires»
  | gone
  deriving DecidableEq, Repr

structure SEdge where
  src : Nat
  dst : Nat
  kind : Kind
  deriving DecidableEq, Repr

/-- `QuerySolutionSpace`. -/
structure Space where
  nodes : List Node
  edges : List SEdge
  /-- The order in which edges are seen. -/
  order : List Nat
  root : Nat

def Space.node (sp : Space) (n : Nat) : Node := (sp.nodes[n]?).getD .gone
def Space.edge (sp : Space) (e : Nat) : SEdge := (sp.edges[e]?).getD ⟨0, 0, .gone⟩

/-- `edges(n)`, without the removed ones. -/
def Space.outgoing (sp : Space) (removed : List Nat) (n : Nat) : List Nat :=
  sp.order.filter fun e => decide (e < sp.edges.length ∧ (sp.edge e).src = n ∧ (sp.edge e).kind ≠ .gone ∧ e ∉ removed)

/-- `Node`, query/mod.rs:15-22. -/
inductive QNode where
  | root
  | partition (entity definition : Nat)
  | field (id split : Nat) (typename : Bool)
  deriving DecidableEq, Repr

/-- `Edge`, query/mod.rs:72-79. -/
inductive QKind where
  | partition
  | field
  | requiredBySubgraph
  | requiredBySupergraph
  deriving DecidableEq, Repr

structure QEdge where
  src : Nat
  dst : Nat
  kind : QKind
  deriving DecidableEq, Repr

/-- `SolutionGraph`. -/
structure QGraph where
  nodes : List (QNode × Nat)
  edges : List QEdge
  deriving DecidableEq, Repr

/-- `add_node` and `add_edge` from its parent. -/
def QGraph.add (g : QGraph) (q : QNode) (origin parent : Nat) (k : QKind) : QGraph :=
  ⟨g.nodes ++ [(q, origin)], g.edges ++ [⟨parent, g.nodes.length, k⟩]⟩

/-- The `__typename` an edge leads to, solution.rs:148-153 and 219-224. -/
def QGraph.addTypename (sp : Space) (g : QGraph) (parent e : Nat) : QGraph :=
  match sp.node (sp.edge e).dst with
  | .field id split true => g.add (.field id split true) (sp.edge e).dst parent .field
  | _ => g

/-- The state of the loop; the top of the stack is first. -/
structure St where
  graph : QGraph
  stack : List (Nat × Nat)
  /-- `required_edges`. -/
  required : List QEdge
  /-- Edges removed from the space. -/
  removed : List Nat
  /-- `query_field_to_node`. -/
  keys : List ((Nat × Nat) × Nat)

/-- The edges of the root, solution.rs:139-157. -/
def startEdge (sp : Space) (es : List Nat) (st : St) (e : Nat) : St :=
  match (sp.edge e).kind with
  | .createChildResolver => if e ∈ es then { st with stack := (0, (sp.edge e).dst) :: st.stack } else st
  | .typename => { st with graph := st.graph.addTypename sp 0 e }
  | _ => st

/-- The query graph with its root and the loop over the edges of the root, solution.rs:102, 138-157. -/
def start (sp : Space) (es : List Nat) : St :=
  (sp.outgoing [] sp.root).foldl (startEdge sp es) ⟨⟨[(.root, sp.root)], []⟩, [], [], [], []⟩

/-- The edges of the provided field, solution.rs:208-229. -/
def fieldEdge (sp : Space) (i : Nat) (st : St) (e : Nat) : St :=
  match (sp.edge e).kind with
  | .requires => { st with required := st.required ++ [⟨i, (sp.edge e).dst, .requiredBySupergraph⟩] }
  | .typename => { st with removed := st.removed ++ [e], graph := st.graph.addTypename sp i e }
  | _ => st

/-- The field provided first, solution.rs:182-198. -/
def provided (sp : Space) (removed : List Nat) (n : Nat) : Option Nat :=
  (sp.outgoing removed n).findSome? fun e =>
    match (sp.edge e).kind, sp.node (sp.edge e).dst with
    | .provides, .field _ _ _ => some (sp.edge e).dst
    | _, _ => none

/-- Edges followed from a node, solution.rs:259-266. -/
def follows (sp : Space) (es : List Nat) (e : Nat) : Bool :=
  match (sp.edge e).kind with
  | .createChildResolver | .canProvide | .provides => decide (e ∈ es)
  | .typename => true
  | _ => false

/-- Requirements and children of the node, solution.rs:244-268. -/
def expand (sp : Space) (es : List Nat) (n i : Nat) (st : St) : St :=
  { st with
    required := st.required ++
      ((sp.outgoing st.removed n).filter fun e => decide ((sp.edge e).kind = .requires)).map fun e => ⟨i, (sp.edge e).dst, .requiredBySubgraph⟩
    stack := (((sp.outgoing st.removed n).filter (follows sp es)).map fun e => (i, (sp.edge e).dst)).reverse ++ st.stack }

/-- One round of the loop, solution.rs:168-268; `none` is a panic. -/
def visit (sp : Space) (es : List Nat) (st : St) (parent n : Nat) : Option St :=
  let i := st.graph.nodes.length
  match sp.node n with
  | .resolver entity definition => some (expand sp es n i { st with graph := st.graph.add (.partition entity definition) n parent .partition })
  | .providable =>
    match provided sp st.removed n with
    | none => none
    | some f =>
      match sp.node f with
      | .field id split tn =>
        let st := { st with graph := st.graph.add (.field id split tn) n parent .field, keys := st.keys ++ [((id, split), i)] }
        some (expand sp es n i ((sp.outgoing st.removed f).foldl (fieldEdge sp i) st))
      | _ => none
  | .field id split true => some (expand sp es n i { st with graph := st.graph.add (.field id split true) n parent .field })
  | _ => some st

/-- The loop. -/
def loop (sp : Space) (es : List Nat) : Nat → St → Out St
  | 0, _ => .timeout
  | n + 1, st =>
    match st.stack with
    | [] => .ok st
    | (parent, x) :: rest =>
      match visit sp es { st with stack := rest } parent x with
      | none => .panic
      | some st => loop sp es n st

/-- The required edges, solution.rs:271-286. -/
def link (sp : Space) (keys : List ((Nat × Nat) × Nat)) : List QEdge → QGraph → Out QGraph
  | [], g => .ok g
  | r :: rs, g =>
    match sp.node r.dst with
    | .field id split _ => link sp keys rs ⟨g.nodes, g.edges ++ (keys.filter fun p => decide (p.1 = (id, split))).map fun p => ⟨r.src, p.2, r.kind⟩⟩
    | _ => .panic

/-- `ingest_nodes`, solution.rs:137-289. -/
def ingestNodes (sp : Space) (es : List Nat) (fuel : Nat) : Out QGraph :=
  (loop sp es fuel (start sp es)).bind fun st => link sp st.keys st.required st.graph

/-! ## The `__typename` fields of the root -/

/-- `query_position` of the fields; `u16::MAX` is `QueryPosition::MAX`. -/
abbrev Positions := Nat → Option Nat

def QGraph.label (g : QGraph) (i : Nat) : QNode := ((g.nodes[i]?).map (·.1)).getD .root

/-- `neighbors`. -/
def QGraph.targets (g : QGraph) (i : Nat) : List Nat := (g.edges.filter fun e => decide (e.src = i)).map (·.dst)

/-- The first position among the fields of a partition, root_typename.rs:21-29. -/
def position (pos : Positions) (g : QGraph) (i : Nat) : Nat :=
  ((g.targets i).filterMap fun j =>
    match g.label j with
    | .field id _ _ => pos id
    | _ => none).foldl min 65535

/-- `min_by_key`: the first of the smallest. -/
def minBy (f : Nat → Nat) : List Nat → Option Nat
  | [] => none
  | x :: xs =>
    match minBy f xs with
    | none => some x
    | some y => if f x ≤ f y then some x else some y

def isPartition : QNode → Bool
  | .partition _ _ => true
  | _ => false

/-- The partitions of the root, root_typename.rs:14-18. -/
def rootPartitions (g : QGraph) (root : Nat) : List Nat := (g.targets root).filter fun i => isPartition (g.label i)

/-- The first partition of the root, or a new one for introspection, root_typename.rs:14-36. -/
def firstPartition (pos : Positions) (entity introspection : Nat) (g : QGraph) (root : Nat) : QGraph × Nat :=
  match minBy (position pos g) (rootPartitions g root) with
  | some i => (g, i)
  | none => (g.add (.partition entity introspection) 0 root .partition, g.nodes.length)

/-- Whether an edge leads from the root to a `__typename`, root_typename.rs:39-47. -/
def rootTypename (g : QGraph) (root : Nat) (e : QEdge) : Bool :=
  decide (e.src = root ∧ e.kind = .field) &&
    match g.label e.dst with
    | .field _ _ tn => tn
    | _ => false

/-- `find_edge` and `remove_edge`, root_typename.rs:49-51. -/
def removeEdge (es : List QEdge) (a b : Nat) : List QEdge := es.eraseP fun e => decide (e.src = a ∧ e.dst = b)

/-- `assign_root_typename_fields`, root_typename.rs:10-54. -/
def assignRootTypenames (pos : Positions) (entity introspection : Nat) (g : QGraph) (root : Nat) : QGraph :=
  let (g, p) := firstPartition pos entity introspection g root
  let ts := (g.edges.filter (rootTypename g root)).map (·.dst)
  ⟨g.nodes, ts.foldl (fun es t => removeEdge es root t ++ [⟨p, t, .field⟩]) g.edges⟩

end Verif.QueryGraph
