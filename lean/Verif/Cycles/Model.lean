/-!
# Splitting query partitions that depend on themselves

Model of `crates/engine/query-solver/src/post_process/partition_cycles.rs`.

Simplifications:
* `petgraph::Graph`: a node is its index in `nodes`; `edges` has the newest edge first, which is the
  order in which `edges`, `neighbors` and `find_edge` see the edges of a node (each node has a linked list
  of its outgoing edges with new ones in front; `remove_edge` unlinks).
* Of a field node only its query position is kept.
* `sort_unstable_by` gives some sorted permutation: it is a parameter.
* The outer `while let Some(..) = stack.pop()` has fuel; the result is `none` if it does not suffice.
* `debug_assert!` is not modelled.
-/
namespace Verif.Cycles

/-- `Edge`, query/mod.rs:74-82. -/
inductive Kind where
  | queryPartition
  | field
  | derive
  | requiredBySubgraph
  | requiredBySupergraph
  | mutationExecutedAfter
  deriving DecidableEq, Repr

/-- `Node`, query/mod.rs:15-23. -/
inductive Node where
  | root
  | partition (entity resolver : Nat)
  | field (position : Option Nat)
  deriving DecidableEq, Repr

structure Edge where
  src : Nat
  dst : Nat
  kind : Kind
  deriving DecidableEq, Repr

/-- `SolutionGraph`. -/
structure Graph where
  nodes : List Node
  edges : List Edge
  deriving DecidableEq, Repr

/-- `graph.edges(n)`. -/
def Graph.out (g : Graph) (n : Nat) : List Edge := g.edges.filter fun e => e.src = n

/-- `graph.add_edge`. -/
def Graph.addEdge (g : Graph) (a b : Nat) (k : Kind) : Graph := { g with edges := ⟨a, b, k⟩ :: g.edges }

/-- `find_edge` and `remove_edge`, 66-73: the newest edge between the two nodes, of any kind. -/
def Graph.removeFirst (g : Graph) (a b : Nat) : Graph :=
  { g with edges := g.edges.eraseP fun e => e.src = a && e.dst = b }

/-- `Field`, 16-21. -/
structure Fld where
  position : Option Nat
  original : Nat
  resolver : Nat
  node : Nat
  deriving DecidableEq, Repr

/-- `nested_partitions`, `nested_patitions_fields` and what was pushed on the stack (newest first). -/
structure Acc where
  parts : List (Nat × Nat)
  fields : List Fld
  stack : List Nat
  deriving DecidableEq, Repr

/-- The body of the loop over the edges of a nested partition, 37-52. -/
def collectField (g : Graph) (part resolver : Nat) (acc : Acc) (e : Edge) : Acc :=
  if e.kind = .field then
    match g.nodes[e.dst]? with
    | some (.field pos) =>
      { acc with fields := acc.fields ++ [⟨pos, part, resolver, e.dst⟩], stack := e.dst :: acc.stack }
    | _ => acc
  else acc

/-- The body of the loop over the edges of the root, 27-59. -/
def collectEdge (g : Graph) (acc : Acc) (e : Edge) : Acc :=
  if e.kind = .queryPartition || e.kind = .field then
    match g.nodes[e.dst]? with
    | some (.partition _ r) =>
      (g.out e.dst).foldl (collectField g e.dst r) { acc with parts := acc.parts ++ [(e.dst, r)] }
    | some (.field _) => { acc with stack := e.dst :: acc.stack }
    | _ => acc
  else acc

/-- The loop 27-59. -/
def collect (g : Graph) (root : Nat) (stack : List Nat) : Acc :=
  (g.out root).foldl (collectEdge g) ⟨[], [], stack⟩

/-- The edges kept by `EdgeFiltered`, 97-99. -/
def Graph.reqs (g : Graph) : List Edge := g.edges.filter fun e => e.kind = .requiredBySubgraph

/-- `Dfs` of `petgraph::visit`: the nodes are visited until `to` is found. -/
def dfs (es : List Edge) (to : Nat) : Nat → List Nat → List Nat → Bool
  | 0, _, _ => false
  | _ + 1, [], _ => false
  | n + 1, x :: st, vis =>
    if vis.contains x then dfs es to n st vis
    else if x = to then true
    else dfs es to n ((((es.filter fun e => e.src = x).map (·.dst)).filter fun y => !(x :: vis).contains y).reverse ++ st)
      (x :: vis)

/-- `petgraph::algo::has_path_connecting` on the filtered graph; the fuel always suffices. -/
def hasPath (g : Graph) (a b : Nat) : Bool := dfs g.reqs b (g.reqs.length + 2) [a] []

/-- The targets of the field edges of a partition, 83-92. -/
def Graph.fieldsOf (g : Graph) (p : Nat) : List Nat :=
  ((g.out p).filter fun e => e.kind = .field).map (·.dst)

/-- `is_connected`, 80-114. -/
def isConnected (g : Graph) (p f : Nat) : Bool :=
  (g.fieldsOf p).any fun x => hasPath g x f || hasPath g f x

/-- The edges copied to a new partition, 124-130. -/
def copied (k : Kind) : Bool := k = .requiredBySubgraph || k = .mutationExecutedAfter

/-- Adding a copy of a partition below the root, 118-131. -/
def newPartition (g : Graph) (root original : Nat) : Graph :=
  let p := g.nodes.length
  let g : Graph := { g with nodes := g.nodes ++ [(g.nodes[original]?).getD .root] }
  let g := g.addEdge root p .queryPartition
  ((g.out original).filter fun e => copied e.kind).foldl (fun g e => g.addEdge p e.dst e.kind) g

/-- The body of the loop 76-140. -/
def assign (root : Nat) (s : Graph × List (Nat × Nat)) (f : Fld) : Graph × List (Nat × Nat) :=
  match s.2.find? fun p => p.2 = f.resolver && !isConnected s.1 p.1 f.node with
  | some p => (s.1.addEdge p.1 f.node .field, s.2)
  | none =>
    let p := s.1.nodes.length
    ((newPartition s.1 root f.original).addEdge p f.node .field, s.2 ++ [(p, f.resolver)])

/-- One round of the outer loop, 25-143: the graph and the stack. -/
def splitRoot (sort : List Fld → List Fld) (g : Graph) (root : Nat) (stack : List Nat) : Graph × List Nat :=
  let acc := collect g root stack
  if acc.fields.isEmpty then (g, acc.stack)
  else
    let fields := sort acc.fields
    let g := fields.foldl (fun g f => g.removeFirst f.original f.node) g
    ((fields.foldl (assign root) (g, acc.parts)).1, acc.stack)

/-- `split_query_partition_dependency_cycles`. -/
def split (sort : List Fld → List Fld) : Nat → Graph → List Nat → Option Graph
  | _, g, [] => some g
  | 0, _, _ :: _ => none
  | n + 1, g, r :: stack =>
    let s := splitRoot sort g r stack
    split sort n s.1 s.2

end Verif.Cycles
