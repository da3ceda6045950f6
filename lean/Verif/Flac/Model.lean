/-!
# Growing a Steiner tree

Model of `crates/engine/query-solver/src/solve/steiner_tree/greedy_flac.rs` and `steiner_tree/mod.rs`.

Simplifications:
* `petgraph::Graph`: an edge is its index in `edges`; edges of a node are seen newest first.
* Bit sets are lists of their elements.  `root_feeding_terminals` also has its length.
* Times and the priority of edges in the heap are not modelled: which edge is popped from the heap is
  chosen by a parameter (`pick`), so everything holds for any rounding of the times.
* Flow rates and weights are `u16` that wrap (release profile).
* In `find_next_edge_in_T_minus` the packing of edge and target in a `usize` is not modelled.
* Loops have fuel; the result is `none` if it does not suffice.
* `debug_assert!` is not modelled.
-/
namespace Verif.Flac

structure Edge where
  src : Nat
  dst : Nat
  weight : Nat
  deriving DecidableEq, Repr

/-- `SteinerGraph`. -/
structure Graph where
  edges : List Edge
  deriving DecidableEq, Repr

/-- `edge_endpoints(e).0`. -/
def Graph.src (g : Graph) (e : Nat) : Nat := ((g.edges[e]?).map (·.src)).getD 0
/-- `edge_endpoints(e).1`. -/
def Graph.dst (g : Graph) (e : Nat) : Nat := ((g.edges[e]?).map (·.dst)).getD 0
/-- `graph[e]`. -/
def Graph.weight (g : Graph) (e : Nat) : Nat := ((g.edges[e]?).map (·.weight)).getD 0

/-- `edges_directed(n, Incoming)`. -/
def Graph.incoming (g : Graph) (n : Nat) : List Nat := (List.range g.edges.length).reverse.filter fun e => g.dst e = n
/-- `edges_directed(n, Outgoing)`. -/
def Graph.outgoing (g : Graph) (n : Nat) : List Nat := (List.range g.edges.length).reverse.filter fun e => g.src e = n

/-- `FixedBitSet::insert`. -/
def put (x : Nat) (s : List Nat) : List Nat := if s.contains x then s else x :: s
/-- `FixedBitSet::union_with`. -/
def union (s t : List Nat) : List Nat := t.foldl (fun s x => put x s) s
/-- `FixedBitSet::is_disjoint`. -/
def disjoint (s t : List Nat) : Bool := s.all fun x => !t.contains x

/-- `SteinerTree`, mod.rs:31-37. -/
structure Tree where
  nodes : List Nat
  edges : List Nat
  total : Nat
  terminals : List Nat
  isTerminal : List Nat
  deriving DecidableEq, Repr

/-- `Flow` and the heap, 213-229. -/
structure State where
  saturated : List Nat
  marked : List Nat
  rootFeeding : List Nat
  rootLen : Nat
  feeding : Nat → List Nat
  rate : Nat → Nat
  heap : List Nat

/-- `GreedyFlac::new`. -/
def State.new : State := ⟨[], [], [], 0, fun _ => [], fun _ => 0, []⟩

/-- Update of one entry of a vector. -/
def upd {α : Type} (f : Nat → α) (i : Nat) (v : α) : Nat → α := fun j => if j = i then v else f j

/-- The body of the loop in `find_next_edge_in_T_minus`, 420-431. -/
def nextStep (g : Graph) (marked : List Nat) (acc : Nat × Option Nat) (e : Nat) : Nat × Option Nat :=
  if !marked.contains e && decide (g.weight e < acc.1) then (g.weight e, some e) else acc

/-- `find_next_edge_in_T_minus`, 416-442. -/
def findNext (g : Graph) (marked : List Nat) (n : Nat) : Option Nat :=
  ((g.incoming n).foldl (nextStep g marked) (65535, none)).2

/-- The body of the loop over terminals, 387-401; `none` is the panic of the index. -/
def initTerminal (g : Graph) (t : Tree) (s : Option State) (ix : Nat) : Option State :=
  s.bind fun s => (t.terminals[ix]?).map fun n =>
    match findNext g s.marked n with
    | none => s
    | some e => { s with heap := put e s.heap, feeding := upd s.feeding n (put ix (s.feeding n)), rate := upd s.rate n 1 }

/-- `root_feeding_terminals.zeroes()` after growing to the number of terminals. -/
def State.zeroes (s : State) (n : Nat) : List Nat :=
  (List.range (max s.rootLen n)).filter fun ix => !s.rootFeeding.contains ix

/-- `initialize_terminals`, 356-405: the state; `none` is a panic. -/
def init (g : Graph) (t : Tree) (s : State) : Option State :=
  (s.zeroes t.terminals.length).foldl (initTerminal g t)
    (some { saturated := [], marked := [], rootFeeding := s.rootFeeding, rootLen := max s.rootLen t.terminals.length,
            feeding := fun _ => [], rate := fun _ => 0, heap := [] })

/-- `detect_generate_flow_and_collect_edges`, 556-585: `some none` if degenerate, otherwise the edges with
their targets. -/
def detect (g : Graph) (s : State) (new : List Nat) : Nat → List Nat → List (Nat × Nat) → Option (Option (List (Nat × Nat)))
  | _, [], acc => some (some acc)
  | 0, _ :: _, _ => none
  | n + 1, x :: st, acc =>
    if !disjoint new (s.feeding x) then some none
    else
      let acc := match findNext g s.marked x with
        | some e => acc ++ [(e, x)]
        | none => acc
      detect g s new n ((((g.incoming x).filter fun e => s.saturated.contains e).map g.src).reverse ++ st) acc

/-- The body of the loop 496-524. -/
def feed (vFeeding : List Nat) (extra : Nat) (s : State) (p : Nat × Nat) : State :=
  let old := s.rate p.2
  { s with
    feeding := upd s.feeding p.2 (union (s.feeding p.2) vFeeding)
    rate := upd s.rate p.2 ((old + extra) % 65536)
    heap := if old = 0 then put p.1 s.heap else s.heap }

/-- `FlacControlFlow`. -/
inductive Ctl where
  | «continue»
  | «break»
  | found (node : Nat)
  deriving DecidableEq, Repr

/-- The end of `update_flow_rates`, 530-541: the next edge into `v`. -/
def pushNext (g : Graph) (v : Nat) (s : State) : State :=
  match findNext g s.marked v with
  | some e => { s with heap := put e s.heap }
  | none => s

/-- The middle of `update_flow_rates`, 490-526: the edge saturates. -/
def saturate (e v : Nat) (l : List (Nat × Nat)) (s : State) : State :=
  let vF := s.feeding v
  let extra := s.rate v
  let s := { s with saturated := put e s.saturated, feeding := upd s.feeding v [] }
  let s := l.foldl (feed vF extra) s
  { s with feeding := upd s.feeding v vF }

/-- `update_flow_rates`, 452-544. -/
def update (g : Graph) (inner : Nat) (t : Tree) (s : State) (e : Nat) : Option (Ctl × State) :=
  let u := g.src e
  let v := g.dst e
  let s := { s with marked := put e s.marked }
  if t.nodes.contains v then some (.continue, s)
  else if t.nodes.contains u then
    if disjoint s.rootFeeding (s.feeding v) then
      some (.found v, { s with rootFeeding := union s.rootFeeding (s.feeding v) })
    else some (.break, s)
  else
    match detect g s (s.feeding v) inner [u] [] with
    | none => none
    | some none => some (.continue, pushNext g v s)
    | some (some l) => some (.continue, pushNext g v (saturate e v l s))

/-- An edge of the subtree, 337-341. -/
def addEdge (g : Graph) (t : Tree) (e : Nat) : Tree :=
  { t with edges := put e t.edges, total := (t.total + g.weight e) % 65536 }

/-- The loop 332-343. -/
def subtree (g : Graph) (saturated : List Nat) : Nat → List Nat → Tree → Option Tree
  | _, [], t => some t
  | 0, _ :: _, _ => none
  | n + 1, x :: st, t =>
    let out := (g.outgoing x).filter fun e => saturated.contains e
    subtree g saturated n ((out.map g.dst).reverse ++ st) (out.foldl (addEdge g) { t with nodes := put x t.nodes })

/-- The loop of `run`, 315-347; `pick` chooses the edge popped. -/
def loop (g : Graph) (inner : Nat) (pick : Nat → Nat) : Nat → Tree → State → Option (Tree × State)
  | 0, t, s => if s.heap = [] then some (t, s) else none
  | n + 1, t, s =>
    let i := pick n % s.heap.length
    match s.heap[i]? with
    | none => some (t, s)
    | some e =>
      match update g inner t { s with heap := s.heap.eraseIdx i } e with
      | none => none
      | some (.break, s) => some (t, s)
      | some (.continue, s) => loop g inner pick n t s
      | some (.found v, s) =>
        match subtree g s.saturated inner [v] (addEdge g t e) with
        | none => none
        | some t => loop g inner pick n t s

/-- What a run gives. -/
inductive Outcome where
  | panic
  /-- Fuel exhausted. -/
  | timeout
  /-- `ControlFlow::Break` or `Continue`, and the state. -/
  | done (isBreak : Bool) (t : Tree) (s : State)

/-- The tree. -/
def Outcome.tree : Outcome → Option (Bool × Tree)
  | .done b t _ => some (b, t)
  | _ => none

def Outcome.isPanic : Outcome → Bool
  | .panic => true
  | _ => false

/-- `is_full`. -/
def State.isFull (s : State) : Bool := (List.range s.rootLen).all fun ix => s.rootFeeding.contains ix

/-- `Flac::run`, 306-354. -/
def run (g : Graph) (inner outer : Nat) (pick : Nat → Nat) (t : Tree) (s : State) : Outcome :=
  if (s.zeroes t.terminals.length).isEmpty then
    .done true t { s with saturated := [], marked := [], heap := [], feeding := fun _ => [], rate := fun _ => 0,
                          rootLen := max s.rootLen t.terminals.length }
  else
    match init g t s with
    | none => .panic
    | some s =>
      match loop g inner pick outer t s with
      | none => .timeout
      | some (t, s) => .done s.isFull t s

/-- `GreedyFlac::run`, 263-273. -/
def greedy (g : Graph) (inner outer : Nat) (pick : Nat → Nat → Nat) : Nat → Tree → State → Outcome
  | 0, _, _ => .timeout
  | n + 1, t, s =>
    match run g inner outer (pick n) t s with
    | .done false t s => greedy g inner outer pick n t s
    | o => o

/-- `reset`, 275-277. -/
def State.reset (s : State) : State := { s with rootFeeding := [] }

/-- `SteinerTree::new`, mod.rs:55-79. -/
def Tree.new (root : Nat) (terminals : List Nat) : Tree := ⟨[root], [], 0, terminals, terminals⟩

/-- The filter of `extend_terminals`, mod.rs:83-87. -/
def addTerminal (t : Tree) (n : Nat) : Tree :=
  if t.isTerminal.contains n then t
  else if t.nodes.contains n then { t with isTerminal := n :: t.isTerminal }
  else { t with isTerminal := n :: t.isTerminal, terminals := t.terminals ++ [n] }

/-- `extend_terminals`, mod.rs:81-93: whether it continues, and the tree. -/
def Tree.extend (t : Tree) (new : List Nat) : Bool × Tree :=
  let t' := new.foldl addTerminal t
  (t'.terminals.length != t.terminals.length, t')

/-- `clone_from_with_new_terminals`, mod.rs:95-106. -/
def Tree.cloneWith (t : Tree) (new : List Nat) : Bool × Tree :=
  Tree.extend ⟨t.nodes, t.edges, 0, [], []⟩ new

end Verif.Flac
