/-
Model of the ordering of root mutation fields:
engine/query-solver/src/post_process/mutation_order.rs:13-96 (`ensure_mutation_execution_order`) and
engine/src/prepare/cached/builder/mutation_order.rs:12-66
(`generate_mutation_partition_order_after_partition_generation`).

Graph nodes are numbers; new nodes get the next unused number. `edges` holds the partition -> field edges,
`after` the `MutationExecutedAfter` edges, newest first (petgraph iterates outgoing edges newest first).
Fields come sorted by their (distinct) position in the document.
-/
namespace Verif.MutationOrder

/-- `Field` of `ensure_mutation_execution_order`, lines 14-19. -/
structure Field where
  /-- `field_node_ix` -/
  id : Nat
  /-- `original_partition_node_ix` -/
  part : Nat
  /-- `resolver_definition_id` -/
  res : Nat
  deriving DecidableEq, Repr

structure State where
  edges : List (Nat × Nat)
  /-- `partitions` (partition node, resolver), last one first -/
  partitions : List (Nat × Nat)
  /-- next unused node index -/
  next : Nat
  /-- `root_fields`, last one first -/
  rootFields : List Nat
  deriving Repr

/-- Lines 66-85: use the original partition, or a new one if it is already used. -/
def place (s : State) (f : Field) : State :=
  if s.partitions.any (fun p => p.1 == f.part) then
    { edges := (s.next, f.id) :: s.edges.erase (f.part, f.id)
      partitions := (s.next, f.res) :: s.partitions
      next := s.next + 1
      rootFields := f.id :: s.rootFields }
  else
    { s with partitions := (f.part, f.res) :: s.partitions, rootFields := f.id :: s.rootFields }

/-- One iteration of the loop, lines 45-86. -/
def processField (s : State) (f : Field) : State :=
  match s.partitions.head? with
  | some (lastPart, lastRes) =>
    if lastRes = f.res then
      if f.part = lastPart then s
      else place { s with edges := (lastPart, f.id) :: s.edges.erase (f.part, f.id) } f
    else place s f
  | none => place s f

/-- The graph before: every field hangs under its partition. -/
def initial (fields : List Field) (next : Nat) : State :=
  ⟨fields.map fun f => (f.part, f.id), [], next, []⟩

/-- The loop. -/
def process (fields : List Field) (next : Nat) : State := fields.foldl processField (initial fields next)

/-- `tuple_windows` over the partitions in order, lines 88-92: edge from each partition to the one before. -/
def afterEdges : List Nat → List (Nat × Nat)
  | a :: b :: l => (b, a) :: afterEdges (b :: l)
  | _ => []

/-- Partitions in the order in which they were pushed. -/
def State.order (s : State) : List Nat := (s.partitions.map (·.1)).reverse

/-! builder/mutation_order.rs -/

/-- Lines 19-33: for the root's partitions, the pairs (previous, next) and the initial partition. -/
def collect (after : List (Nat × Nat)) : List Nat → List (Nat × Nat) × Option Nat
  | [] => ([], none)
  | n :: ns =>
    let (pairs, init) := collect after ns
    match after.find? (fun e => e.1 == n) with
    | some e => ((e.2, n) :: pairs, init)
    | none => (pairs, init.or (some n))

/-- Lines 57-61; `binary_search_by` on the sorted pairs finds a pair with the given key if there is one. The loop
ends when no pair follows; `fuel` bounds the number of iterations. -/
def follow (pairs : List (Nat × Nat)) : Nat → Nat → List Nat
  | 0, _ => []
  | fuel + 1, last =>
    match pairs.find? (fun p => p.1 == last) with
    | some p => p.2 :: follow pairs fuel p.2
    | none => []

/-- `mutation_partition_order`; `none` is `SolveError::InternalError`. `neighbors` are the root's partitions in
whatever order petgraph iterates them. -/
def partitionOrder (after : List (Nat × Nat)) (neighbors : List Nat) : Option (List Nat) :=
  match collect after neighbors with
  | (_, none) => none
  | (pairs, some init) => some (init :: follow pairs (pairs.length + 1) init)

end Verif.MutationOrder
