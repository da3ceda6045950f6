import Verif.Flac.Model
/-!
# Solving: growing the tree and updating the weights in turns

Model of `crates/engine/query-solver/src/solve/updater.rs` and `Solver::initialize`/`execute` of
`solve/solver.rs`.

Simplifications:
* Ranges of ids are the lists they stand for.
* Which edges saturate first in a run is a function of graph, tree and state (`Cfg.pick`); loops of a run have
  fuel (`Cfg`), and `timeout` is the outcome if it does not suffice.
* Of the temporary Steiner tree nothing is kept between estimates (`clone_from_with_new_terminals` sets
  everything), so it is not part of the state.
* Weights are `u16` that wrap (release profile).
-/
namespace Verif.Updater

open Verif.Flac

/-- Fuel and order of runs. -/
structure Cfg where
  inner : Nat
  outer : Nat
  rounds : Nat
  pick : Graph → Tree → State → Nat → Nat → Nat

/-- `FreeRequirementByNode`, `FreeRequirementByEdge`, input/mod.rs:64-76. -/
structure Free where
  key : Nat
  req : List Nat
  space : List Nat
  deriving DecidableEq, Repr

/-- `RequirementsByEdge`, input/mod.rs:78-84. -/
structure Req where
  up : List Nat
  req : List Nat
  space : List Nat
  deps : List (Nat × Nat)
  deriving DecidableEq, Repr

/-- `SteinerInput` with `DispensableRequirements`, input/mod.rs:19-62. -/
structure Input where
  graph : Graph
  byNode : List Free
  byEdge : List Free
  byReq : List Req
  space : List Nat
  deriving DecidableEq, Repr

/-- `RequirementAndWeightUpdater` with the input and `has_updated_weights`, 22-35 and 81-87. -/
structure St where
  inp : Input
  independent : Option Bool
  terms : List Nat
  spaceTerms : List Nat
  flac : State
  changed : Bool

/-- What can come out. -/
inductive Out (α : Type) where
  | ok (a : α)
  | panic
  | timeout
  /-- `RequirementCycleDetected`. -/
  | cycle

def Out.bind {α β : Type} : Out α → (α → Out β) → Out β
  | .ok a, f => f a
  | .panic, _ => .panic
  | .timeout, _ => .timeout
  | .cycle, _ => .cycle

/-- `Vec::swap_remove`; `none` is a panic. -/
def swapRemove {α : Type} (i : Nat) (l : List α) : Option (List α) :=
  if i < l.length then (l.getLast?).map fun x => (l.set i x).dropLast else none

/-- `extend_terminals`, 147-158. -/
def St.extend (st : St) (req space : List Nat) : St :=
  { st with spaceTerms := st.spaceTerms ++ space, terms := st.terms ++ req }

/-- The loop over `free_requirements_by_node`, 169-183. -/
def freeNodes (t : Tree) : Nat → Nat → St → St
  | 0, _, st => st
  | n + 1, i, st =>
    match st.inp.byNode[i]? with
    | none => st
    | some f =>
      if t.nodes.contains f.key then
        let st := st.extend f.req f.space
        match swapRemove i st.inp.byNode with
        | none => st
        | some l => freeNodes t n i { st with inp := { st.inp with byNode := l } }
      else freeNodes t n (i + 1) st

/-- The loop over `free_requirements_by_edge`, 185-199; it removes from the other list. -/
def freeEdges (t : Tree) : Nat → Nat → St → Out St
  | 0, _, _ => .timeout
  | n + 1, i, st =>
    match st.inp.byEdge[i]? with
    | none => .ok st
    | some f =>
      if t.edges.contains f.key then
        let st := st.extend f.req f.space
        match swapRemove i st.inp.byNode with
        | none => .panic
        | some l => freeEdges t n i { st with inp := { st.inp with byNode := l } }
      else freeEdges t n (i + 1) st

/-- `graph[e] = w`. -/
def setWeight (g : Graph) (e w : Nat) : Graph := ⟨g.edges.modify e fun x => { x with weight := w }⟩

/-- A weight is set and compared to the old one, 218-219 and 265-266. -/
def St.setWeight (st : St) (e w : Nat) : St :=
  { st with inp := { st.inp with graph := Updater.setWeight st.inp.graph e w }, changed := st.changed || st.inp.graph.weight e != w }

/-- An edge that is not in the tree is set back, 216-221. -/
def resetWeight (t : Tree) (st : St) (p : Nat × Nat) : St := if t.edges.contains p.1 then st else st.setWeight p.1 p.2

/-- An edge gets the weight of its requirements, 263-267. -/
def addWeight (w : Nat) (st : St) (p : Nat × Nat) : St := st.setWeight p.1 ((p.2 + w) % 65536)

/-- The unavoidable parents are added, 309-313. -/
def addParent (g : Graph) (t : Tree) (e : Nat) : Tree := { t with edges := put e t.edges, nodes := put (g.dst e) t.nodes }

/-- `estimate_requirements_weight`, 288-319. -/
def estimate (c : Cfg) (g : Graph) (t : Tree) (flac : State) (up req : List Nat) : Out (Nat × State) :=
  let s := flac.reset
  let (go, tmp) := t.cloneWith req
  if !go then .ok (0, s)
  else
    let tmp := up.foldl (addParent g) tmp
    match greedy g c.inner c.outer (c.pick g tmp s) c.rounds tmp s with
    | .done _ tmp s => .ok (tmp.total, s)
    | .panic => .panic
    | .timeout => .timeout

/-- The loop over `requirements_by_edge`, 201-271. -/
def reqs (c : Cfg) (t : Tree) : Nat → Nat → St → Out St
  | 0, _, st => .ok st
  | n + 1, i, st =>
    match st.inp.byReq[i]? with
    | none => .ok st
    | some r =>
      if r.deps.any fun p => t.edges.contains p.1 then
        let st := r.deps.foldl (resetWeight t) st
        let st := st.extend r.req r.space
        match swapRemove i st.inp.byReq with
        | none => .panic
        | some l => reqs c t n i { st with inp := { st.inp with byReq := l } }
      else if r.req ≠ [] then
        (estimate c st.inp.graph t st.flac r.up r.req).bind fun (w, flac) =>
          reqs c t n (i + 1) (r.deps.foldl (addWeight w) { st with flac := flac })
      else reqs c t n (i + 1) st

/-- `generate_weight_updates_based_on_requirements`, 168-272. -/
def generate (c : Cfg) (t : Tree) (st : St) : Out St :=
  let st := freeNodes t (st.inp.byNode.length + 1) 0 st
  (freeEdges t (st.inp.byEdge.length + st.inp.byNode.length + 2) 0 st).bind fun st =>
    reqs c t (st.inp.byReq.length + 1) 0 st

/-- The loop of `run`, 122-133; `i` rounds were made. -/
def rounds (c : Cfg) (t : Tree) : Nat → Nat → St → Out (Nat × St)
  | 0, _, _ => .cycle
  | n + 1, i, st =>
    (generate c t st).bind fun st =>
      let changed := st.changed
      let st := { st with changed := false }
      if !changed || st.independent.getD false then .ok (i + 1, st)
      else if i + 1 > 100 then .cycle
      else rounds c t n (i + 1) st

/-- `FixedPointWeightAlgorithm::run`, 119-145: whether to continue. -/
def fixedPoint (c : Cfg) (t : Tree) (st : St) : Out (Bool × Tree × St) :=
  (rounds c t 101 0 { st with changed := false }).bind fun (i, st) =>
    let st := { st with independent := some (st.independent.getD (decide (i = 2))) }
    let (go, t) := t.extend st.terms
    .ok (go, t, { st with inp := { st.inp with space := st.inp.space ++ st.spaceTerms }, terms := [], spaceTerms := [] })

/-- `RequirementAndWeightUpdater::initialize`, 48-63. -/
def start (c : Cfg) (t : Tree) (st : St) : Out (Tree × St) :=
  if st.inp.byReq = [] then .ok (t, { st with independent := some true })
  else (fixedPoint c t st).bind fun (_, t, st) => .ok (t, st)

/-- `Solver::execute`, solver.rs:112-141. -/
def execute (c : Cfg) : Nat → Tree → State → St → Out (Tree × St)
  | 0, _, _, _ => .timeout
  | n + 1, t, s, st =>
    match run st.inp.graph c.inner c.outer (c.pick st.inp.graph t s 0) t s with
    | .panic => .panic
    | .timeout => .timeout
    | .done growthBreak t s =>
      (fixedPoint c t st).bind fun (go, t, st) =>
        if !go && growthBreak then .ok (t, st) else execute c n t s st

/-- `Solver::initialize` and `solve`, solver.rs:73-103. -/
def solve (c : Cfg) (n : Nat) (inp : Input) (t : Tree) : Out (Tree × Input) :=
  if t.terminals = [] then .ok (t, inp)
  else
    (start c t ⟨inp, none, [], [], .new, false⟩).bind fun (t, st) =>
      (execute c n t .new st).bind fun (t, st) => .ok (t, st.inp)

end Verif.Updater
