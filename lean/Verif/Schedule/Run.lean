import Verif.Schedule.Model

/-!
# Executing an operation plan

Model of `OperationExecutionState` (`crates/engine/src/execution/operation/state.rs`) and of
`OperationExecution::run`, `ingest_execution_result` and `create_plan_execution_future`
(`crates/engine/src/execution/operation/coordinator.rs`) as a transition system.

What is decided elsewhere is an input of the transitions: which future completes next, whether
ingesting the part of a plan gives data or a `SubgraphFailure`, and whether a plan finds parent objects.
`log` is an observation, not part of the program.

Simplifications:
* Execution of a response modifier is a start and an end; what it does to the response is elsewhere.
* `futures` is a list of plan ids; any of them may complete.
-/
namespace Verif.Schedule

/-- Observations. `skipped` is a plan without parent objects: no future is created for it. -/
inductive Ev where
  | started (e : Exe)
  | skipped (p : Nat)
  | completed (e : Exe)
  | failed (p : Nat)
  deriving DecidableEq, Repr

/-- `State`, coordinator.rs:257-260.  During ingestion: the modifier being awaited, the stack (its end is
the head of the list) and `next_futures` of `ingest_execution_result`. -/
inductive Phase where
  | execution
  | ingestion (running : Option Nat) (stack : List Exe) (next : List Nat)
  | finished
  deriving DecidableEq, Repr

/-- The variables of `run`: the counters of `OperationExecutionState`, `futures` and `results`. -/
structure St where
  counts : Exe → Nat
  futures : List Nat
  results : List Nat
  phase : Phase
  log : List Ev

/-- What is decided outside. -/
inductive Input where
  /-- A future completes. -/
  | complete (p : Nat)
  /-- Ingestion of the next result begins; does it give data? -/
  | ingest (ok : Bool)
  /-- The top of the stack is handled; if it is a plan, does it have parent objects? -/
  | handle (hasInput : Bool)
  /-- The modifier being awaited ends. -/
  | modifierDone
  /-- Ingestion ends. -/
  | ingested
  /-- There is nothing left. -/
  | stop
  deriving DecidableEq, Repr

/-- `usize::MAX`. -/
def usizeMax : Nat := 2 ^ 64 - 1

/-- `-= 1` on a `usize` in a release build. -/
def dec (n : Nat) : Nat := if n = 0 then usizeMax else n - 1

/-- Lines state.rs:125 and 132. -/
def decAt (c : Exe → Nat) (e : Exe) : Exe → Nat := fun x => if x = e then dec (c x) else c x

/-- `get_next_executables`, state.rs:117-145: the loop over the children. -/
def nextExecutables (c : Exe → Nat) : List Exe → (Exe → Nat) × List Exe
  | [] => (c, [])
  | e :: t =>
    let c := decAt c e
    let r := nextExecutables c t
    (r.1, if c e = 0 then e :: r.2 else r.2)

/-- `get_executable_plans`, state.rs:74-82. -/
def executablePlans (c : Exe → Nat) (n : Nat) : List Nat :=
  (List.range n).filter fun p => c (.plan p) = 0

/-- `pop_subscription_plan`, state.rs:62-72. -/
def popSubscription (c : Exe → Nat) (n : Nat) : Option (Nat × (Exe → Nat)) :=
  match executablePlans c n with
  | [p] => some (p, fun x => if x = .plan p then usizeMax else c x)
  | _ => none

/-- The observation made by `create_plan_execution_future`, coordinator.rs:386-427. -/
def startEv (hasInput : Bool) (p : Nat) : Ev := if hasInput then .started (.plan p) else .skipped p

/-- The beginning of `run`, coordinator.rs:269-281. -/
def runStart (n : Nat) (c : Exe → Nat) (hasInput : Nat → Bool) (results : List Nat) (log : List Ev) : St :=
  let ps := executablePlans c n
  ⟨c, ps.filter hasInput, results, .execution, log ++ ps.map fun p => startEv (hasInput p) p⟩

/-- `execute`, coordinator.rs:113-127. -/
def startOperation (g : OpPlan) (hasInput : Nat → Bool) : St :=
  runStart g.plans.length g.graph.parents hasInput [] []

/-- `execute_subscription`, coordinator.rs:129-159, and the execution of one event, 217-230. -/
def startSubscription (g : OpPlan) (hasInput : Nat → Bool) : Option St :=
  match popSubscription g.graph.parents g.plans.length with
  | none => none
  | some (p, c) => some (runStart g.plans.length c hasInput [p] [.started (.plan p)])

/-- One step of `run`, 283-321, and of `ingest_execution_result`, 343-384; `none`: not possible. -/
def step (g : Graph) (s : St) : Input → Option St
  | .complete p =>
    if p ∈ s.futures then
      match s.phase with
      | .execution =>
        -- 314-316
        if s.results.isEmpty then
          some { s with futures := s.futures.erase p, results := [p] }
        else none
      | .ingestion .. =>
        -- 298-301
        some { s with futures := s.futures.erase p, results := s.results ++ [p] }
      | .finished => none
    else none
  | .ingest ok =>
    match s.phase, s.results with
    | .execution, p :: rest =>
      -- 312-313
      if ok then
        let r := nextExecutables s.counts (g.children (.plan p))
        some { s with
          counts := r.1, results := rest, phase := .ingestion none r.2.reverse []
          log := s.log ++ [.completed (.plan p)] }
      else
        -- 350-353
        some { s with results := rest, phase := .ingestion none [] [], log := s.log ++ [.failed p] }
    | _, _ => none
  | .handle hasInput =>
    match s.phase with
    | .ingestion none (.plan p :: stack) next =>
      -- 369-373
      some { s with
        phase := .ingestion none stack (if hasInput then next ++ [p] else next)
        log := s.log ++ [startEv hasInput p] }
    | .ingestion none (.modifier m :: stack) next =>
      -- 374-377
      some { s with phase := .ingestion (some m) stack next, log := s.log ++ [.started (.modifier m)] }
    | _ => none
  | .modifierDone =>
    match s.phase with
    | .ingestion (some m) stack next =>
      -- 378
      let r := nextExecutables s.counts (g.children (.modifier m))
      some { s with
        counts := r.1, phase := .ingestion none (r.2.reverse ++ stack) next
        log := s.log ++ [.completed (.modifier m)] }
    | _ => none
  | .ingested =>
    match s.phase with
    | .ingestion none [] next =>
      -- 292-297
      some { s with futures := s.futures ++ next, phase := .execution }
    | _ => none
  | .stop =>
    match s.phase with
    -- 317-319
    | .execution => if s.results.isEmpty && s.futures.isEmpty then some { s with phase := .finished } else none
    | _ => none

/-- A run: the inputs in order; `none` when one of them is not possible. -/
def run (g : Graph) (s : St) : List Input → Option St
  | [] => some s
  | i :: t => (step g s i).bind fun s => run g s t

end Verif.Schedule
