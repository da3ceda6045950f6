import Verif.Schedule.Run

/-!
# Executing a subscription

Model of `execute_subscription` and `SubscriptionExecution::execute`
(`crates/engine/src/execution/operation/coordinator.rs` 129-240) and of the sender given to it
(`crates/engine/src/execution/request/stream.rs` 186-210) as a transition system. The execution of one
event is that of `Verif.Schedule`.

What is decided elsewhere is an input of the transitions: the items of the upstream stream, the progress of
the executions, and whether sending a response succeeds.

Simplifications:
* An item of the upstream stream, which is a `(ResponseBuilder, ResponsePartBuilder)`, is a value of a type
  `E`; which plans find parent objects at the start of its execution is given with it.
* `history` is an observation, not part of the program.
-/
namespace Verif.Subscription

open Verif.Schedule (OpPlan popSubscription runStart)

/-- An `OperationExecution` in `response_futures`. -/
structure Execution (E : Type) where
  event : E
  st : Schedule.St
  history : List Schedule.Input

/-- Something sent to the client: the response of an execution; does it have the response extensions? -/
structure Sent (E : Type) where
  execution : Execution E
  extensions : Bool

/-- Where `execute` is: in the loop 179-233, sending a response (in the loop or after it), in the loop
235-239, at its end, or returned since this response could not be sent. -/
inductive Phase (E : Type) where
  | loop
  | sending (r : Sent E) (ended : Bool)
  | draining
  | done
  | closed (r : Sent E) (ended : Bool)

structure St (E : Type) where
  /-- `response_futures`, a `FuturesOrdered`: the first is the oldest. -/
  pending : List (Execution E)
  phase : Phase E
  /-- `extensions` of `AddExtToFirstResponse`. -/
  extensions : Bool
  sent : List (Sent E)

/-- What is decided outside. -/
inductive Input (E : Type) where
  /-- The upstream stream yields an item. -/
  | event (e : E) (hasInput : Nat → Bool)
  /-- The upstream stream ends. -/
  | streamEnd
  /-- One of the executions makes a step. -/
  | work (i : Nat) (input : Schedule.Input)
  /-- `response_futures.next()` yields. -/
  | next
  /-- `responses.send(..)` completes. -/
  | sendDone (ok : Bool)

/-- The future is ready. -/
def Execution.ready {E : Type} (x : Execution E) : Bool :=
  match x.st.phase with
  | .finished => true
  | _ => false

/-- `FuturesOrdered::next`: the oldest future, when it is ready. -/
def oldest {E : Type} : List (Execution E) → Option (Execution E × List (Execution E))
  | [] => none
  | x :: t => if x.ready then some (x, t) else none

/-- Is the upstream stream polled?  Lines 180-194: not with three responses, and only while
`response_futures` is not ready since the `select!` is biased. -/
def pollsStream {E : Type} (l : List (Execution E)) : Bool :=
  if l.isEmpty then true
  else if l.length < 3 then (oldest l).isNone
  else false

/-- The `OperationExecution` of an item, 211-230; `plan` and `counts` are `subscription_plan` and
`initial_state`. -/
def newExecution {E : Type} (g : OpPlan) (plan : Nat) (counts : Schedule.Exe → Nat) (e : E) (hasInput : Nat → Bool) :
    Execution E :=
  ⟨e, runStart g.plans.length counts hasInput [plan] [.started (.plan plan)], []⟩

/-- One of the executions makes a step. -/
def workAt {E : Type} (g : OpPlan) (input : Schedule.Input) : Nat → List (Execution E) → Option (List (Execution E))
  | _, [] => none
  | 0, x :: t => (Schedule.step g.graph x.st input).map fun st => { x with st, history := x.history ++ [input] } :: t
  | i + 1, x :: t => (workAt g input i t).map (x :: ·)

/-- `AddExtToFirstResponse::send`, stream.rs:193-200: what is sent, and the extensions left. -/
def addExtensions {E : Type} (extensions : Bool) (x : Execution E) : Sent E × Bool :=
  if extensions then (⟨x, true⟩, false) else (⟨x, false⟩, false)

/-- `next` yields a response, which is being sent, 198-201 and 235-236. -/
def beginSend {E : Type} (s : St E) (ended : Bool) : Option (St E) :=
  (oldest s.pending).map fun r =>
    let (x, extensions) := addExtensions s.extensions r.1
    { s with pending := r.2, extensions, phase := .sending x ended }

/-- One step of `execute`; `none`: not possible. -/
def step {E : Type} (g : OpPlan) (plan : Nat) (counts : Schedule.Exe → Nat) (s : St E) : Input E → Option (St E)
  | .event e hasInput =>
    match s.phase with
    | .loop =>
      if pollsStream s.pending then
        some { s with pending := s.pending ++ [newExecution g plan counts e hasInput] }
      else none
    | _ => none
  | .streamEnd =>
    match s.phase with
    | .loop => if pollsStream s.pending then some { s with phase := .draining } else none
    | _ => none
  | .work i input =>
    match s.phase with
    | .loop | .draining => (workAt g input i s.pending).map fun pending => { s with pending }
    | _ => none
  | .next =>
    match s.phase with
    | .loop => beginSend s false
    | .draining => if s.pending.isEmpty then some { s with phase := .done } else beginSend s true
    | _ => none
  | .sendDone ok =>
    match s.phase with
    | .sending x ended =>
      if ok then some { s with sent := s.sent ++ [x], phase := if ended then .draining else .loop }
      else some { s with phase := .closed x ended }
    | _ => none

/-- The inputs in order; `none` when one of them is not possible. -/
def run {E : Type} (g : OpPlan) (plan : Nat) (counts : Schedule.Exe → Nat) (s : St E) : List (Input E) → Option (St E)
  | [] => some s
  | i :: t => (step g plan counts s i).bind fun s => run g plan counts s t

/-- `execute_subscription`, 129-159; `none`: there is no single plan to begin with. -/
def execute {E : Type} (g : OpPlan) (is : List (Input E)) : Option (St E) :=
  match popSubscription g.graph.parents g.plans.length with
  | none => none
  | some (plan, counts) => run g plan counts ⟨[], .loop, true, []⟩ is

end Verif.Subscription
