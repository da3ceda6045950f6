/-
Model of subgraph request retries:
engine/src/engine/retry_budget.rs:12-52, engine/src/resolver/graphql/context.rs:45-72,
engine/src/resolver/graphql/request/execute.rs:227-306 (`retrying_fetch`, `rate_limited_fetch`),
configuration: gateway-config/src/lib.rs:461-475, engine/schema/src/builder/subgraphs.rs:84,
engine/schema/src/builder/mod.rs:179.

`tower`'s `TpsBudget` is a parameter: a state with `deposit` and `withdraw`. Requests to one subgraph share
its budget and may interleave in any order; sleeping between attempts is not modelled.
-/
namespace Verif.Retry

inductive OpType where
  | query
  | mutation
  | subscription
  deriving DecidableEq, Repr

/-- `gateway_config::RetryConfig`; the numbers of the budget are in `params`. -/
structure RetryConfig where
  enabled : Bool
  retryMutations : Bool
  params : Nat
  deriving DecidableEq, Repr

/-- `schema::RetryConfig`. -/
structure SchemaRetry where
  retryMutations : Bool
  params : Nat
  deriving DecidableEq, Repr

def RetryConfig.into (c : RetryConfig) : SchemaRetry := ⟨c.retryMutations, c.params⟩

/-- `retry` of a subgraph, builder/subgraphs.rs:84. -/
def subgraphRetry (c : Option RetryConfig) : Option SchemaRetry := c.map (·.into)

/-- Global `retry`, builder/mod.rs:179. -/
def globalRetry (c : RetryConfig) : Option SchemaRetry := if c.enabled then some c.into else none

/-- `RetryBudgets::build` for one subgraph, retry_budget.rs:13-29: the parameters of its budget. -/
def buildBudget (sub glob : Option SchemaRetry) : Option Nat := (sub.or glob).map (·.params)

/-- `get_retry_budget_for_mutation`, retry_budget.rs:37-51. -/
def budgetForMutation (sub glob : Option SchemaRetry) : Option Nat :=
  if (sub.map (·.retryMutations)).getD false then buildBudget sub glob else none

/-- `SubgraphContext::new`, context.rs:54-57. -/
def retryBudget (ty : OpType) (sub glob : Option SchemaRetry) : Option Nat :=
  match ty with
  | .mutation => budgetForMutation sub glob
  | _ => buildBudget sub glob

/-- Result of one `rate_limited_fetch`: refused by the rate limiter (nothing is sent), a fetch error (network,
5xx or 429), or a response. -/
inductive Attempt where
  | rateLimited
  | fetchError
  | ok
  deriving DecidableEq, Repr

/-- A retry budget. -/
structure BudgetOps (B : Type) where
  deposit : B → B
  withdraw : B → Bool × B

inductive Phase where
  /-- about to call `rate_limited_fetch` -/
  | ready
  | returned
  deriving DecidableEq, Repr

/-- One call of `retrying_fetch` in progress. -/
structure Task where
  /-- `ctx.retry_budget().is_some()` -/
  hasBudget : Bool
  phase : Phase
  attempts : List Attempt
  deriving DecidableEq, Repr

def Task.start (hasBudget : Bool) : Task := ⟨hasBudget, .ready, []⟩

/-- The attempt of a task ends with `a`: lines 235-271. Also says whether a withdrawal was granted. -/
def Task.attempt {B : Type} (ops : BudgetOps B) (t : Task) (b : B) (a : Attempt) : Task × B × Bool :=
  match t.phase with
  | .returned => (t, b, false)
  | .ready =>
    let t := { t with attempts := t.attempts ++ [a] }
    if !t.hasBudget then ({ t with phase := .returned }, b, false)
    else if a = .ok then ({ t with phase := .returned }, ops.deposit b, false)
    else
      match ops.withdraw b with
      | (true, b) => (t, b, true)
      | (false, b) => ({ t with phase := .returned }, b, false)

/-- Calls to one subgraph. -/
structure State (B : Type) where
  budget : B
  tasks : List Task
  granted : Nat

inductive Event (B : Type) where
  /-- a request of this type to the subgraph begins -/
  | begin (ty : OpType)
  /-- the current attempt of task `i` ends -/
  | attempt (i : Nat) (a : Attempt)
  /-- time passes: the budget is replaced -/
  | tick (f : B → B)

def step {B : Type} (ops : BudgetOps B) (sub glob : Option SchemaRetry) (s : State B) : Event B → State B
  | .begin ty => { s with tasks := s.tasks ++ [Task.start (retryBudget ty sub glob).isSome] }
  | .attempt i a =>
    match s.tasks[i]? with
    | none => s
    | some t =>
      let r := t.attempt ops s.budget a
      { budget := r.2.1, tasks := s.tasks.set i r.1, granted := s.granted + r.2.2.toNat }
  | .tick f => { s with budget := f s.budget }

def run {B : Type} (ops : BudgetOps B) (sub glob : Option SchemaRetry) (b : B) (h : List (Event B)) : State B :=
  h.foldl (step ops sub glob) ⟨b, [], 0⟩

end Verif.Retry
