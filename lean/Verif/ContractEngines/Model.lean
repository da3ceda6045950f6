/-!
# Engines of contracts

* `crates/engine/src/engine.rs` lines 35-39, 61-90, 112-137, 139-169 (`ContractAwareEngine`)
* `crates/engine/schema/src/lib.rs` lines 103-108 (`rehash_with_contract_key`)

Simplifications: requests run interleaved in any order, one step at a time; schemas are numbers, keys of contracts are their bytes.
What the extension makes of a contract and whether the runtime can be adjusted is as the action says. `quick_cache` is as its
documentation says: `get_value_or_guard_async` gives the value, or the guard if nobody has it, and otherwise waits; a guard which is
dropped lets the next one have it; values may be evicted at any time. A request may be dropped at any time, and a guard it has with
it. The hash function is a parameter. `built` records the engines made and is not used by the program.
-/
namespace Verif.ContractEngines

abbrev Key := List Nat

/-- The hash function and the hash of the schema without contract. -/
structure Env where
  hash : List Nat → List Nat
  base : List Nat

/-- `Engine` (172-177): its schema with its hash. `key` is the contract the extension was asked for. -/
structure Engine where
  key : Key
  schema : Nat
  hash : List Nat
deriving DecidableEq, Repr

inductive Answer where
  | engine (e : Engine)
  | extensionError
  | runtimeError
deriving DecidableEq, Repr

/-- Where a request is in `get_engine_for_contract` (139-169). -/
inductive Phase where
  | start
  | waiting
  | constructing
  | adjusting (schema : Nat)
  | done (a : Answer)
deriving DecidableEq, Repr

structure Req where
  key : Key
  phase : Phase
deriving DecidableEq, Repr

structure State where
  cache : Key → Option Engine := fun _ => none
  /-- who has the guard -/
  guard : Key → Option Nat := fun _ => none
  reqs : Nat → Option Req := fun _ => none
  built : List Engine := []

inductive Action where
  | call (n : Nat) (key : Key)
  | look (n : Nat)
  | constructed (n : Nat) (schema : Option Nat)
  | adjusted (n : Nat) (ok : Bool)
  | cancel (n : Nat)
  | evict (key : Key)
deriving DecidableEq, Repr

def upd {α β : Type} [DecidableEq α] (f : α → β) (k : α) (v : β) : α → β := fun i => if i = k then v else f i

def State.go (s : State) (n : Nat) (key : Key) (p : Phase) : State := { s with reqs := upd s.reqs n (some ⟨key, p⟩) }

/-- The guard is dropped. -/
def State.release (s : State) (key : Key) : State := { s with guard := upd s.guard key none }

/-- `rehash_with_contract_key` (lib.rs:103-108). -/
def rehash (env : Env) (key : Key) : List Nat := env.hash (env.base ++ key)

/-- `get_value_or_guard_async` (140-142). -/
def look (n : Nat) (key : Key) (s : State) : State :=
  match s.cache key with
  | some e => s.go n key (.done (.engine e))
  | none =>
    match s.guard key with
    | some _ => s.go n key .waiting
    | none => { s.go n key .constructing with guard := upd s.guard key (some n) }

/-- `construct` has returned (143-152). -/
def constructed (n : Nat) (key : Key) (schema : Option Nat) (s : State) : State :=
  match schema with
  | none => (s.go n key (.done .extensionError)).release key
  | some sch => s.go n key (.adjusting sch)

/-- `clone_and_adjust_for_contract` has returned (153-166). -/
def adjusted (env : Env) (n : Nat) (key : Key) (schema : Nat) (ok : Bool) (s : State) : State :=
  if ok then
    let e : Engine := ⟨key, schema, rehash env key⟩
    { (s.go n key (.done (.engine e))).release key with cache := upd s.cache key (some e), built := e :: s.built }
  else (s.go n key (.done .runtimeError)).release key

/-- The request is dropped. -/
def cancel (n : Nat) (r : Req) (s : State) : State :=
  match r.phase with
  | .start => { s with reqs := upd s.reqs n none }
  | .waiting => { s with reqs := upd s.reqs n none }
  | .constructing => { s.release r.key with reqs := upd s.reqs n none }
  | .adjusting _ => { s.release r.key with reqs := upd s.reqs n none }
  | .done _ => s

def step (env : Env) (s : State) : Action → State
  | .call n key =>
    match s.reqs n with
    | none => s.go n key .start
    | some _ => s
  | .look n =>
    match s.reqs n with
    | some ⟨key, .start⟩ => look n key s
    | some ⟨key, .waiting⟩ => look n key s
    | _ => s
  | .constructed n schema =>
    match s.reqs n with
    | some ⟨key, .constructing⟩ => constructed n key schema s
    | _ => s
  | .adjusted n ok =>
    match s.reqs n with
    | some ⟨key, .adjusting schema⟩ => adjusted env n key schema ok s
    | _ => s
  | .cancel n =>
    match s.reqs n with
    | some r => cancel n r s
    | none => s
  | .evict key => { s with cache := upd s.cache key none }

def run (env : Env) (acts : List Action) (s : State) : State := acts.foldl (step env) s

/-- `execute` (74-90), `create_websocket_session` (112-121), `get_schema` (128-136): who has no contract is served by the engine
without contract. -/
def served (noContract : Engine) (s : State) (contract : Option Key) (n : Nat) : Option Answer :=
  match contract with
  | none => some (.engine noContract)
  | some _ =>
    match s.reqs n with
    | some ⟨_, .done a⟩ => some a
    | _ => none

end Verif.ContractEngines
