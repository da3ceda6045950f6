/-!
# Subscriptions of extensions shared by several clients

* `crates/wasi-component-loader/src/extension/runtime/resolver/subscription/dedup.rs`
* `crates/wasi-component-loader/src/extension/runtime/resolver/mod.rs:120-175`
* `crates/wasi-component-loader/src/extension/collection/engine.rs:37, 125-127`

Simplifications: the tasks and clients run interleaved in any order, one step (up to the next await, or the next use of the shared
map or channel) at a time; keys, extensions, items and errors are numbers; the result of `drop_subscription` is only logged by
the code and is not modelled. The channel is tokio's broadcast channel, as its documentation has it: a receiver has what was sent
since it subscribed, of that at most as many as the capacity (1000, which tokio rounds up to 1024), and is told once if something
was lost since. `given`, `sent`, `got`, `since` and `drops` record what has happened and are not used by the program.
-/
namespace Verif.SubDedup

/-- What is sent to the clients: `Response`. -/
inductive Msg where
  | item (n : Nat)
  | error (n : Nat)
deriving DecidableEq, Repr

/-- What a client gets: a response, or the error for lagging behind (dedup.rs:43-46, 112-115). -/
inductive Out where
  | msg (m : Msg)
  | lag
deriving DecidableEq, Repr

/-- Where a task is in its loop (55-110). -/
inductive Phase where
  /-- for the extension -/
  | waiting
  /-- with items left to send -/
  | sending (items : List Nat)
  /-- the send has failed for the first time; about to remove the key (104-105) -/
  | removing (items : List Nat)
  /-- about to send the error (87) -/
  | failing (e : Nat)
  /-- about to remove the key at the end (77-79, 88-90) -/
  | closing
  | done
deriving DecidableEq, Repr

structure Task where
  key : Nat
  /-- the extension whose instance is asked for items -/
  ext : Nat
  phase : Phase := .waiting
  /-- `client_registrations_closed` -/
  closed : Bool := false
  /-- what the extension has given -/
  given : List Msg := []
  /-- what was sent, also if there was no receiver -/
  sent : List Msg := []
  /-- how often `drop_subscription` was called -/
  drops : Nat := 0
deriving DecidableEq, Repr

structure Client where
  name : Nat
  key : Nat
  ext : Nat
  task : Nat
  pending : List Msg := []
  lagged : Bool := false
  /-- the stream has ended -/
  ended : Bool := false
  got : List Out := []
  /-- how many messages were sent before it subscribed -/
  since : Nat := 0
deriving DecidableEq, Repr

/-- `subscriptions` (the map), the tasks in the order they were spawned, and the receivers. -/
structure State where
  map : List (Nat × Nat) := []
  tasks : List Task := []
  clients : List Client := []
deriving DecidableEq, Repr

/-- What `resolve_next_subscription_item` gives: one or several items, the end, or an error. -/
inductive Next where
  | items (l : List Nat)
  | finished
  | error (e : Nat)
deriving DecidableEq, Repr

inductive Action where
  /-- a client asks for a subscription of an extension, which has created it and given the key -/
  | join (name ext key : Nat)
  | leave (name : Nat)
  /-- a client polls its stream -/
  | recv (name : Nat)
  /-- the extension gives what is next -/
  | next (task : Nat) (r : Next)
  /-- a task sends a message -/
  | send (task : Nat)
  /-- a task removes the key from the map -/
  | unregister (task : Nat)
deriving DecidableEq, Repr

/-- `subscriptions().entry(key)`. -/
def find (key : Nat) : List (Nat × Nat) → Option Nat
  | [] => none
  | (k, t) :: rest => if k = key then some t else find key rest

/-- `subscriptions().remove(&key)`. -/
def remove (key : Nat) (map : List (Nat × Nat)) : List (Nat × Nat) := map.filter (fun p => p.1 != key)

/-- After an item (97-109): the next one, or the extension is asked. -/
def after : List Nat → Phase
  | [] => .waiting
  | l => .sending l

/-- `Sender::send` for one receiver. -/
def push (cap : Nat) (m : Msg) (c : Client) : Client :=
  if c.pending.length < cap then { c with pending := c.pending ++ [m] }
  else { c with pending := (c.pending ++ [m]).drop 1, lagged := true }

/-- `Sender::send` for all receivers of a task. -/
def broadcast (cap : Nat) (t : Nat) (m : Msg) (cs : List Client) : List Client :=
  cs.map (fun c => if c.task = t then push cap m c else c)

/-- Whether there is a receiver. -/
def heard (t : Nat) (cs : List Client) : Bool := cs.any (fun c => decide (c.task = t))

/-- `resolve` (30-53, 112-115). -/
def join (name ext key : Nat) (s : State) : State :=
  match find key s.map with
  | some t =>
    match s.tasks[t]? with
    | some task => { s with clients := s.clients ++ [⟨name, key, ext, t, [], false, false, [], task.sent.length⟩] }
    | none => s
  | none =>
    { map := (key, s.tasks.length) :: s.map
      tasks := s.tasks ++ [{ key := key, ext := ext }]
      clients := s.clients ++ [⟨name, key, ext, s.tasks.length, [], false, false, [], 0⟩] }

/-- Polling a `BroadcastStream`: it ends when all senders, that of the task and that in the map, are gone. -/
def recv (s : State) (c : Client) : Client :=
  if c.lagged then { c with lagged := false, got := c.got ++ [.lag] }
  else
    match c.pending with
    | m :: ms => { c with pending := ms, got := c.got ++ [.msg m] }
    | [] =>
      if (s.tasks[c.task]?.map (·.phase)) = some .done ∧ s.map.all (fun p => p.2 != c.task) = true then { c with ended := true }
      else c

/-- What the extension gives (58-93). -/
def next (r : Next) (task : Task) : Task :=
  match task.phase, r with
  | .waiting, .items l => { task with phase := after l, given := task.given ++ l.map .item }
  | .waiting, .finished => { task with phase := .closing, drops := task.drops + 1 }
  | .waiting, .error e => { task with phase := .failing e, given := task.given ++ [.error e], drops := task.drops + 1 }
  | _, _ => task

/-- One message (87, 95-109). -/
def send (cap : Nat) (t : Nat) (s : State) : State :=
  match s.tasks[t]? with
  | none => s
  | some task =>
    match task.phase with
    | .sending (i :: rest) =>
      if heard t s.clients then
        { s with
          tasks := s.tasks.set t { task with phase := after rest, sent := task.sent ++ [.item i] }
          clients := broadcast cap t (.item i) s.clients }
      else if task.closed then
        { s with tasks := s.tasks.set t { task with phase := .done, sent := task.sent ++ [.item i], drops := task.drops + 1 } }
      else { s with tasks := s.tasks.set t { task with phase := .removing rest, sent := task.sent ++ [.item i] } }
    | .failing e =>
      { s with
        tasks := s.tasks.set t { task with phase := .closing, sent := task.sent ++ [.error e] }
        clients := broadcast cap t (.error e) s.clients }
    | _ => s

/-- Removing the key (77-80, 88-91, 104-106). -/
def unregister (t : Nat) (s : State) : State :=
  match s.tasks[t]? with
  | none => s
  | some task =>
    match task.phase with
    | .removing rest =>
      { s with map := remove task.key s.map, tasks := s.tasks.set t { task with phase := after rest, closed := true } }
    | .closing =>
      { s with
        map := if task.closed then s.map else remove task.key s.map
        tasks := s.tasks.set t { task with phase := .done } }
    | _ => s

def step (cap : Nat) (s : State) : Action → State
  | .join name ext key => join name ext key s
  | .leave name => { s with clients := s.clients.filter (fun c => c.name != name) }
  | .recv name => { s with clients := s.clients.map (fun c => if c.name = name then recv s c else c) }
  | .next t r =>
    match s.tasks[t]? with
    | some task => { s with tasks := s.tasks.set t (next r task) }
    | none => s
  | .send t => send cap t s
  | .unregister t => unregister t s

def run (cap : Nat) (acts : List Action) (s : State) : State := acts.foldl (step cap) s

/-- The capacity of the channel (50). -/
def capacity : Nat := 1024

end Verif.SubDedup
