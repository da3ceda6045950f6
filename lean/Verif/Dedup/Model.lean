/-!
# Deduplicated subscriptions of extensions

Model of `DeduplicatedSubscription::resolve` and of the task it spawns, of which there are two:
`crates/wasi-component-loader/src/extension/runtime/subscription/dedup.rs` 30-126 (`Variant.legacy`, called
from `runtime/field_resolver.rs` 95-104) and `runtime/resolver/subscription/dedup.rs` 29-117
(`Variant.current`, called from `runtime/resolver/mod.rs` 158-168 after the subscription was created).
Line numbers are given as `legacy | current`.

A transition system: the entries of the map, the channels, their tasks and their receivers.  Every access
to the map (`DashMap`) and to a channel is one step, so that anything may happen in between.

`tokio::sync::broadcast` is modelled as the list of all items sent and a position for every receiver: a
receiver gets what is sent after it was created; if more than `capacity` items are waiting it gets a lag
error and goes on with the oldest item which is kept; `send` fails if there is no receiver; a receiver
ends when everything was received and there is no sender left, that is neither in the map nor in the task.

`fetched`, `due`, `over`, `joinedDue` and `got` are observations, not part of the program.
-/
namespace Verif.Dedup

/-- Which of the two implementations. -/
inductive Variant where
  | legacy
  | current
  deriving DecidableEq, Repr

/-- `broadcast::channel(1000)`, 59 | 51: tokio takes the next power of two. -/
def capacity : Nat := 1024

inductive Status where
  | alive
  | ended
  | dropped
  deriving DecidableEq, Repr

/-- A `BroadcastStream`. -/
structure Recv (α : Type) where
  /-- The number of items sent before. -/
  joined : Nat
  /-- How many items were due before. -/
  joinedDue : Nat
  pos : Nat
  /-- What the stream yielded; `none` is the lag error, 49-52 and 118-121 | 43-46 and 113-116. -/
  got : List (Option α)
  status : Status

/-- Where the task is. -/
inductive Task (α : Type) where
  /-- Legacy: waiting for `resolve_subscription`, 66. -/
  | creating
  /-- Legacy: it failed and there is no task. -/
  | failed
  /-- At the top of the loop, 72-75 | 62. -/
  | top
  /-- Waiting for the next item, 77 | 62. -/
  | fetching
  /-- Sending these items, 101-102 | 95-96. -/
  | sending (items : List α)
  /-- The item could not be sent, 103-114 | 97-107; those after it. -/
  | gone (rest : List α)
  /-- The subscription ended or failed, 86-97 | 72-92; what is still to be sent. -/
  | ending (last : Option α)
  | stopped

structure Chan (α : Type) where
  key : Nat
  items : List α
  recvs : List (Recv α)
  task : Task α
  /-- `registerations_closed` | `client_registrations_closed`. -/
  closed : Bool
  /-- The items given by the extension. -/
  fetched : List α
  /-- Those of them which were sent, could not be sent, or were discarded. -/
  due : List α
  /-- The extension ended the subscription. -/
  over : Bool

structure St (α : Type) where
  /-- `extensions.subscriptions()`; a channel is named by its index. -/
  entry : Nat → Option Nat
  chans : List (Chan α)

/-- The answer of the extension to `resolve_next_subscription_item`. -/
inductive Fetched (α : Type) where
  | items (l : List α)
  | finished
  /-- The error as a response. -/
  | error (response : α)

/-- What happens next. -/
inductive Input (α : Type) where
  /-- A request with this key looks into the map. -/
  | subscribe (key : Nat)
  /-- Legacy: `resolve_subscription` returns. -/
  | created (c : Nat) (ok : Bool)
  /-- The task is at the top of its loop. -/
  | check (c : Nat)
  /-- The task is given an answer. -/
  | fetch (c : Nat) (r : Fetched α)
  /-- The task sends an item. -/
  | send (c : Nat)
  /-- The task removes the key. -/
  | remove (c : Nat)
  /-- A stream is polled, -/
  | recv (c : Nat) (r : Nat)
  /-- or dropped. -/
  | drop (c : Nat) (r : Nat)

/-- The receiver exists. -/
def Recv.counted {α : Type} (r : Recv α) : Bool :=
  match r.status with
  | .dropped => false
  | _ => true

/-- `sender.receiver_count() == 0`. -/
def Chan.noReceiver {α : Type} (ch : Chan α) : Bool := !ch.recvs.any Recv.counted

/-- The task has the sender. -/
def Task.live {α : Type} : Task α → Bool
  | .failed | .stopped => false
  | _ => true

/-- The task at its start, which is 69-70 | 59-62. -/
def Task.start {α : Type} : Variant → Task α
  | .legacy => .creating
  | .current => .top

/-- `sender.subscribe()`, 48 | 41. -/
def Chan.join {α : Type} (ch : Chan α) : Chan α :=
  { ch with recvs := ch.recvs ++ [⟨ch.items.length, ch.due.length, ch.items.length, [], .alive⟩] }

/-- `broadcast::channel`, 59 | 51, with the first receiver. -/
def Chan.new {α : Type} (v : Variant) (key : Nat) : Chan α :=
  Chan.join ⟨key, [], [], .start v, false, [], [], false⟩

/-- The entry of the key is replaced. -/
def setEntry (m : Nat → Option Nat) (key : Nat) (e : Option Nat) : Nat → Option Nat :=
  fun k => if k = key then e else m k

/-- Lines 43-63 | 37-55. -/
def subscribe {α : Type} (v : Variant) (s : St α) (key : Nat) : Option (St α) :=
  match s.entry key with
  | some c => (s.chans[c]?).map fun ch => { s with chans := s.chans.set c ch.join }
  | none => some ⟨setEntry s.entry key (some s.chans.length), s.chans ++ [.new v key]⟩

/-- Line 66: the sender and the receiver are dropped if it failed, as they are when the request is
cancelled meanwhile. -/
def created {α : Type} (ok : Bool) (ch : Chan α) : Option (Chan α) :=
  match ch.task with
  | .creating =>
    if ok then some { ch with task := .top }
    else some { ch with task := .failed, recvs := ch.recvs.modify 0 fun r => { r with status := .dropped } }
  | _ => none

/-- Lines 73-75. -/
def check {α : Type} (v : Variant) (ch : Chan α) : Option (Chan α) :=
  match ch.task with
  | .top =>
    match v with
    | .legacy => if ch.closed && ch.noReceiver then some { ch with task := .stopped } else some { ch with task := .fetching }
    | .current => some { ch with task := .fetching }
  | _ => none

/-- Lines 77-98 | 64-93; in the newer one an error is sent. -/
def fetch {α : Type} (v : Variant) (r : Fetched α) (ch : Chan α) : Option (Chan α) :=
  match ch.task with
  | .fetching =>
    match r with
    | .items [] => some { ch with task := .top }
    | .items l => some { ch with task := .sending l, fetched := ch.fetched ++ l }
    | .finished => some { ch with task := .ending none, over := true }
    | .error x =>
      match v with
      | .legacy => some { ch with task := .ending none, over := true }
      | .current => some { ch with task := .ending (some x), over := true, fetched := ch.fetched ++ [x] }
  | _ => none

/-- `sender.send`, 102 | 88 and 96. -/
def send {α : Type} (ch : Chan α) : Option (Chan α) :=
  match ch.task with
  | .sending [] => some { ch with task := .top }
  | .sending (x :: t) =>
    if ch.noReceiver then some { ch with task := .gone t, due := ch.due ++ [x] }
    else some { ch with task := .sending t, items := ch.items ++ [x], due := ch.due ++ [x] }
  | .ending (some x) =>
    if ch.noReceiver then some { ch with task := .ending none, due := ch.due ++ [x] }
    else some { ch with task := .ending none, items := ch.items ++ [x], due := ch.due ++ [x] }
  | _ => none

/-- `subscriptions().remove(&key)` and what follows: 88, 94, 104-113 | 78, 90, 98-107; is the key removed? -/
def remove {α : Type} (v : Variant) (ch : Chan α) : Option (Bool × Chan α) :=
  match ch.task with
  | .gone rest =>
    match v with
    | .legacy =>
      if ch.closed then some (true, { ch with task := .stopped, due := ch.due ++ rest })
      else some (true, { ch with task := .top, closed := true, due := ch.due ++ rest })
    | .current =>
      if ch.closed then some (false, { ch with task := .stopped, due := ch.due ++ rest })
      else some (true, { ch with task := .sending rest, closed := true })
  | .ending none =>
    match v with
    | .legacy => some (true, { ch with task := .stopped })
    | .current => some (!ch.closed, { ch with task := .stopped })
  | _ => none

/-- A stream is polled; `sender`: is there a sender? -/
def recv {α : Type} (items : List α) (sender : Bool) (r : Recv α) : Option (Recv α) :=
  match r.status with
  | .alive =>
    match items[r.pos]? with
    | some x =>
      if items.length - r.pos > capacity then
        some { r with got := r.got ++ [none], pos := items.length - capacity }
      else some { r with got := r.got ++ [some x], pos := r.pos + 1 }
    | none => if sender then none else some { r with status := .ended }
  | _ => none

/-- The stream is dropped. -/
def Recv.drop {α : Type} (r : Recv α) : Option (Recv α) :=
  match r.status with
  | .dropped => none
  | _ => some { r with status := .dropped }

/-- A receiver makes a step. -/
def Chan.onRecv {α : Type} (i : Nat) (f : Recv α → Option (Recv α)) (ch : Chan α) : Option (Chan α) :=
  (ch.recvs[i]?).bind fun r => (f r).map fun r => { ch with recvs := ch.recvs.set i r }

/-- A channel makes a step. -/
def St.onChan {α : Type} (s : St α) (c : Nat) (f : Chan α → Option (Chan α)) : Option (St α) :=
  (s.chans[c]?).bind fun ch => (f ch).map fun ch => { s with chans := s.chans.set c ch }

/-- There is a sender of the channel: the one of the task or the one in the map. -/
def St.hasSender {α : Type} (s : St α) (c : Nat) (ch : Chan α) : Bool :=
  ch.task.live || s.entry ch.key == some c

/-- A request that is still waiting for `resolve_subscription` does not have its stream. -/
def Chan.isStream {α : Type} (ch : Chan α) (r : Nat) : Bool :=
  match ch.task, r with
  | .creating, 0 => false
  | _, _ => true

/-- One step; `none`: not possible. -/
def step {α : Type} (v : Variant) (s : St α) : Input α → Option (St α)
  | .subscribe key => subscribe v s key
  | .created c ok => s.onChan c (created ok)
  | .check c => s.onChan c (check v)
  | .fetch c r => s.onChan c (fetch v r)
  | .send c => s.onChan c send
  | .remove c =>
    (s.chans[c]?).bind fun ch => (remove v ch).map fun r =>
      { entry := if r.1 then setEntry s.entry ch.key none else s.entry, chans := s.chans.set c r.2 }
  | .recv c i => s.onChan c fun ch => if ch.isStream i then ch.onRecv i (recv ch.items (s.hasSender c ch)) else none
  | .drop c i => s.onChan c fun ch => if ch.isStream i then ch.onRecv i Recv.drop else none

/-- The inputs in order; `none` when one of them is not possible. -/
def run {α : Type} (v : Variant) (s : St α) : List (Input α) → Option (St α)
  | [] => some s
  | i :: t => (step v s i).bind fun s => run v s t

/-- Nobody has subscribed. -/
def start {α : Type} : St α := ⟨fun _ => none, []⟩

end Verif.Dedup
