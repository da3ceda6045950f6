/-!
# Streams of responses and the futures behind them

The responses of a subscription are sent over a channel by a future, which is polled along with the receiving side: the two
are joined in one stream. After its last response the future records metrics and telemetry.

* `crates/engine/src/utils/stream.rs` (all of it)
* `crates/engine/src/execution/request/stream.rs` lines 32 to 215
* `crates/engine/src/execution/operation/coordinator.rs` lines 54 to 79
* `crates/engine/src/graphql_over_http/response/stream.rs` lines 70 to 105

Simplifications: one poll of the future is a `Step`, whatever it waited for; which of the two `select!` polls first is chosen at
random, here by the environment, for each poll of the stream; a channel is the list of what is in it, and ends when the sender
was dropped and it is empty; wakers are left out (a stream is polled again when something can have changed); texts are lists of
characters.
-/
namespace Verif.StreamJoin

/-- What one poll of the future does: it sends responses, drops the sender, and ends. -/
structure Step (α : Type) where
  sends : List α
  closes : Bool
  done : Bool
deriving DecidableEq, Repr

/-- The stream of `join` (stream.rs:42-68). -/
structure St (α : Type) where
  /-- what the future will do -/
  script : List (Step α)
  /-- what is in the channel -/
  queue : List α := []
  /-- whether the sender was dropped -/
  closed : Bool := false
  /-- whether the future has ended: the state is `Draining` -/
  finished : Bool := false
  /-- whether the stream has ended: the future, if it has not, was dropped -/
  ended : Bool := false
  /-- what the stream has given -/
  out : List α := []
  /-- what the future has sent -/
  sent : List α := []
deriving DecidableEq, Repr

/-- `stream.next()` is polled: `none` if it is pending. -/
def St.receive {α : Type} (s : St α) : Option (St α) :=
  match s.queue with
  | a :: rest => some { s with queue := rest, out := s.out ++ [a] }
  | [] => if s.closed then some { s with ended := true } else none

/-- The future is polled. All it has is dropped when it ends. -/
def St.produce {α : Type} (s : St α) : St α :=
  match s.script with
  | [] => s
  | step :: rest =>
    { s with
      script := rest
      queue := s.queue ++ step.sends
      sent := s.sent ++ step.sends
      closed := s.closed || step.closes || step.done
      finished := step.done }

/-- One poll of the stream; `first` says whether `select!` polls the channel first. -/
def St.poll {α : Type} (s : St α) (first : Bool) : St α :=
  if s.ended then s
  else if s.finished then s.receive.getD s
  else if first then
    match s.receive with
    | some s => s
    | none => if s.produce.finished then s.produce.receive.getD s.produce else s.produce
  else s.produce.receive.getD s.produce

def St.run {α : Type} (s : St α) (orders : List Bool) : St α := orders.foldl St.poll s

/-- The stream at first. -/
def start {α : Type} (script : List (Step α)) : St α := { script := script }

/-- `join!(subscription_fut, background_fut)` (coordinator.rs:69-71): `sub` is what is sent in each poll of the first one, which
has the sender and ends with the last; the second one takes `n` polls, at least one. -/
def joinScript {α : Type} : List (List α) → Nat → List (Step α)
  | [], 0 => []
  | [], n + 1 => ⟨[], true, n == 0⟩ :: joinScript [] n
  | [s], n => ⟨s, true, decide (n ≤ 1)⟩ :: joinScript [] (n - 1)
  | s :: t :: rest, n => ⟨s, false, false⟩ :: joinScript (t :: rest) (n - 1)

/-! ## What is sent -/

/-- A response, with its extensions. -/
structure Response (ρ ε : Type) where
  body : ρ
  extensions : Option ε
deriving DecidableEq, Repr

/-- `AddExtToFirstResponse` (request/stream.rs:186-201): the extensions left, and the responses to come. -/
def addExtensions {ρ ε : Type} : Option ε → List ρ → List (Response ρ ε)
  | _, [] => []
  | some e, r :: rest => ⟨r, some e⟩ :: addExtensions none rest
  | none, r :: rest => ⟨r, none⟩ :: addExtensions none rest

/-- An event of a stream of events. -/
inductive Event where
  | next (data : List Char)
  | complete
deriving DecidableEq, Repr

/-- `sse_stream` (response/stream.rs:80-104), for the payloads as JSON: `none` if one cannot be encoded. The encoder takes
everything. -/
def events : List (Option (List Char)) → List Event
  | [] => [.complete]
  | none :: _ => []
  | some data :: rest => .next data :: events rest

end Verif.StreamJoin
