/-!
# A websocket connection of a client

Model of `crates/federated-server/src/router/graphql/ws/accepter.rs`: the acceptance of a connection
(`handler` 26-55, `accept_websocket` 155-203), its loop (`websocket_loop` 59-103 with
`handle_incoming_event` 105-142), the loops of its subscriptions (`subscription_loop` 144-153), and of the
messages made of the responses (`WebsocketSession::execute`, `crates/engine/src/engine.rs` 338-355).

A connection is a transition system. What is decided elsewhere is an input of its transitions: the frames
read from the socket, the result of `create_websocket_session`, the responses of the operations, the
scheduling of the tasks, whether writing to the socket succeeds, and the timeout.

Simplifications:
* A text is a value of a type `T`; `sonic_rs::from_str::<Event>` is a parameter.
* The reason of a close frame and the payloads of pings and pongs are not kept.
* `AbortHandle::abort` has an effect at the end of the current poll of the task: an aborted task may make
  any number of steps before it is cancelled. Dropping a `JoinSet` aborts its tasks.
* When a write to the socket is cancelled by the timeout, the message may have been written or not.
* Writing to the socket after a close frame fails (`tungstenite`: `SendAfterClosing`).
* `origin` in `Tagged` is an observation: the program only has the message.
-/
namespace Verif.WsServer

abbrev Id := List Char

/-- `Event` (`crates/engine/src/websocket.rs` 9-24). -/
inductive Event (P Q : Type) where
  | init (payload : P)
  | subscribe (id : Id) (request : Q)
  | complete (id : Id)
  | ping
  | pong

/-- `Option<Result<ws::Message, Error>>`; `binary none` is not valid UTF-8. -/
inductive Frame (T : Type) where
  | text (t : T)
  | binary (t : Option T)
  | ping
  | pong
  | close
  | error
  | eof

/-- `Message` (`crates/engine/src/websocket.rs` 40-67). -/
inductive Msg (R : Type) where
  | next (id : Id) (r : R)
  | error (id : Id) (r : R)
  | complete (id : Id)
  | ack
  | ping
  | pong
  | close (code : Nat)

/-- A message, and the task that sent it. -/
structure Tagged (R : Type) where
  origin : Option Nat
  msg : Msg R

/-- What the model takes as given: the JSON parser, and which responses are `RefusedRequest`. -/
structure Cfg (P Q R T : Type) where
  parse : T → Option (Event P Q)
  refused : R → Bool

/-- Where `subscription_loop` is: awaiting the stream, sending a message (the last one?), returned, or
cancelled. -/
inductive TaskAt (R : Type) where
  | next
  | sending (m : Msg R) (last : Bool)
  | finished
  | cancelled

structure Task (Q R : Type) where
  id : Id
  request : Q
  at_ : TaskAt R
  aborted : Bool

/-- What follows a message sent by `accept_websocket`. -/
inductive After (S : Type) where
  | again
  | stop
  | serve (s : S)

/-- Where the task of the connection is. -/
inductive At (P R S : Type) where
  /-- `accept_websocket`: awaiting a message, creating the session, sending. -/
  | accRecv
  | accCreating (p : P)
  | accSending (m : Msg R) (after : After S)
  /-- Sending the close frame of the timeout (41-48). -/
  | timedOut
  /-- `websocket_loop`: awaiting a message, sending one to the channel. -/
  | recv (s : S)
  | sending (s : S) (m : Msg R)
  | over

/-- Where the task writing to the socket (66-80) is. -/
inductive Pump (R : Type) where
  | idle
  | sending (m : Tagged R)
  | dead

structure St (P Q R S : Type) where
  at_ : At P R S
  /-- All the tasks spawned; the number of a task is its position. -/
  tasks : List (Task Q R)
  /-- `subscriptions`. -/
  subs : List (Id × Nat)
  /-- The channel between the tasks and the one writing to the socket. -/
  queue : List (Tagged R)
  pump : Pump R
  /-- A close frame has been written. -/
  closed : Bool
  /-- What has been written to the socket. -/
  out : List (Tagged R)

/-- What is decided outside. -/
inductive In (R S T : Type) where
  /-- The socket yields a frame. -/
  | frame (f : Frame T)
  /-- `create_websocket_session` returns. -/
  | created (s : Option S)
  /-- The write by `accept_websocket`, or of the timeout, ends. -/
  | accSent (ok : Bool)
  /-- The timeout of `accept_websocket`: had the message being written been written? -/
  | timeout (written : Bool)
  /-- The channel takes the message of `websocket_loop`, or is closed. -/
  | loopSent
  | loopFailed
  /-- The stream of a task yields a response, or ends. -/
  | item (t : Nat) (r : R)
  | streamEnd (t : Nat)
  /-- The channel takes the message of a task, or is closed. -/
  | taskSent (t : Nat)
  | taskFailed (t : Nat)
  /-- An aborted task is cancelled. -/
  | cancel (t : Nat)
  /-- The writing task receives a message; the write ends; the message cannot be encoded; no more messages. -/
  | pumpTake
  | pumpSent (ok : Bool)
  | pumpUnencodable
  | pumpEnd

variable {P Q R S T : Type}

/-- The capacity of the channel (line 65). -/
def capacity : Nat := 16

inductive Got (T : Type) where
  | skip
  | stop
  | text (t : T)

/-- An iteration of `recv_message` (208-222). -/
def recvMessage : Frame T → Got T
  | .ping => .skip
  | .pong => .skip
  | .close => .stop
  | .text t => .text t
  | .binary (some t) => .text t
  | .binary none => .stop
  | .error => .stop
  | .eof => .stop

def lookup (id : Id) : List (Id × Nat) → Option Nat
  | [] => none
  | (i, t) :: rest => if i = id then some t else lookup id rest

/-- The message made of a response (`engine.rs` 345-354). -/
def toMessage (c : Cfg P Q R T) (id : Id) (r : R) : Msg R :=
  if c.refused r then .error id r else .next id r

def isClose : Msg R → Bool
  | .close _ => true
  | _ => false

/-- A write to the socket; `none` when it fails. -/
def write (st : St P Q R S) (m : Tagged R) (ok : Bool) : Option (St P Q R S) :=
  if st.closed || !ok then none
  else some { st with out := st.out ++ [m], closed := isClose m.msg }

/-- The end of `websocket_loop`: the `JoinSet` is dropped. -/
def finish (st : St P Q R S) : St P Q R S :=
  { st with at_ := .over, tasks := st.tasks.map (fun k => { k with aborted := true }) }

/-- An iteration of `accept_websocket` (160-200). -/
def acceptFrame (c : Cfg P Q R T) (st : St P Q R S) (f : Frame T) : St P Q R S :=
  match recvMessage f with
  | .skip => st
  | .stop => { st with at_ := .over }
  | .text t =>
    match c.parse t with
    | none => { st with at_ := .over }
    | some (.init p) => { st with at_ := .accCreating p }
    | some .ping => { st with at_ := .accSending .ping .again }
    | some (.subscribe _ _) => { st with at_ := .accSending (.close 4401) .stop }
    | some (.complete _) => st
    | some .pong => st

def modifyTask (tasks : List (Task Q R)) (t : Nat) (f : Task Q R → Task Q R) : List (Task Q R) :=
  match tasks[t]? with
  | some k => tasks.set t (f k)
  | none => tasks

/-- `handle_incoming_event` (112-141). -/
def handle (st : St P Q R S) : Event P Q → St P Q R S × Option (Msg R)
  | .subscribe id q =>
    match lookup id st.subs with
    | some _ => (st, some (.close 4409))
    | none =>
      ({ st with tasks := st.tasks ++ [{ id := id, request := q, at_ := .next, aborted := false }],
                 subs := (id, st.tasks.length) :: st.subs }, none)
  | .complete id =>
    match lookup id st.subs with
    | some t =>
      ({ st with subs := st.subs.filter (fun e => decide (e.1 ≠ id)),
                 tasks := modifyTask st.tasks t (fun k => { k with aborted := true }) }, none)
    | none => (st, none)
  | .pong => (st, none)
  | .ping => (st, some .pong)
  | .init _ => (st, some (.close 4429))

/-- An iteration of `websocket_loop` (88-102). -/
def serveFrame (c : Cfg P Q R T) (st : St P Q R S) (s : S) (f : Frame T) : St P Q R S :=
  match recvMessage f with
  | .skip => st
  | .stop => finish st
  | .text t =>
    match c.parse t with
    | none => st
    | some e =>
      match handle st e with
      | (st, none) => st
      | (st, some m) => { st with at_ := .sending s m }

/-- After a write by `accept_websocket`. -/
def accSent (st : St P Q R S) (m : Msg R) (after : After S) (ok : Bool) : St P Q R S :=
  match write st ⟨none, m⟩ ok with
  | none => { st with at_ := .over }
  | some st =>
    match after with
    | .again => { st with at_ := .accRecv }
    | .stop => { st with at_ := .over }
    | .serve s => { st with at_ := .recv s }

/-- `tokio::time::timeout` elapses: the message being written may be written. -/
def timeout (st : St P Q R S) (written : Bool) : Option (St P Q R S) :=
  match st.at_ with
  | .accRecv => some { st with at_ := .timedOut }
  | .accCreating _ => some { st with at_ := .timedOut }
  | .accSending m _ =>
    match write st ⟨none, m⟩ written with
    | some st => some { st with at_ := .timedOut }
    | none => some { st with at_ := .timedOut }
  | _ => none

/-- Can the channel take a message? -/
def canSend (st : St P Q R S) : Bool :=
  match st.pump with
  | .dead => false
  | _ => decide (st.queue.length < capacity)

def pumpDead (st : St P Q R S) : Bool :=
  match st.pump with
  | .dead => true
  | _ => false

/-- The writing task returns: the channel is closed, what it holds is dropped. -/
def die (st : St P Q R S) : St P Q R S := { st with pump := .dead, queue := [] }

def setTask (st : St P Q R S) (t : Nat) (k : Task Q R) (a : TaskAt R) : St P Q R S :=
  { st with tasks := st.tasks.set t { k with at_ := a } }

/-- Does the task still hold a sender? -/
def TaskAt.running : TaskAt R → Bool
  | .next => true
  | .sending _ _ => true
  | .finished => false
  | .cancelled => false

def isOver : At P R S → Bool
  | .over => true
  | _ => false

def step (c : Cfg P Q R T) (st : St P Q R S) : In R S T → Option (St P Q R S)
  | .frame f =>
    match st.at_ with
    | .accRecv => some (acceptFrame c st f)
    | .recv s => some (serveFrame c st s f)
    | _ => none
  | .created s =>
    match st.at_ with
    | .accCreating _ =>
      match s with
      | some s => some { st with at_ := .accSending .ack (.serve s) }
      | none => some { st with at_ := .accSending (.close 4403) .stop }
    | _ => none
  | .accSent ok =>
    match st.at_ with
    | .accSending m after => some (accSent st m after ok)
    | .timedOut => some (accSent st (.close 4408) .stop ok)
    | _ => none
  | .timeout written => timeout st written
  | .loopSent =>
    match st.at_ with
    | .sending s m =>
      if canSend st then
        let st := { st with queue := st.queue ++ [⟨none, m⟩] }
        some (if isClose m then finish st else { st with at_ := .recv s })
      else none
    | _ => none
  | .loopFailed =>
    match st.at_ with
    | .sending _ _ => if pumpDead st then some (finish st) else none
    | _ => none
  | .item t r =>
    match st.tasks[t]? with
    | some k =>
      match k.at_ with
      | .next => some (setTask st t k (.sending (toMessage c k.id r) false))
      | _ => none
    | none => none
  | .streamEnd t =>
    match st.tasks[t]? with
    | some k =>
      match k.at_ with
      | .next => some (setTask st t k (.sending (.complete k.id) true))
      | _ => none
    | none => none
  | .taskSent t =>
    match st.tasks[t]? with
    | some k =>
      match k.at_ with
      | .sending m last =>
        if canSend st then
          some (setTask { st with queue := st.queue ++ [⟨some t, m⟩] } t k (if last then .finished else .next))
        else none
      | _ => none
    | none => none
  | .taskFailed t =>
    match st.tasks[t]? with
    | some k =>
      match k.at_ with
      | .sending _ _ => if pumpDead st then some (setTask st t k .finished) else none
      | _ => none
    | none => none
  | .cancel t =>
    match st.tasks[t]? with
    | some k => if k.aborted && k.at_.running then some (setTask st t k .cancelled) else none
    | none => none
  | .pumpTake =>
    match st.pump, st.queue with
    | .idle, m :: q => some { st with pump := .sending m, queue := q }
    | _, _ => none
  | .pumpSent ok =>
    match st.pump with
    | .sending m =>
      match write st m ok with
      | some st => some { st with pump := .idle }
      | none => some (die st)
    | _ => none
  | .pumpUnencodable =>
    match st.pump with
    | .sending m => if isClose m.msg then none else some (die st)
    | _ => none
  | .pumpEnd =>
    match st.pump, st.queue with
    | .idle, [] => if isOver st.at_ && st.tasks.all (fun k => !k.at_.running) then some (die st) else none
    | _, _ => none

def start : St P Q R S :=
  { at_ := .accRecv, tasks := [], subs := [], queue := [], pump := .idle, closed := false, out := [] }

/-- A run from a state. -/
def runFrom (c : Cfg P Q R T) (st : St P Q R S) : List (In R S T) → Option (St P Q R S)
  | [] => some st
  | i :: is =>
    match step c st i with
    | some st => runFrom c st is
    | none => none

def run (c : Cfg P Q R T) (is : List (In R S T)) : Option (St P Q R S) := runFrom c start is

end Verif.WsServer
