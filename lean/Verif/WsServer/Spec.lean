import Verif.WsServer.Model

/-!
# What a websocket connection should do

Stated on what is outside the program: the inputs of a run, and the messages written to the socket. The
protocol is `graphql-transport-ws`.
-/
namespace Verif.WsServer

variable {P Q R S T : Type}

/-- Where a client that reads the messages of the server is. -/
inductive Place where
  | connecting
  | acknowledged
  | closed
deriving DecidableEq

/-- The messages a server may send: before the acknowledgement only a ping or a close, afterwards no second
acknowledgement, and nothing after a close. -/
def follow : Place → List (Msg R) → Option Place
  | p, [] => some p
  | .connecting, .ping :: ms => follow .connecting ms
  | .connecting, .pong :: ms => follow .connecting ms
  | .connecting, .ack :: ms => follow .acknowledged ms
  | .connecting, .close _ :: ms => follow .closed ms
  | .acknowledged, .next _ _ :: ms => follow .acknowledged ms
  | .acknowledged, .error _ _ :: ms => follow .acknowledged ms
  | .acknowledged, .complete _ :: ms => follow .acknowledged ms
  | .acknowledged, .ping :: ms => follow .acknowledged ms
  | .acknowledged, .pong :: ms => follow .acknowledged ms
  | .acknowledged, .close _ :: ms => follow .closed ms
  | _, _ => none

/-- The text a frame brings. -/
def content : Frame T → Option T
  | .text t => some t
  | .binary t => t
  | _ => none

/-- What has been seen of a run: a session was made, its acknowledgement was written, and what the client
sent after that. -/
structure Seen (P Q : Type) where
  made : Bool
  opened : Bool
  events : List (Event P Q)

def see (c : Cfg P Q R T) (s : Seen P Q) : In R S T → Seen P Q
  | .created (some _) => { s with made := true }
  | .timeout _ => { s with made := false }
  | .accSent true => if s.made then { s with opened := true } else s
  | .frame f =>
    if s.opened then
      match (content f).bind c.parse with
      | some e => { s with events := s.events ++ [e] }
      | none => s
    else s
  | _ => s

def seen (c : Cfg P Q R T) (is : List (In R S T)) : Seen P Q := is.foldl (see c) ⟨false, false, []⟩

/-- The events a client sent after the acknowledgement. -/
def events (c : Cfg P Q R T) (is : List (In R S T)) : List (Event P Q) := (seen c is).events

/-- The operations asked for. -/
def subscribes (es : List (Event P Q)) : List (Id × Q) :=
  es.filterMap (fun e => match e with | .subscribe id q => some (id, q) | _ => none)

/-- The number of pings. -/
def pings (es : List (Event P Q)) : Nat :=
  es.countP (fun e => match e with | .ping => true | _ => false)

def pongs (ms : List (Msg R)) : Nat :=
  ms.countP (fun m => match m with | .pong => true | _ => false)

/-- The ids the client has asked an operation with and has not itself completed since. -/
def inUse (es : List (Event P Q)) (id : Id) : Bool :=
  es.foldl (fun b e =>
    match e with
    | .subscribe i _ => if i = id then true else b
    | .complete i => if i = id then false else b
    | _ => b) false

/-- The messages of an operation: one for each of its responses, and `complete` at its end. -/
def says (c : Cfg P Q R T) (id : Id) (t : Nat) : In R S T → List (Msg R)
  | .item u r => if u = t then [if c.refused r then .error id r else .next id r] else []
  | .streamEnd u => if u = t then [.complete id] else []
  | _ => []

def script (c : Cfg P Q R T) (id : Id) (t : Nat) (is : List (In R S T)) : List (Msg R) :=
  is.flatMap (says c id t)

/-- The id a message is about. -/
def about : Msg R → Option Id
  | .next id _ => some id
  | .error id _ => some id
  | .complete id => some id
  | _ => none

/-- The messages a client reads. -/
def written (st : St P Q R S) : List (Msg R) := st.out.map (·.msg)

/-- The messages written for a task. -/
def writtenBy (st : St P Q R S) (t : Nat) : List (Msg R) :=
  (st.out.filter (fun m => decide (m.origin = some t))).map (·.msg)

/-- What the server does by itself, while writing to the socket succeeds. -/
def internal : In R S T → Bool
  | .loopSent => true
  | .taskSent _ => true
  | .pumpTake => true
  | .pumpSent ok => ok
  | _ => false

/-- The server has nothing left to do by itself. -/
def Settled (c : Cfg P Q R T) (st : St P Q R S) : Prop :=
  ∀ i : In R S T, internal i = true → step c st i = none

/-- `websocket_loop` runs. -/
def serving : At P R S → Bool
  | .recv _ => true
  | .sending _ _ => true
  | _ => false

end Verif.WsServer
