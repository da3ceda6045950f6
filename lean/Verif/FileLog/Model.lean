/-!
# Log files of extensions

* `crates/wasi-component-loader/src/resources/file_logger.rs` (all of it)
* `crates/wasi-component-loader/src/extension/api/since_0_19_0/wit/logger.rs` lines 14-60 (and the same lines of `since_0_18_0`)

Simplifications: lines, paths and rotations are numbers; the callers and the task which writes run interleaved in any order, one step
at a time. A write or flush fails or not as the action says; how files are rotated is in `RollingLog`. The channel is unbounded and
gives what is in it even when all its senders are gone, as the one of crossbeam does. A wait of `graceful_shutdown` ends when the
guard it sent is dropped. Names of resources and of calls of `graceful_shutdown` are counted. `sent` and `lost` record what was sent
and which writes failed; `returned` which calls have returned; `flushFailed` that a flush has failed. None is used by the program.
-/
namespace Verif.FileLog

/-- `LogMessage` (file_logger.rs:130-138). -/
inductive Msg where
  | data (line : Nat)
  | shutdown (call : Nat)
deriving DecidableEq, Repr

/-- `FileLogger` with its task (6-19). -/
structure Logger where
  rotate : Nat := 0
  refs : Nat := 1
  queue : List Msg := []
  /-- lines given to the file -/
  file : List Nat := []
  /-- how many of them there were at the last flush asked for by `graceful_shutdown` (rotations flush as well) -/
  flushed : Nat := 0
  flushFailed : Bool := false
  calls : Nat := 0
  returned : List Nat := []
  sent : List Nat := []
  lost : List Nat := []
deriving DecidableEq, Repr

inductive Act where
  | clone
  | forget
  | send (line : Nat)
  | shutdown
  | work (ok : Bool)
deriving DecidableEq, Repr

/-- `send` (85-90). -/
def Logger.send (l : Logger) (line : Nat) : Logger :=
  { l with queue := l.queue ++ [.data line], sent := l.sent ++ [line] }

/-- `graceful_shutdown` (109-122). -/
def Logger.shutdown (l : Logger) : Logger :=
  if 1 < l.refs then { l with calls := l.calls + 1, returned := l.returned ++ [l.calls] }
  else { l with calls := l.calls + 1, queue := l.queue ++ [.shutdown l.calls] }

/-- One turn of the task (48-63). -/
def Logger.work (l : Logger) (ok : Bool) : Logger :=
  match l.queue with
  | [] => l
  | .data line :: q =>
    if ok then { l with queue := q, file := l.file ++ [line] }
    else { l with queue := q, lost := l.lost ++ [line] }
  | .shutdown call :: q =>
    if ok then { l with queue := q, flushed := l.file.length, returned := l.returned ++ [call] }
    else { l with queue := q, flushFailed := true, returned := l.returned ++ [call] }

/-- Only who has the logger can use it. -/
def Logger.act (l : Logger) : Act → Logger
  | .clone => if l.refs = 0 then l else { l with refs := l.refs + 1 }
  | .forget => { l with refs := l.refs - 1 }
  | .send line => if l.refs = 0 then l else l.send line
  | .shutdown => if l.refs = 0 then l else l.shutdown
  | .work ok => l.work ok

def Logger.run (acts : List Act) (l : Logger) : Logger := acts.foldl Logger.act l

/-- The state of an extension: `file_loggers` (state.rs:70) and the tables of resources of its instances. -/
structure Host where
  logs : Nat → Option Logger := fun _ => none
  next : Nat := 0
  paths : List (Nat × Nat) := []
  table : List (Nat × Nat) := []
  nextRes : Nat := 0

inductive Call where
  /-- `opens`: whether the file can be opened -/
  | init (path rotate : Nat) (opens : Bool)
  | log (res line : Nat)
  | drop (res : Nat)
  /-- the instance with the resource is gone -/
  | free (res : Nat)
  | work (id : Nat) (ok : Bool)
deriving DecidableEq, Repr

def find (k : Nat) : List (Nat × Nat) → Option Nat
  | [] => none
  | (a, b) :: xs => if a = k then some b else find k xs

def Host.on (h : Host) (id : Nat) (a : Act) : Host :=
  { h with logs := fun i => if i = id then (h.logs i).map (·.act a) else h.logs i }

/-- `self.resources.push` (logger.rs:42). -/
def Host.push (h : Host) (id : Nat) : Host :=
  { h with table := (h.nextRes, id) :: h.table, nextRes := h.nextRes + 1 }

/-- `HostFileLogger::init` (15-43). -/
def Host.init (h : Host) (path rotate : Nat) (opens : Bool) : Host :=
  match find path h.paths with
  | some id => (h.on id .clone).push id
  | none =>
    if opens then
      (({ h with logs := fun i => if i = h.next then some { rotate := rotate, refs := 1 } else h.logs i
                 next := h.next + 1
                 paths := (path, h.next) :: h.paths } : Host).on h.next .clone).push h.next
    else h

/-- `HostFileLogger::log` (45-52). -/
def Host.log (h : Host) (res line : Nat) : Host :=
  match find res h.table with
  | some id => h.on id (.send line)
  | none => h

/-- `HostFileLogger::drop` (54-59): the resource is looked up, not removed. -/
def Host.drop (h : Host) (res : Nat) : Host :=
  match find res h.table with
  | some id => h.on id .shutdown
  | none => h

/-- The table of the instance is dropped, and the resource with it. -/
def Host.free (h : Host) (res : Nat) : Host :=
  match find res h.table with
  | some id => { h.on id .forget with table := h.table.filter (fun e => e.1 != res) }
  | none => h

def Host.step (h : Host) : Call → Host
  | .init path rotate opens => h.init path rotate opens
  | .log res line => h.log res line
  | .drop res => h.drop res
  | .free res => h.free res
  | .work id ok => h.on id (.work ok)

def Host.run (calls : List Call) (h : Host) : Host := calls.foldl Host.step h

end Verif.FileLog
