/-!
# Reloading of graphs and of configurations

Model of `crates/federated-server/src/engine/reloader.rs:50-151` (`EngineReloader::spawn`),
`serve/mod.rs:72-83, 141-154` (`spawn_config_reloader`), `hot_reload.rs:33-119` (`ConfigWatcher`),
`graph/loader/schema_file.rs:24-73` (`SchemaFileGraphUpdater`), the in-memory rate limiter's task
(`crates/runtime-local/src/rate_limiting/in_memory/key_based.rs:53-86`) and `gateway/src/main.rs:86-95`.

Simplifications:
* Configurations `κ`, graphs `γ` and contents of files are opaque; an engine is the pair it was built from. Whether
  a build succeeds is not determined by the pair (extensions are fetched over the network), so it is part of the event.
* A task is polled in one piece. `abort` of a task takes effect at its next await; a task whose last poll has begun
  when it is aborted goes on to its end, which is the `late` case of an update.
* A watch channel (tokio 1.47.1) is its value, a version, and the version its receiver has seen; a new receiver has
  seen the initial value.
* The queue of updates is a list; senders waiting for a place in it are not modelled.
-/
namespace Verif.Reload

/-! ## The loop over updates -/

/-- `UpdateEvent`, events.rs:9-14. -/
inductive Update (κ γ : Type) where
  | graph (g : γ)
  | config (c : κ)
  deriving DecidableEq, Repr

/-- What the wait for the first graph gives, reloader.rs:67-84: configuration, graph and what is left of the
updates, or nothing if the channel closes first (`InternalError`). -/
def awaitGraph {κ γ : Type} (config : κ) : List (Update κ γ) → Option (κ × γ × List (Update κ γ))
  | [] => none
  | .graph g :: rest => some (config, g, rest)
  | .config c :: rest => awaitGraph c rest

/-- The state of the spawned task and of its reloads, reloader.rs:98-148. -/
structure Loop (κ γ : Type) where
  config : κ
  graph : γ
  /-- `in_progress_reload`, if it has not ended -/
  running : Option (κ × γ)
  /-- aborted reloads that are in their last poll, and so still end -/
  late : List (κ × γ)
  /-- the value of `engine_sender` -/
  engine : κ × γ
  deriving DecidableEq, Repr

inductive Event (κ γ : Type) where
  /-- an update is received; `late` if the reload it aborts is in its last poll -/
  | update (u : Update κ γ) (late : Bool)
  /-- the reload in progress ends, with an engine or without -/
  | finish (ok : Bool)
  /-- the i-th late reload ends -/
  | finishLate (i : Nat) (ok : Bool)
  deriving DecidableEq, Repr

/-- `current_config = …`, `graph = …`, reloader.rs:107-110. -/
def Loop.assign {κ γ : Type} (s : Loop κ γ) : Update κ γ → Loop κ γ
  | .graph g => { s with graph := g }
  | .config c => { s with config := c }

/-- `reload.abort()`, reloader.rs:102-105. -/
def Loop.abort {κ γ : Type} (s : Loop κ γ) (late : Bool) : Loop κ γ :=
  match s.running with
  | none => s
  | some p => { s with running := none, late := if late then s.late ++ [p] else s.late }

/-- `tokio::spawn` of a reload with clones of configuration and graph, reloader.rs:112-145. -/
def Loop.spawn {κ γ : Type} (s : Loop κ γ) : Loop κ γ := { s with running := some (s.config, s.graph) }

/-- The end of a reload, reloader.rs:133-142: the engine is sent, or an error is logged. -/
def Loop.publish {κ γ : Type} (s : Loop κ γ) (p : κ × γ) (ok : Bool) : Loop κ γ :=
  if ok then { s with engine := p } else s

def Loop.step {κ γ : Type} (s : Loop κ γ) : Event κ γ → Loop κ γ
  | .update u late => ((s.abort late).assign u).spawn
  | .finish ok =>
    match s.running with
    | none => s
    | some p => { s with running := none }.publish p ok
  | .finishLate i ok =>
    match s.late[i]? with
    | none => s
    | some p => { s with late := s.late.eraseIdx i }.publish p ok

/-- The loop when the initial engine was built, reloader.rs:86-99. -/
def Loop.init {κ γ : Type} (c : κ) (g : γ) : Loop κ γ :=
  { config := c, graph := g, running := none, late := [], engine := (c, g) }

def Loop.run {κ γ : Type} (s : Loop κ γ) (es : List (Event κ γ)) : Loop κ γ := es.foldl Loop.step s

/-! ## From changes of the configuration to updates -/

inductive Phase where
  /-- before the first `changed`, serve/mod.rs:144 -/
  | dropping
  /-- in the `changed` of the loop, serve/mod.rs:146 -/
  | waiting
  /-- `changed` has returned and the value was not read yet, serve/mod.rs:147 -/
  | woken
  deriving DecidableEq, Repr

/-- A watch channel with the task that reads it. -/
structure Bridge (κ : Type) where
  value : κ
  version : Nat
  seen : Nat
  phase : Phase
  /-- the updates sent, in order -/
  sent : List κ
  deriving DecidableEq, Repr

inductive BridgeEvent (κ : Type) where
  /-- `watch::Sender::send` -/
  | send (c : κ)
  /-- the task is polled -/
  | poll
  deriving DecidableEq, Repr

/-- `watch::channel` and the start of `spawn_config_reloader`. -/
def Bridge.init {κ : Type} (c : κ) : Bridge κ :=
  { value := c, version := 0, seen := 0, phase := .dropping, sent := [] }

def Bridge.step {κ : Type} (b : Bridge κ) : BridgeEvent κ → Bridge κ
  | .send c => { b with value := c, version := b.version + 1 }
  | .poll =>
    match b.phase with
    | .dropping => if b.version = b.seen then b else { b with seen := b.version, phase := .waiting }
    | .waiting => if b.version = b.seen then b else { b with seen := b.version, phase := .woken }
    | .woken => { b with phase := .waiting, sent := b.sent ++ [b.value] }

def Bridge.run {κ : Type} (b : Bridge κ) (es : List (BridgeEvent κ)) : Bridge κ := es.foldl Bridge.step b

/-- What is sent over the channel `gateway/src/main.rs:86-95` makes: the sender is leaked, nothing sends. -/
def gatewaySends {κ : Type} : List κ := []

/-! ## The file with the graph -/

/-- Where the updater is, schema_file.rs. -/
inductive FilePhase where
  /-- the content was read and sent, `SchemaFileGraphUpdater::new` is to be called, loader/mod.rs:67-77 -/
  | starting
  /-- before the next tick -/
  | idle
  /-- the fingerprint has changed and was stored, the content is to be read, schema_file.rs:53-56 -/
  | reading
  deriving DecidableEq, Repr

/-- The life of a file: its n-th content, if there then is a file, and its fingerprint (the modification time, or a
hash of the content where there are none, schema_file.rs:76-127). -/
structure Life (α σ : Type) where
  content : Nat → Option α
  stamp : Nat → σ

structure FileState (α σ : Type) where
  /-- the current version of the file -/
  now : Nat
  fingerprint : Option σ
  phase : FilePhase
  /-- what was sent, in order -/
  sent : List α
  deriving DecidableEq, Repr

inductive FileEvent where
  /-- the file is written or removed -/
  | write
  /-- the updater is polled -/
  | poll
  /-- the updater is polled, and what it asks of the file system fails -/
  | fail
  deriving DecidableEq, Repr

/-- The fingerprint of the file as it is, if there is one. -/
def Life.metadata {α σ : Type} (l : Life α σ) (n : Nat) : Option σ :=
  match l.content n with
  | none => none
  | some _ => some (l.stamp n)

/-- `start_producer` of a schema file, loader/mod.rs:66-80: an error if the file cannot be read. -/
def Life.start {α σ : Type} (l : Life α σ) : Option (FileState α σ) :=
  match l.content 0 with
  | none => none
  | some c => some { now := 0, fingerprint := none, phase := .starting, sent := [c] }

/-- What a poll does, with the fingerprint and the content it gets from the file system. When `new` gets no
fingerprint it takes the current time, of which is said that no file has it (`none`). -/
def FileState.poll {α σ : Type} [DecidableEq σ] (s : FileState α σ) (metadata : Option σ) (content : Option α) :
    FileState α σ :=
  match s.phase with
  | .starting => { s with fingerprint := metadata, phase := .idle }
  | .idle =>
    match metadata with
    | none => s
    | some f => if s.fingerprint = some f then s else { s with fingerprint := some f, phase := .reading }
  | .reading =>
    match content with
    | none => { s with phase := .idle }
    | some c => { s with phase := .idle, sent := s.sent ++ [c] }

def FileState.step {α σ : Type} [DecidableEq σ] (l : Life α σ) (s : FileState α σ) : FileEvent → FileState α σ
  | .write => { s with now := s.now + 1 }
  | .poll => s.poll (l.metadata s.now) (l.content s.now)
  | .fail => s.poll none none

def FileState.run {α σ : Type} [DecidableEq σ] (l : Life α σ) (s : FileState α σ) (es : List FileEvent) :
    FileState α σ :=
  es.foldl (FileState.step l) s

/-! ## The limits of rates -/

/-- The engines built so far and the watcher of the file with the configuration. -/
structure Limits (κ : Type) where
  /-- by engine, the configuration its limiter holds -/
  engines : List κ
  /-- the engine whose channel the watcher has (`static WATCHER: OnceLock`, hot_reload.rs:52) -/
  watched : Option Nat
  deriving DecidableEq, Repr

inductive Kind where
  | any | access | create | modify | remove | other
  deriving DecidableEq, Repr

inductive LimitEvent (κ : Type) where
  /-- a runtime is built from a configuration, with the path for hot reloads or without -/
  | build (c : κ) (hot : Bool)
  /-- an event of the file, with what reading and parsing it gives -/
  | file (kind : Kind) (parsed : Option κ)
  deriving DecidableEq, Repr

/-- `handle_event`, hot_reload.rs:103-119. -/
def Kind.reloads : Kind → Bool
  | .any | .create | .modify | .other => true
  | .access | .remove => false

/-- `ConfigWatcher::init`, hot_reload.rs:33-67: only the first watcher is kept, of the others the sender is dropped
with them; `reload_config`, hot_reload.rs:79-100, and the limiter's task. -/
def Limits.step {κ : Type} (s : Limits κ) : LimitEvent κ → Limits κ
  | .build c hot =>
    { engines := s.engines ++ [c]
      watched := match s.watched with
        | some n => some n
        | none => if hot then some s.engines.length else none }
  | .file kind parsed =>
    match s.watched, parsed with
    | some n, some c => if kind.reloads then { s with engines := s.engines.set n c } else s
    | _, _ => s

def Limits.run {κ : Type} (s : Limits κ) (es : List (LimitEvent κ)) : Limits κ := es.foldl Limits.step s

def Limits.init {κ : Type} : Limits κ := { engines := [], watched := none }

/-- The limits in force: of the engine built last. -/
def Limits.inForce {κ : Type} (s : Limits κ) : Option κ := s.engines.getLast?

end Verif.Reload
