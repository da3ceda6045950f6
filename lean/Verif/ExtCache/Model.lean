/-!
# The cache of extensions

* `crates/wasi-component-loader/src/cache.rs` (all of it)

Simplifications: callers of `get` and `set` run interleaved in any order, one step (up to the next await, or the next use of one of
the two maps) at a time; keys and values are numbers, times milliseconds; ids of wait lists are counted. A wait list is its id and
those whose `oneshot::Sender` is in its channel. The check for a closed sender (cache.rs:116-125) is left out: the receiver is in the
same entry, so that the sender is closed when and only when the entry is gone. `set` takes the list, sends to all in it and drops it
in one step: who sends themselves while it does is either reached or fails, as before and after the step. `puts` records what was
set and is not used by the program.
-/
namespace Verif.ExtCache

/-- `CachedValue` (15-18). -/
structure Entry where
  value : Nat
  expires : Option Nat
deriving DecidableEq, Repr

structure WaitList where
  id : Nat
  queue : List Nat
deriving DecidableEq, Repr

/-- Where a caller of `get` is (29-82). -/
inductive Phase where
  | start
  /-- there was no value; about to look for a wait list -/
  | missed
  /-- with the wait list; about to send itself there -/
  | joined (id : Nat) (at_ : Nat)
  /-- waits for the value -/
  | queued (id : Nat) (at_ : Nat)
  /-- the wait has failed; about to remove the list -/
  | failed (id : Nat)
  | done (r : Option Nat)
deriving DecidableEq, Repr

structure Getter where
  key : Nat
  phase : Phase
deriving DecidableEq, Repr

structure State where
  now : Nat := 0
  cache : Nat → Option Entry := fun _ => none
  lists : Nat → Option WaitList := fun _ => none
  gets : Nat → Option Getter := fun _ => none
  /-- keys and values of callers of `set` which have not yet looked for the wait list -/
  setting : List (Nat × Nat) := []
  nextId : Nat := 0
  puts : List (Nat × Entry) := []

inductive Action where
  | tick (d : Nat)
  | call (name key : Nat)
  | look (name : Nat)
  | enlist (name : Nat)
  | send (name : Nat)
  | expire (name : Nat)
  | cleanup (name : Nat)
  | put (key value : Nat) (ttl : Option Nat)
  | notify (key value : Nat)
deriving DecidableEq, Repr

def upd {α : Type} (f : Nat → α) (k : Nat) (v : α) : Nat → α := fun i => if i = k then v else f i

/-- The caller goes on. -/
def State.go (s : State) (name key : Nat) (p : Phase) : State := { s with gets := upd s.gets name (some ⟨key, p⟩) }

/-- The look in the cache (30-36). -/
def look (name key : Nat) (s : State) : State :=
  match s.cache key with
  | none => s.go name key .missed
  | some e =>
    if e.expires.any (fun t => decide (t < s.now)) then { s.go name key .missed with cache := upd s.cache key none }
    else s.go name key (.done (some e.value))

/-- `get_or_create_wait_list` (38-43, 110-138). -/
def enlist (name key : Nat) (s : State) : State :=
  match s.lists key with
  | some l => s.go name key (.joined l.id s.now)
  | none => { s.go name key (.done none) with lists := upd s.lists key (some ⟨s.nextId, []⟩), nextId := s.nextId + 1 }

/-- `wait_list_sender.send` (49): fails if the receiver is gone, waits if there is no room. -/
def send (name key id at_ : Nat) (s : State) : State :=
  match s.lists key with
  | some l =>
    if l.id = id then
      if l.queue.length < 1024 then
        { s.go name key (.queued id at_) with lists := upd s.lists key (some { l with queue := l.queue ++ [name] }) }
      else s
    else s.go name key (.failed id)
  | none => s.go name key (.failed id)

/-- The time is up (47). -/
def expire (name key id at_ : Nat) (s : State) : State := if at_ + 5000 ≤ s.now then s.go name key (.failed id) else s

/-- The list is dropped, with the senders in it: who waits for them fails. -/
def drop (id : Nat) (g : Option Getter) : Option Getter :=
  match g with
  | some ⟨k, .queued i t⟩ => if i = id then some ⟨k, .failed i⟩ else some ⟨k, .queued i t⟩
  | g => g

/-- `wait_list.remove_if` (63-66, 81). -/
def cleanup (name key id : Nat) (s : State) : State :=
  match s.lists key with
  | some l =>
    if l.id = id then
      { s with lists := upd s.lists key none, gets := upd (fun n => drop id (s.gets n)) name (some ⟨key, .done none⟩) }
    else s.go name key (.done none)
  | none => s.go name key (.done none)

/-- Whoever is in the list gets the value. -/
def deliver (id : Nat) (queue : List Nat) (value : Nat) (name : Nat) (g : Option Getter) : Option Getter :=
  match g with
  | some ⟨k, .queued i t⟩ =>
    if i = id then
      if name ∈ queue then some ⟨k, .done (some value)⟩ else some ⟨k, .failed i⟩
    else some ⟨k, .queued i t⟩
  | g => g

/-- The first half of `set` (86-91). -/
def put (key value : Nat) (ttl : Option Nat) (s : State) : State :=
  let e : Entry := ⟨value, ttl.map (s.now + ·)⟩
  { s with cache := upd s.cache key (some e), setting := s.setting ++ [(key, value)], puts := (key, e) :: s.puts }

/-- The second half of `set` (96-100). -/
def notify (key value : Nat) (s : State) : State :=
  if (key, value) ∈ s.setting then
    match s.lists key with
    | some l =>
      { s with
        setting := s.setting.erase (key, value)
        lists := upd s.lists key none
        gets := fun n => deliver l.id l.queue value n (s.gets n) }
    | none => { s with setting := s.setting.erase (key, value) }
  else s

def step (s : State) : Action → State
  | .tick d => { s with now := s.now + d }
  | .call name key =>
    match s.gets name with
    | none => s.go name key .start
    | some _ => s
  | .look name =>
    match s.gets name with
    | some ⟨key, .start⟩ => look name key s
    | _ => s
  | .enlist name =>
    match s.gets name with
    | some ⟨key, .missed⟩ => enlist name key s
    | _ => s
  | .send name =>
    match s.gets name with
    | some ⟨key, .joined id t⟩ => send name key id t s
    | _ => s
  | .expire name =>
    match s.gets name with
    | some ⟨key, .joined id t⟩ => expire name key id t s
    | some ⟨key, .queued id t⟩ => expire name key id t s
    | _ => s
  | .cleanup name =>
    match s.gets name with
    | some ⟨key, .failed id⟩ => cleanup name key id s
    | _ => s
  | .put key value ttl => put key value ttl s
  | .notify key value => notify key value s

def run (acts : List Action) (s : State) : State := acts.foldl step s

end Verif.ExtCache
