import Verif.Common.Bytes

/-
Model of runtime-local/src/fetch/traffic_shaping.rs:11-155, the merging of identical subgraph requests that are
in flight at the same time.

First part: the key of a request. `as u32` keeps the low 32 bits. `sort_unstable_by` is a sort by content; which
of several equal sections comes first is not observable.

Second part: `deduplicate` as a transition system. Every caller is a task; its steps are interleaved freely. The
map of in-flight cells is a `DashMap` (each access is atomic), a cell is a `tokio::sync::OnceCell`: at most one
caller runs the initialiser, if it is cancelled (or panics) the permit goes back and any waiter may take it.
Removing the entry from the map and setting the cell are separate steps, but no cancellation can happen between
them: there is no await point.
-/
namespace Verif.InFlight

/-! ## The key -/

/-- `FetchRequest` (runtime/src/fetch.rs:53-63), without the timeout. -/
structure Request where
  subgraph : Nat
  method : Bytes
  url : Bytes
  headers : List (Bytes × Bytes)
  body : Bytes
  deriving DecidableEq, Repr

/-- `RequestKey`, 66-74. -/
structure RequestKey where
  subgraph : Nat
  sections : List (Nat × Nat)
  methodStart : Nat
  urlStart : Nat
  parts : Bytes
  body : Bytes
  deriving DecidableEq, Repr

def u32 (n : Nat) : Nat := n % 2 ^ 32

/-- `&bytes[start..end]` -/
def slice (b : Bytes) (start stop : Nat) : Bytes := (b.take stop).drop start

/-- The header loop, 136-142. -/
def addHeaders : List (Bytes × Bytes) → Bytes × List (Nat × Nat) → Bytes × List (Nat × Nat)
  | [], st => st
  | (name, value) :: rest, st =>
    let parts := st.1 ++ name ++ value
    addHeaders rest (parts, st.2 ++ [(u32 st.1.length, u32 parts.length)])

/-- `From<&FetchRequest> for RequestKey`, 129-165. -/
def keyOf (r : Request) : RequestKey :=
  let st := addHeaders r.headers ([], [])
  let sections := st.2.mergeSort (fun a b => decide (slice st.1 a.1 a.2 ≤ slice st.1 b.1 b.2))
  { subgraph := r.subgraph, sections
    urlStart := u32 st.1.length
    methodStart := u32 (st.1 ++ r.url).length
    parts := st.1 ++ r.url ++ r.method
    body := r.body }

/-- `PartialEq for RequestKey`, 76-114. -/
def keyEq (a b : RequestKey) : Bool :=
  a.subgraph == b.subgraph && a.body.length == b.body.length && a.parts.length == b.parts.length &&
  a.sections.length == b.sections.length && a.methodStart == b.methodStart && a.urlStart == b.urlStart &&
  a.parts.drop a.methodStart == b.parts.drop b.methodStart &&
  slice a.parts a.urlStart a.methodStart == slice b.parts b.urlStart a.methodStart &&
  (a.sections.zip b.sections).all (fun s => slice a.parts s.1.1 s.1.2 == slice b.parts s.2.1 s.2.2) &&
  a.body == b.body

/-- What is written to the hasher. `[u8]::hash` writes the length first. -/
inductive Write where
  | num (n : Nat)
  | bytes (b : Bytes)
  deriving DecidableEq, Repr

/-- `Hash for RequestKey`, 118-127. -/
def hashInput (k : RequestKey) : List Write :=
  [.num k.subgraph, .bytes (k.parts.drop k.methodStart), .bytes (slice k.parts k.urlStart k.methodStart)] ++
  k.sections.map (fun s => .bytes (slice k.parts s.1 s.2)) ++ [.bytes k.body]

/-! ## The transition system -/

section
variable {K R : Type} [DecidableEq K]

/-- Where a caller is in `deduplicate`. -/
inductive Status (R : Type) where
  /-- not started -/
  | idle
  /-- running `f` without deduplication (disabled, or a mutation) -/
  | direct
  /-- has the cell, waits for a value or for the permit -/
  | waiting (cell : Nat)
  /-- runs the initialiser -/
  | running (cell : Nat)
  /-- the initialiser has removed the entry and is about to return -/
  | completing (cell : Nat) (r : R)
  | done (r : R)
  | cancelled
  | panicked
  deriving DecidableEq

/-- A `OnceCell`: its value, and who holds the permit. -/
structure Cell (R : Type) where
  value : Option R
  holder : Option Nat

structure State (K R : Type) where
  inflight : K → Option Nat
  cells : Nat → Cell R
  nextCell : Nat
  status : Nat → Status R
  key : Nat → Option K

def init : State K R := ⟨fun _ => none, fun _ => ⟨none, none⟩, 0, fun _ => .idle, fun _ => none⟩

inductive Event (K R : Type) where
  /-- caller arrives; `merge` is `inflight_deduplication && !is_mutation` -/
  | start (c : Nat) (k : K) (merge : Bool)
  /-- waiter takes the permit of its cell -/
  | acquire (c : Nat)
  /-- `f` returned `r` to `c`; a caller that merges removes the entry -/
  | respond (c : Nat) (r : R)
  /-- the initialiser returns, the cell is set -/
  | complete (c : Nat)
  /-- a waiter sees the value -/
  | wake (c : Nat)
  /-- the task is dropped, or `f` panics -/
  | cancel (c : Nat)

def upd {α β : Type} [DecidableEq α] (f : α → β) (a : α) (b : β) : α → β := fun x => if x = a then b else f x

/-- The last lines of `deduplicate`, 53-56: both branches unwrap the value of the cell. -/
def unwrapCell (cell : Cell R) : Status R :=
  match cell.value with
  | some r => .done r
  | none => .panicked

/-- `deduplicate`, 24-58. Events that are not possible leave the state unchanged. -/
def step (s : State K R) : Event K R → State K R
  | .start c k merge =>
    match s.status c with
    | .idle =>
      if merge then
        match s.inflight k with
        | some x => { s with status := upd s.status c (.waiting x), key := upd s.key c (some k) }
        | none =>
          { inflight := upd s.inflight k (some s.nextCell)
            cells := upd s.cells s.nextCell ⟨none, none⟩
            nextCell := s.nextCell + 1
            status := upd s.status c (.waiting s.nextCell)
            key := upd s.key c (some k) }
      else { s with status := upd s.status c .direct, key := upd s.key c (some k) }
    | _ => s
  | .acquire c =>
    match s.status c with
    | .waiting x =>
      match s.cells x with
      | ⟨none, none⟩ =>
        { s with status := upd s.status c (.running x), cells := upd s.cells x ⟨none, some c⟩ }
      | _ => s
    | _ => s
  | .respond c r =>
    match s.status c with
    | .direct => { s with status := upd s.status c (.done r) }
    | .running x =>
      match s.key c with
      | some k => { s with inflight := upd s.inflight k none, status := upd s.status c (.completing x r) }
      | none => s
    | _ => s
  | .complete c =>
    match s.status c with
    | .completing x r =>
      { s with cells := upd s.cells x ⟨some r, none⟩, status := upd s.status c (unwrapCell ⟨some r, none⟩) }
    | _ => s
  | .wake c =>
    match s.status c with
    | .waiting x =>
      -- `get_or_init` returns when the cell has a value
      match (s.cells x).value with
      | some _ => { s with status := upd s.status c (unwrapCell (s.cells x)) }
      | none => s
    | _ => s
  | .cancel c =>
    match s.status c with
    | .direct => { s with status := upd s.status c .cancelled }
    | .waiting _ => { s with status := upd s.status c .cancelled }
    | .running x =>
      { s with status := upd s.status c .cancelled, cells := upd s.cells x ⟨(s.cells x).value, none⟩ }
    | _ => s

def run (h : List (Event K R)) : State K R := h.foldl step init

end

end Verif.InFlight
