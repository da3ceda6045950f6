/-
Model of wasi-component-loader/src/extension/pool.rs: the pool of extension instances (deadpool, oldest first), the
flags the `wasmsafe!` macro sets around calls, and guards that give instances back when dropped. Not modelled: the
limit on the number of instances (it only delays `get`) and instances that cannot be created.

`broken` and `calling` are not in the code. `calling` is set while the future of a call is alive; `broken` is set when
a call fails with a wasmtime error or its future is dropped before it ends.
-/
namespace Verif.Pool

/-- 95-99 -/
structure Inst where
  poisoned : Bool
  recyclable : Bool
  calling : Bool
  broken : Bool
  deriving DecidableEq, Repr

/-- `create`, 71-77. -/
def fresh : Inst := ⟨false, true, false, false⟩

/-- `recycle`, 79-92, succeeds. -/
def Inst.ok (i : Inst) : Bool := !(i.poisoned || !i.recyclable)

structure State where
  idle : List Nat
  /-- The instance a caller has a guard for. -/
  held : Nat → Option Nat
  inst : Nat → Inst
  next : Nat

def init : State := ⟨[], fun _ => none, fun _ => fresh, 0⟩

def upd {α : Type} (f : Nat → α) (k : Nat) (v : α) : Nat → α := fun x => if x = k then v else f x

inductive Event where
  /-- `Pool::get`, 47-56 -/
  | get (c : Nat)
  /-- the call in `wasmsafe!` starts, 128-129 -/
  | callBegin (c : Nat)
  /-- it returns, 130-133 -/
  | callOk (c : Nat)
  /-- it fails, 134-136 -/
  | callErr (c : Nat)
  /-- its future is dropped, the guard is kept -/
  | callDropped (c : Nat)
  /-- `instance.recyclable = b` -/
  | setRecyclable (c : Nat) (b : Bool)
  /-- the guard is dropped, with the future of a call if there is one -/
  | release (c : Nat)
  deriving DecidableEq, Repr

/-- deadpool's `get`: take idle instances until one can be recycled; those that cannot are discarded. -/
def takeIdle (inst : Nat → Inst) : List Nat → Option (Nat × List Nat)
  | [] => none
  | i :: rest => if (inst i).ok then some (i, rest) else takeIdle inst rest

def step (s : State) : Event → State
  | .get c =>
    match s.held c with
    | some _ => s
    | none =>
      match takeIdle s.inst s.idle with
      | some (i, rest) => { s with idle := rest, held := upd s.held c (some i) }
      | none =>
        { idle := [], held := upd s.held c (some s.next), inst := upd s.inst s.next fresh, next := s.next + 1 }
  | .callBegin c =>
    match s.held c with
    | none => s
    | some i =>
      if (s.inst i).calling then s
      else { s with inst := upd s.inst i { s.inst i with poisoned := true, calling := true } }
  | .callOk c =>
    match s.held c with
    | none => s
    | some i =>
      if (s.inst i).calling then { s with inst := upd s.inst i { s.inst i with poisoned := false, calling := false } }
      else s
  | .callErr c =>
    match s.held c with
    | none => s
    | some i =>
      if (s.inst i).calling then { s with inst := upd s.inst i { s.inst i with calling := false, broken := true } }
      else s
  | .callDropped c =>
    match s.held c with
    | none => s
    | some i =>
      if (s.inst i).calling then { s with inst := upd s.inst i { s.inst i with calling := false, broken := true } }
      else s
  | .setRecyclable c b =>
    match s.held c with
    | none => s
    | some i => { s with inst := upd s.inst i { s.inst i with recyclable := b } }
  | .release c =>
    match s.held c with
    | none => s
    | some i =>
      { s with
        idle := s.idle ++ [i], held := upd s.held c none
        inst := upd s.inst i
          { s.inst i with calling := false, broken := (s.inst i).broken || (s.inst i).calling } }

def run (s : State) (h : List Event) : State := h.foldl step s

end Verif.Pool
