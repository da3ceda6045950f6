/-!
# Subscriptions of extensions which are not shared

* `crates/wasi-component-loader/src/extension/runtime/resolver/subscription/unique.rs` lines 19-66
* `crates/wasi-component-loader/src/extension/runtime/subscription/unique.rs` lines 22-77 (older extensions)
* `crates/wasi-component-loader/src/extension/pool.rs` lines 118-139 (`wasmsafe!`)
* `crates/wasi-component-loader/src/extension/runtime/resolver/mod.rs` line 150 and `field_resolver.rs` line 80 (`recyclable = false`)

Simplifications: items and errors are numbers; the answers of the extension are a list, at whose end it does not answer (yet); whether
`drop_subscription` works is a parameter. In builds with debug assertions `wasmsafe!` panics on a poisoned instance; this is the release
build. `drops` counts the calls of `drop_subscription` and is not used by the program.
-/
namespace Verif.UniqueSub

/-- What `resolve_next_subscription_item` gives. -/
inductive Reply where
  | single (r : Nat)
  | multiple (rs : List Nat)
  | finish
  | fail (e : Nat)
  /-- an error of wasmtime -/
  | trap
deriving DecidableEq, Repr

inductive Out where
  | item (r : Nat)
  | error (e : Nat)
  /-- `internal_extension_error` -/
  | internal
deriving DecidableEq, Repr

/-- The instance (pool.rs:96-100). -/
structure Inst where
  poisoned : Bool := false
  recyclable : Bool := false
  drops : Nat := 0
deriving DecidableEq, Repr

/-- The state of the stream (24). If it is not live, the instance was given back. -/
structure St where
  live : Bool := true
  inst : Inst := {}
  queue : List Nat := []
deriving DecidableEq, Repr

inductive Poll where
  | pending (i : Inst)
  | ended (st : St) (rest : List Reply)
  | gives (o : Out) (st : St) (rest : List Reply)
deriving DecidableEq, Repr

/-- `drop_subscription` and `recyclable = true` (47-50, 54-57): `wasmsafe!` sets `poisoned` and clears it if the call works. -/
def Inst.drop (i : Inst) (works : Bool) : Inst := { poisoned := !works, recyclable := true, drops := i.drops + 1 }

/-- The loop (32-61). The instance of a live stream is not poisoned, so that a call which works leaves it as it is. -/
def ask (works : Bool) (i : Inst) : List Reply → Poll
  | [] => .pending { i with poisoned := true }
  | .single r :: rest => .gives (.item r) ⟨true, i, []⟩ rest
  | .multiple [] :: rest => ask works i rest
  | .multiple (x :: xs) :: rest => .gives (.item x) ⟨true, i, xs⟩ rest
  | .finish :: rest => .ended ⟨false, i.drop works, []⟩ rest
  | .fail e :: rest => .gives (.error e) ⟨false, i.drop works, []⟩ rest
  | .trap :: rest => .gives .internal ⟨false, ({ i with poisoned := true } : Inst).drop works, []⟩ rest

/-- The next item of the stream (25-62). -/
def next (works : Bool) (st : St) (rs : List Reply) : Poll :=
  if st.live then
    match st.queue with
    | x :: q => .gives (.item x) { st with queue := q } rs
    | [] => ask works st.inst rs
  else .ended st rs

/-- The loop for older extensions (older unique.rs:41-58). -/
def askOld (i : Inst) : List Reply → Poll
  | [] => .pending { i with poisoned := true }
  | .single r :: rest => .gives (.item r) ⟨true, { i with poisoned := false }, []⟩ rest
  | .multiple [] :: rest => askOld { i with poisoned := false } rest
  | .multiple (x :: xs) :: rest => .gives (.item x) ⟨true, { i with poisoned := false }, xs⟩ rest
  | .finish :: rest => .ended ⟨false, { i with poisoned := false }, []⟩ rest
  | .fail _ :: rest => .gives .internal ⟨true, { i with poisoned := false }, []⟩ rest
  | .trap :: rest => .gives .internal ⟨true, { i with poisoned := true }, []⟩ rest

/-- The next item for older extensions (older unique.rs:36-73). -/
def nextOld (st : St) (rs : List Reply) : Poll :=
  if st.live then
    match st.queue with
    | x :: q => .gives (.item x) { st with queue := q } rs
    | [] => askOld st.inst rs
  else .ended st rs

inductive End where
  /-- asked as often as wanted -/
  | more
  | pending
  | ended
deriving DecidableEq, Repr

structure Result where
  outs : List Out
  fin : End
  st : St
  rest : List Reply
deriving DecidableEq, Repr

/-- A client which asks `n` times, as long as the stream goes on. -/
def polls (f : St → List Reply → Poll) : Nat → St → List Reply → Result
  | 0, st, rs => ⟨[], .more, st, rs⟩
  | n + 1, st, rs =>
    match f st rs with
    | .pending i => ⟨[], .pending, { st with inst := i }, []⟩
    | .ended st' rest => ⟨[], .ended, st', rest⟩
    | .gives o st' rest =>
      let r := polls f n st' rest
      ⟨o :: r.outs, r.fin, r.st, r.rest⟩

end Verif.UniqueSub
