/-
Model of the crate `graphql-wrapping-types` (all of `src/lib.rs` and `src/mutable.rs`).
A `u16` is a `BitVec 16`; `assert!` failing is `none`.
-/
namespace Verif.Wrapping

/-- `ListWrapping`, graphql-wrapping-types/src/lib.rs:152-156. -/
inductive ListWrapping where
  | listNonNull
  | list
  deriving DecidableEq, Repr

/-- `WrappingType`, graphql-wrapping-types/src/lib.rs:146-150. -/
inductive WrappingType where
  | nonNull
  | list
  deriving DecidableEq, Repr

/-- `Wrapping(u16)`, graphql-wrapping-types/src/lib.rs:26-27. -/
structure Wrapping where
  bits : BitVec 16
  deriving DecidableEq, Repr

/-- `LIST_WRAPPER_LENGTH_MASK`, lib.rs:5. -/
def LIST_WRAPPER_LENGTH_MASK : BitVec 16 := 0b0111100000000000#16
/-- `LIST_WRAPPER_SHIFT = LIST_WRAPPER_LENGTH_MASK.trailing_zeros()`, lib.rs:6. -/
def LIST_WRAPPER_SHIFT : Nat := 11
/-- `MAX_LIST_WRAPINGS = LIST_WRAPPER_MASK.trailing_ones()`, lib.rs:7-8. -/
def MAX_LIST_WRAPINGS : Nat := 11
/-- `INNER_IS_REQUIRED_FLAG`, lib.rs:9. -/
def INNER_IS_REQUIRED_FLAG : BitVec 16 := 0b1000000000000000#16

namespace Wrapping

/-- `Wrapping::new`, lib.rs:30-32 (also the derived `Default`). -/
def new : Wrapping := ⟨0#16⟩

/-- `inner_is_required`, lib.rs:42-44. -/
def innerIsRequired (w : Wrapping) : Bool := w.bits &&& INNER_IS_REQUIRED_FLAG != 0#16

/-- `get_list_length`, lib.rs:70-72. The `u8` cast is lossless (4 bits). -/
def getListLength (w : Wrapping) : Nat :=
  ((w.bits &&& LIST_WRAPPER_LENGTH_MASK) >>> LIST_WRAPPER_SHIFT).toNat

/-- `set_list_length`, lib.rs:74-77; the assertion failing is `none`. -/
def setListLength (w : Wrapping) (len : Nat) : Option Wrapping :=
  if len < MAX_LIST_WRAPINGS then
    some ⟨(w.bits &&& INNER_IS_REQUIRED_FLAG)
      ||| (BitVec.ofNat 16 len <<< LIST_WRAPPER_SHIFT)
      ||| (w.bits &&& ((1#16 <<< len) - 1#16))⟩
  else none

/-- `list_wrappings`, lib.rs:47-57, innermost first. -/
def listWrappings (w : Wrapping) : List ListWrapping :=
  (List.range w.getListLength).map fun i =>
    if w.bits &&& (1#16 <<< i) == 0#16 then .list else .listNonNull

/-- `iter`, lib.rs:60-68. -/
def iter (w : Wrapping) : List WrappingType :=
  (if w.innerIsRequired then [.nonNull] else []) ++
    w.listWrappings.flatMap fun
      | .list => [.list]
      | .listNonNull => [.list, .nonNull]

/-- `list`, lib.rs:84-89. -/
def list (w : Wrapping) : Option Wrapping := do
  let len := w.getListLength
  let w' ← w.setListLength (len + 1)
  pure ⟨w'.bits &&& ~~~(1#16 <<< len)⟩

/-- `list_non_null`, lib.rs:92-97. -/
def listNonNull (w : Wrapping) : Option Wrapping := do
  let len := w.getListLength
  let w' ← w.setListLength (len + 1)
  pure ⟨w'.bits ||| (1#16 <<< len)⟩

/-- `non_null`, lib.rs:100-108. -/
def nonNull (w : Wrapping) : Wrapping :=
  let len := w.getListLength
  if len = 0 then ⟨w.bits ||| INNER_IS_REQUIRED_FLAG⟩
  else ⟨w.bits ||| (1#16 <<< (len - 1))⟩

/-- `is_equal_or_more_lenient_than`, lib.rs:111-124. -/
def isEqualOrMoreLenientThan (self other : Wrapping) : Bool :=
  if self.innerIsRequired && !other.innerIsRequired then false
  else if self.getListLength != other.getListLength then false
  else (self.listWrappings.zip other.listWrappings).all fun (s, o) =>
    !(s == .listNonNull && o == .list)

/-- `is_non_null`, lib.rs:163-168 (`next_back` is the last element). -/
def isNonNull (w : Wrapping) : Bool :=
  match w.listWrappings.getLast? with
  | some lw => lw == .listNonNull
  | none => w.innerIsRequired

/-- `is_nullable`, lib.rs:159-161. -/
def isNullable (w : Wrapping) : Bool := !w.isNonNull

/-- `is_list`, lib.rs:170-172. -/
def isList (w : Wrapping) : Bool := w.listWrappings.head?.isSome

/-- `MutableWrapping::pop_outermost_list_wrapping`, mutable.rs:21-35: the popped wrapping and the
remaining word. `none` is the panic of `set_list_length`; `some (none, w)` is "not a list". -/
def popOutermost (w : Wrapping) : Option (Option ListWrapping × Wrapping) :=
  let end_ := w.getListLength
  if end_ = 0 then some (none, w)
  else do
    let lw : ListWrapping := if w.bits &&& (1#16 <<< (end_ - 1)) != 0#16 then .listNonNull else .list
    let w' ← w.setListLength (end_ - 1)
    pure (some lw, w')

/-- `MutableWrapping::push_outermost_list_wrapping`, mutable.rs:37-42. -/
def pushOutermost (w : Wrapping) : ListWrapping → Option Wrapping
  | .listNonNull => w.listNonNull
  | .list => w.list

/-- `without_list`, lib.rs:126-129: outer `none` is a panic, inner `none` is "not a list". -/
def withoutList (w : Wrapping) : Option (Option Wrapping) := do
  let (r, w') ← w.popOutermost
  pure (r.map fun _ => w')

/-- `without_non_null`, lib.rs:131-143. -/
def withoutNonNull (w : Wrapping) : Option Wrapping :=
  if w.isNullable then some w
  else if w.isList then do
    let (_, w') ← w.popOutermost
    w'.pushOutermost .list
  else some ⟨w.bits &&& ~~~INNER_IS_REQUIRED_FLAG⟩

/-- `WrappingDisplay::fmt`, lib.rs:184-205, as the string written. -/
def typeDisplay (w : Wrapping) (name : String) : String :=
  String.join (List.replicate w.getListLength "[") ++ name ++
    (if w.innerIsRequired then "!" else "") ++
    String.join (w.listWrappings.map fun
      | .listNonNull => "]!"
      | .list => "]")

end Wrapping
end Verif.Wrapping
