/-
Model of operation-checks/src/schema/wrapping_types.rs (lines 1-172) and of
operation-checks/src/schema/async_graphql.rs:119-135 (`extract_type`).
A `u64` is a `BitVec 64`.
-/
namespace Verif.CheckTypes

/-- `ListType`, wrapping_types.rs:3-7. -/
inductive ListType where
  | list
  | nonNullList
  deriving DecidableEq, Repr

/-- `WrapperTypesComparison`, wrapping_types.rs:161-172. -/
inductive Comparison where
  | noChange
  | removedNonNull
  | addedNonNull
  | notCompatible
  deriving DecidableEq, Repr

/-- `WrappingTypes(u64)`, wrapping_types.rs:20-21. -/
structure WrappingTypes where
  bits : BitVec 64
  deriving DecidableEq, Repr

/-- `LIST_BITS_COUNT` and `NONNULL_BIT_OFFSET`, wrapping_types.rs:25, 28. -/
def LIST_BITS_COUNT : Nat := 57
/-- `NONNULL_BIT_MASK`, wrapping_types.rs:30. -/
def NONNULL_BIT_MASK : BitVec 64 := 1#64 <<< 57
/-- `LIST_COUNT_BITS_OFFSET`, wrapping_types.rs:33. -/
def LIST_COUNT_BITS_OFFSET : Nat := 58
/-- `LIST_COUNT_BITS_MASK = u64::MAX << 58`, wrapping_types.rs:35. -/
def LIST_COUNT_BITS_MASK : BitVec 64 := BitVec.allOnes 64 <<< 58

namespace WrappingTypes

/-- `Default`, wrapping_types.rs:20. -/
def default : WrappingTypes := ⟨0#64⟩

/-- `lists_count`, wrapping_types.rs:37-39 (six bits, the `u8` cast is lossless). -/
def listsCount (w : WrappingTypes) : Nat :=
  ((w.bits &&& LIST_COUNT_BITS_MASK) >>> LIST_COUNT_BITS_OFFSET).toNat

/-- `inner_is_nonnull`, wrapping_types.rs:41-43. -/
def innerIsNonnull (w : WrappingTypes) : Bool := w.bits &&& NONNULL_BIT_MASK != 0#64

/-- `iter_list_types`, wrapping_types.rs:46-52, outermost first. -/
def iterListTypes (w : WrappingTypes) : List ListType :=
  (List.range w.listsCount).map fun i =>
    if (w.bits >>> i) &&& 1#64 == 0#64 then .list else .nonNullList

/-- `render`, wrapping_types.rs:54-85. -/
def render (w : WrappingTypes) (inner : String) : String :=
  String.join (w.iterListTypes.map fun _ => "[") ++ inner ++
    (if w.innerIsNonnull then "!" else "") ++
    String.join (w.iterListTypes.reverse.map fun
      | .list => "]"
      | .nonNullList => "]!")

/-- `is_nonnull`, wrapping_types.rs:87-92. -/
def isNonnull (w : WrappingTypes) : Bool :=
  match w.iterListTypes.head? with
  | some l => l == .nonNullList
  | none => w.innerIsNonnull

/-- The state updates on lines 105-110 and 126-129. -/
def onRemoved : Comparison → Comparison
  | .noChange | .removedNonNull => .removedNonNull
  | .addedNonNull | .notCompatible => .notCompatible

/-- The state updates on lines 112-117 and 130-133. -/
def onAdded : Comparison → Comparison
  | .noChange | .addedNonNull => .addedNonNull
  | .removedNonNull | .notCompatible => .notCompatible

/-- The loop of `compare`, wrapping_types.rs:102-122, over what is left in both iterators. Once one
side is exhausted every further iteration assigns `NotCompatible` again (line 119) until both are, so
those iterations are collapsed into one. -/
def compareLoop : Comparison → List ListType → List ListType → Comparison
  | st, [], [] => st
  | st, .list :: s, .list :: t => compareLoop st s t
  | st, .nonNullList :: s, .nonNullList :: t => compareLoop st s t
  | st, .nonNullList :: s, .list :: t => compareLoop (onRemoved st) s t
  | st, .list :: s, .nonNullList :: t => compareLoop (onAdded st) s t
  | _, _ :: _, [] => .notCompatible
  | _, [], _ :: _ => .notCompatible

/-- `compare`, wrapping_types.rs:94-135. -/
def compare (self target : WrappingTypes) : Comparison :=
  let st := compareLoop .noChange self.iterListTypes target.iterListTypes
  match self.innerIsNonnull, target.innerIsNonnull with
  | true, true | false, false => st
  | true, false => onRemoved st
  | false, true => onAdded st

/-- `set_inner_nonnull`, wrapping_types.rs:137-140. -/
def setInnerNonnull (w : WrappingTypes) (nonnull : Bool) : WrappingTypes :=
  ⟨(w.bits &&& ~~~NONNULL_BIT_MASK) ||| ((if nonnull then 1#64 else 0#64) <<< 57)⟩

/-- `push_list`, wrapping_types.rs:142-158, with the guard `lists_count > 57` as written. -/
def pushList (w : WrappingTypes) (nonnull : Bool) : WrappingTypes :=
  let c := w.listsCount
  if c > LIST_BITS_COUNT then w
  else
    let b := if nonnull then w.bits ||| (1#64 <<< c) else w.bits
    ⟨(b &&& ~~~LIST_COUNT_BITS_MASK) ||| (BitVec.ofNat 64 (c + 1) <<< LIST_COUNT_BITS_OFFSET)⟩

end WrappingTypes

/-- The parser's type reference (`async_graphql_parser::types::Type`: a base and a nullable flag). -/
inductive AType where
  | named (nullable : Bool)
  | list (nullable : Bool) (inner : AType)
  deriving DecidableEq, Repr

/-- The loop of `extract_type`, async_graphql.rs:119-135 (the name is left out). -/
def extractFrom (w : WrappingTypes) : AType → WrappingTypes
  | .named nullable => w.setInnerNonnull (!nullable)
  | .list nullable inner => extractFrom (w.pushList (!nullable)) inner

/-- `extract_type`. -/
def extractType (t : AType) : WrappingTypes := extractFrom .default t

end Verif.CheckTypes
