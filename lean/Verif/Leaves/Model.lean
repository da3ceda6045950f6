/-!
# How leaf values of subgraph responses are read

Model of `crates/engine/src/response/write/deserialize/`: `scalar/mod.rs`, `scalar/int.rs`, `scalar/float.rs`, `enum.rs`,
`list/mod.rs`, `list/type_.rs` and the part of `field.rs` for scalars and enums, with `propagate_null`
(`../part.rs` 49-62) and the values written to the client (`../../read/ser/data.rs` 79-121).

The parsers give integers that fit 64 bits as `u64` or `i64` by their sign, all other numbers as `f64`, and the visitors for
smaller integers do the same. An `f64` is finite, so it is a rational number; `as f64` of an integer is a parameter. Text is a
list of characters. A step of a path is an index with whether the item may be null; the field itself is the empty
path. Values are trees; a mark is a path of indices, innermost first, made null when the part is
ingested, or `none` when the null goes to the parent of the field. The rest of the response is not
modelled: `hard` says that deserialisation ended with an error.
-/
namespace Verif.Leaves

abbrev Text := List Char

inductive Num where
  | int (i : Int)
  | float (q : Rat)

inductive Json where
  | null
  | bool (b : Bool)
  | num (n : Num)
  | str (s : Text)
  | list (js : List Json)
  | map (es : List (Text × Json))

/-- `ScalarType` and enums; an enum has its values with whether they are inaccessible. -/
inductive Leaf where
  | string | float | int | boolean | unknown
  | enum (values : List (Text × Bool))

/-- `MutableWrapping`: outermost first. -/
inductive Ty where
  | base (required : Bool)
  | list (required : Bool) (inner : Ty)
  deriving DecidableEq

def Ty.required : Ty → Bool
  | .base r => r
  | .list r _ => r

/-- `ResponseValue`. -/
inductive Val where
  | null
  | bool (b : Bool)
  | int (i : Int)
  | float (q : Rat)
  | str (s : Text)
  | wide (i : Int)
  | inaccessible (v : Val)
  | unexpected
  | list (vs : List Val)
  | map (es : List (Text × Val))
  | ints (is : List Int)
  | floats (qs : List Rat)

/-- `ResponseValueId` of an item of a list. -/
structure Step where
  index : Nat
  nullable : Bool

def indices (p : List Step) : List Nat := p.map (·.index)

/-- `propagate_null` (`part.rs` 49-62): the innermost value that may be null. -/
def propagate (fieldNullable : Bool) : List Step → Option (List Nat)
  | [] => if fieldNullable then some [] else none
  | s :: rest => if s.nullable then some (indices (s :: rest)) else propagate fieldNullable rest

/-- What a seed leaves: its value unless the deserialisation failed, the errors with their paths, and the marks. -/
structure Res where
  val : Option Val
  errs : List (List Nat)
  marks : List (Option (List Nat))

/-- The context of a seed: whether errors are reported for the field (`state.rs` 93-101), whether the field may be null. -/
structure Ctx where
  vis : Bool
  fieldNullable : Bool
  /-- `as f64`. -/
  asF64 : Int → Rat

def ok (v : Val) : Res := ⟨some v, [], []⟩

/-- `unexpected_type` of the seeds (`scalar/mod.rs` 35-67, `enum.rs` 83-105, `list/mod.rs` 42-65), and the unknown value of an
enum (`enum.rs` 58-73). -/
def unexpected (c : Ctx) (required : Bool) (p : List Step) : Res :=
  if c.vis then ⟨some .unexpected, [indices p], if required then [propagate c.fieldNullable p] else []⟩
  else ⟨some .unexpected, [], []⟩

/-- `visit_none`, `visit_unit`. -/
def visitNull (c : Ctx) (required : Bool) (p : List Step) : Res :=
  if required then unexpected c required p else ok .null

def i32Max : Int := 2147483647
def i32Min : Int := -2147483648

/-- `i32::try_from`. -/
def fitsI32 (i : Int) : Bool := decide (i32Min ≤ i) && decide (i ≤ i32Max)

/-- `can_coerce_f64_to_int` (`scalar/mod.rs` 415-417). -/
def canCoerce (q : Rat) : Bool := decide ((q.floor : Rat) = q) && decide (q < (i32Max : Rat))

/-- `as i32`: truncates and saturates. -/
def asI32 (q : Rat) : Int :=
  let t := if q < 0 then q.ceil else q.floor
  if t < i32Min then i32Min else if i32Max < t then i32Max else t

mutual
/-- `ScalarTypeSeed` of `Unknown` within lists and maps (`scalar/mod.rs` 327-392). -/
def anyVal : Json → Val
  | .null => .null
  | .bool b => .bool b
  | .num (.int i) => .wide i
  | .num (.float q) => .float q
  | .str s => .str s
  | .list js => .list (anyVals js)
  | .map es => .map (anyEntries es)
def anyVals : List Json → List Val
  | [] => []
  | j :: js => anyVal j :: anyVals js
def anyEntries : List (Text × Json) → List (Text × Val)
  | [] => []
  | (k, j) :: es => (k, anyVal j) :: anyEntries es
end

/-- `ScalarTypeSeed` for a number (`scalar/mod.rs` 113-270). -/
def visitNum (c : Ctx) (leaf : Leaf) (required : Bool) (p : List Step) (n : Num) : Res :=
  match leaf, n with
  | .int, .int i => if fitsI32 i then ok (.int i) else unexpected c required p
  | .int, .float q => if canCoerce q then ok (.int (asI32 q)) else unexpected c required p
  | .float, .int i => ok (.float (c.asF64 i))
  | .float, .float q => ok (.float q)
  | .unknown, n => ok (anyVal (.num n))
  | _, _ => unexpected c required p

/-- `find_value_by_name`. -/
def findValue (values : List (Text × Bool)) (s : Text) : Option (Text × Bool) :=
  values.find? (fun v => decide (v.1 = s))

/-- `EnumValueSeed` for a string (`enum.rs` 36-75). -/
def visitEnum (c : Ctx) (values : List (Text × Bool)) (required : Bool) (p : List Step) (s : Text) : Res :=
  match findValue values s with
  | some (n, inaccessible) =>
    if c.vis && inaccessible then
      if required then ⟨some (.str n), [], [propagate c.fieldNullable p]⟩ else ok (.inaccessible (.str n))
    else ok (.str n)
  | none => unexpected c required p

/-- `ScalarTypeSeed` and `EnumValueSeed`. -/
def leafSeed (c : Ctx) (leaf : Leaf) (required : Bool) (p : List Step) : Json → Res
  | .null => visitNull c required p
  | .num n => visitNum c leaf required p n
  | .bool b =>
    match leaf with
    | .boolean | .unknown => ok (.bool b)
    | _ => unexpected c required p
  | .str s =>
    match leaf with
    | .string | .unknown => ok (.str s)
    | .enum values => visitEnum c values required p s
    | _ => unexpected c required p
  | .list js =>
    match leaf with
    | .unknown => ok (anyVal (.list js))
    | _ => unexpected c required p
  | .map es =>
    match leaf with
    | .unknown => ok (anyVal (.map es))
    | _ => unexpected c required p

/-- What a visitor of `NonNullIntSeed` or `NonNullFloatSeed` does: a number, `unexpected_type`, or an error of the parser, as
the items of a list or a map that are not read are in its way (`int.rs` 228-241, `float.rs` 200-213). -/
inductive Packed where
  | int (i : Int)
  | float (q : Rat)
  | unexpected
  | hard

def packedSeed (c : Ctx) (leaf : Leaf) : Json → Packed
  | .num (.int i) =>
    match leaf with
    | .float => .float (c.asF64 i)
    | _ => if fitsI32 i then .int i else .unexpected
  | .num (.float q) =>
    match leaf with
    | .float => .float q
    | _ => if canCoerce q then .int (asI32 q) else .unexpected
  | .list (_ :: _) => .hard
  | .map (_ :: _) => .hard
  | _ => .unexpected

/-- The loop of `ListSeed` with `NonNullIntSeedList` or `NonNullFloatSeedList`: the numbers, whether an unexpected value was
encountered, and what was reported. -/
structure Loop where
  hard : Bool
  ints : List Int
  floats : List Rat
  bad : Bool
  errs : List (List Nat)
  marks : List (Option (List Nat))

def packedLoop (c : Ctx) (leaf : Leaf) (p : List Step) (i : Nat) : List Json → Loop
  | [] => ⟨false, [], [], false, [], []⟩
  | j :: js =>
    match packedSeed c leaf j with
    | .int n => let l := packedLoop c leaf p (i + 1) js; { l with ints := n :: l.ints }
    | .float q => let l := packedLoop c leaf p (i + 1) js; { l with floats := q :: l.floats }
    | .unexpected =>
      let u := unexpected c true (⟨i, false⟩ :: p)
      let l := packedLoop c leaf p (i + 1) js
      { l with bad := true, errs := u.errs ++ l.errs, marks := u.marks ++ l.marks }
    | .hard => ⟨true, [], [], false, if c.vis then [i :: indices p] else [], if c.vis then [propagate c.fieldNullable p] else []⟩

/-- `finalize` (`type_.rs` 98-104, 147-153). -/
def packedList (c : Ctx) (leaf : Leaf) (p : List Step) (js : List Json) : Res :=
  let l := packedLoop c leaf p 0 js
  if l.hard then ⟨none, l.errs, l.marks⟩
  else if l.bad then ⟨some .unexpected, l.errs, l.marks⟩
  else match leaf with
    | .float => ⟨some (.floats l.floats), l.errs, l.marks⟩
    | _ => ⟨some (.ints l.ints), l.errs, l.marks⟩

/-- Whether the items of a list are read by `NonNullIntSeed` or `NonNullFloatSeed` (`field.rs` 36-50). -/
def isPacked (leaf : Leaf) (inner : Ty) : Bool :=
  match leaf with
  | .int | .float => decide (inner = .base true)
  | _ => false

/-- The loop of `ListSeed` (`list/mod.rs` 96-137) with the seed of the items. -/
def listLoop (seed : List Step → Json → Res) (nullable : Bool) (p : List Step) (i : Nat) :
    List Json → Option (List Val) × List (List Nat) × List (Option (List Nat))
  | [] => (some [], [], [])
  | j :: js =>
    let r := seed (⟨i, nullable⟩ :: p) j
    match r.val with
    | none => (none, r.errs, r.marks)
    | some v =>
      let l := listLoop seed nullable p (i + 1) js
      (l.1.map (v :: ·), r.errs ++ l.2.1, r.marks ++ l.2.2)

/-- `FieldSeed` (`field.rs` 26-110) for scalars and enums. -/
def fieldSeed (c : Ctx) (leaf : Leaf) : Ty → List Step → Json → Res
  | .base required, p, j => leafSeed c leaf required p j
  | .list required inner, p, j =>
    match j with
    | .null => visitNull c required p
    | .list js =>
      if isPacked leaf inner then packedList c leaf p js
      else
        let l := listLoop (fieldSeed c leaf inner) (!inner.required) p 0 js
        ⟨l.1.map .list, l.2.1, l.2.2⟩
    | _ => unexpected c required p

/-- What is sent to the client. -/
inductive Out where
  | null
  | bool (b : Bool)
  | int (i : Int)
  | float (q : Rat)
  | str (s : Text)
  | list (vs : List Out)
  | map (es : List (Text × Out))

mutual
/-- `SerializableResponseValue` (`ser/data.rs` 79-121), with the marks. -/
def render (marks : List (Option (List Nat))) (p : List Nat) : Val → Out
  | .null => .null
  | .inaccessible _ => .null
  | .unexpected => .null
  | .bool b => if marks.contains (some p) then .null else .bool b
  | .int i => if marks.contains (some p) then .null else .int i
  | .float q => if marks.contains (some p) then .null else .float q
  | .str s => if marks.contains (some p) then .null else .str s
  | .wide i => if marks.contains (some p) then .null else .int i
  | .list vs => if marks.contains (some p) then .null else .list (renderList marks p 0 vs)
  | .map es => if marks.contains (some p) then .null else .map (renderMap marks p 0 es)
  | .ints is => if marks.contains (some p) then .null else .list (is.map .int)
  | .floats qs => if marks.contains (some p) then .null else .list (qs.map .float)
def renderList (marks : List (Option (List Nat))) (p : List Nat) (i : Nat) : List Val → List Out
  | [] => []
  | v :: vs => render marks (i :: p) v :: renderList marks p (i + 1) vs
/-- Entries have positions of their own that no mark has. -/
def renderMap (marks : List (Option (List Nat))) (p : List Nat) (i : Nat) : List (Text × Val) → List (Text × Out)
  | [] => []
  | (k, v) :: es => (k, render marks (i :: p) v) :: renderMap marks p (i + 1) es
end

/-- What the client sees of the field: nothing when a null goes to its parent. -/
def shown (r : Res) (v : Val) : Option Out := if r.marks.contains none then none else some (render r.marks [] v)

end Verif.Leaves
