import Verif.DefaultMerge.Model
import Verif.OpChecks.Model

/-!
# Null propagation

Model of how the data of a subgraph response is read against the shape of the operation, how nulls
in required positions are recorded, how a part is ingested in the response, and how the response is
serialised.  Paths are relative to `crates/engine/src/response/`.

Simplifications:
* Text is a number.  A JSON scalar is a `Leaf`: whether it is a string, and a number standing for the
  rest.  The built-in scalars are a predicate on leaves; `ScalarType::Unknown`, which takes any JSON,
  is left out.  So are polymorphic shapes (`object/polymorphic.rs`) and derived fields
  (`object/derive.rs`).
* The parser gives an error at a `bad` node.
* A path is stored innermost element first.  The code pushes at the end and reads it backwards.
* Whether an error is reported for a field (`state.rs:93-101`) is whether its key has a position:
  `fields.rs:380-384` sets the position of the key by the same conditions.
* The errors themselves and the bytes of strings are not kept.
* `concrete_shape_has_error` is taken to say whether one of the fields has errors.
* Binary search on the sorted fields of an object is modelled by search of an equal key, insertion by
  insertion before the first larger key.
* Objects do not record their definition id, except in the object references.
-/
namespace Verif.NullProp

open Verif.DefaultMerge (Key Field)
open Verif.OpChecks (sortBy insertBy)

/-- A JSON value that is neither null, list nor object. -/
structure Leaf where
  str : Bool
  n : Nat
  deriving DecidableEq, Repr

mutual
/-- What the deserializer finds. -/
inductive Json where
  | null
  | leaf (l : Leaf)
  | bad
  | list (js : Jsons)
  | map (es : Entries)
inductive Jsons where
  | nil
  | bad
  | cons (j : Json) (js : Jsons)
inductive Entries where
  | nil
  | bad
  | cons (k : Nat) (j : Json) (es : Entries)
end

mutual
/-- Skipping the value with `IgnoredAny` fails. -/
def Json.broken : Json → Bool
  | .null | .leaf _ => false
  | .bad => true
  | .list js => js.broken
  | .map es => es.broken
def Jsons.broken : Jsons → Bool
  | .nil => false
  | .bad => true
  | .cons j js => j.broken || js.broken
def Entries.broken : Entries → Bool
  | .nil => false
  | .bad => true
  | .cons _ j es => j.broken || es.broken
end

/-- The key `__typename`. -/
def typenameKey : Nat := 0

/-- `MutableWrapping`: outermost wrapping first. -/
inductive Ty where
  | base (required : Bool)
  | list (required : Bool) (inner : Ty)
  deriving DecidableEq, Repr

/-- `Wrapping::is_non_null`. -/
def Ty.required : Ty → Bool
  | .base r => r
  | .list r _ => r

/-- `ObjectIdentifier`, `prepare/cached/shape/concrete.rs:72-77`; the two cases for union and
interface are `detect` with the names of the possible types. -/
inductive Ident where
  | known (ty : Nat)
  | detect (possible : List Nat)
  | anonymous

mutual
/-- `Shape`.  `packed` is set for `Int` and `Float`; `vals` gives for the name of an enum value
whether it is inaccessible. -/
inductive Shape where
  | scalar (packed : Bool) (ok : Leaf → Bool)
  | enum (vals : Nat → Option Bool)
  | obj (ident : Ident) (set : Option Nat) (typenames : List Key) (fields : List FieldShape)
/-- `FieldShapeRecord`; `absent` is `is_absent`, `errors` the number of errors of the field in
`field_shape_id_to_error_ids`. -/
inductive FieldShape where
  | mk (key : Key) (expected : Nat) (ty : Ty) (shape : Shape) (absent : Bool) (errors : Nat)
end

namespace FieldShape
def key : FieldShape → Key | mk k _ _ _ _ _ => k
def expected : FieldShape → Nat | mk _ e _ _ _ _ => e
def ty : FieldShape → Ty | mk _ _ t _ _ _ => t
def shape : FieldShape → Shape | mk _ _ _ s _ _ => s
def absent : FieldShape → Bool | mk _ _ _ _ a _ => a
def errors : FieldShape → Nat | mk _ _ _ _ _ n => n
end FieldShape

/-- The key has a query position: the field is sent to the client. -/
def visible (k : Key) : Bool := k.pos != 0

/-- `SeedState::should_report_error_for`, `write/deserialize/state.rs:93-101`. -/
def FieldShape.vis (f : FieldShape) : Bool := visible f.key

/-- `ResponseObjectId`, `ResponseListId`, `ResponseInaccessibleValueId`: part and index. -/
structure Id where
  part : Nat
  ix : Nat
  deriving DecidableEq, Repr

/-- `ResponseValueId`, `path.rs:14-33`; `packed` is `IntListIndex` and `FloatListIndex`. -/
inductive VId where
  | field (o : Id) (k : Key) (nullable : Bool)
  | index (l : Id) (i : Nat) (nullable : Bool)
  | packed (part i : Nat)
  deriving DecidableEq, Repr

/-- `ResponseValueId::is_nullable`, `path.rs:53-61`. -/
def VId.nullable : VId → Bool
  | .field _ _ n => n
  | .index _ _ n => n
  | .packed _ _ => false

/-- `ResponseValueId::part_id`, `path.rs:63-70`. -/
def VId.part : VId → Nat
  | .field o _ _ => o.part
  | .index l _ _ => l.part
  | .packed p _ => p

/-- `ResponseValue`, `value.rs:52-98`. -/
inductive Val where
  | null
  | leaf (l : Leaf)
  | list (id : Id)
  | obj (id : Id)
  | inacc (id : Id)
  | unexpected
  | packed (ls : List Leaf)
  deriving DecidableEq, Repr

/-- `ResponseObjectField`, `value.rs:15-19`. -/
abbrev Fld := Field Val

/-- Order of fields by key. -/
def fldLe (a b : Fld) : Bool := (a.key.cmp b.key).isLE

/-- `DataPart`, `data.rs:157-172`. -/
structure Data where
  objs : List (List Fld) := []
  lists : List (List Val) := []
  inacc : List Val := []
  deriving DecidableEq, Repr

/-- `ResponseObjectRef`. -/
structure Ref where
  id : Id
  path : List VId
  ty : Nat
  deriving DecidableEq, Repr

/-- `ObjectUpdate`, `write/part.rs:254-257`. -/
inductive Update where
  | fields (id : Id) (fs : List Fld)
  | default (id : Id) (fs : List Fld)
  deriving DecidableEq, Repr

/-- `ResponsePartBuilder`, `write/part.rs:16-25`, with `bubbling_up_deser_error` of `SeedState`. -/
structure Part where
  id : Nat
  data : Data := {}
  nullAt : List VId := []
  toRoot : Bool := false
  bubbling : Bool := false
  updates : List Update := []
  refs : List (Nat × Ref) := []
  deriving DecidableEq, Repr

namespace Part

/-- `propagate_null_parent_path`, `write/part.rs:64-71`. -/
def propagateParent (st : Part) (par : List VId) : Part :=
  match par.find? VId.nullable with
  | none => { st with toRoot := true }
  | some v => { st with nullAt := st.nullAt ++ [v] }

/-- `propagate_null`, `write/part.rs:49-62`. -/
def propagate (st : Part) (par loc : List VId) : Part :=
  match loc.find? VId.nullable with
  | some v => { st with nullAt := st.nullAt ++ [v] }
  | none => st.propagateParent par

/-- `reserve_object_id`, `data.rs:322-324`. -/
def reserveObj (st : Part) : Part := { st with data := { st.data with objs := st.data.objs ++ [[]] } }

/-- `reserve_list_id`. -/
def reserveList (st : Part) : Part := { st with data := { st.data with lists := st.data.lists ++ [[]] } }

/-- The id given by `reserve_object_id`. -/
def nextObj (st : Part) : Id := ⟨st.id, st.data.objs.length⟩

/-- The id given by `reserve_list_id`. -/
def nextList (st : Part) : Id := ⟨st.id, st.data.lists.length⟩

/-- `put_object`, `data.rs:326-329`, of `ResponseObject::new`, `value.rs:22-28`. -/
def putObj (st : Part) (id : Id) (fs : List Fld) : Part :=
  { st with data := { st.data with objs := st.data.objs.set id.ix (sortBy fldLe fs) } }

/-- `put_list`. -/
def putList (st : Part) (id : Id) (vs : List Val) : Part :=
  { st with data := { st.data with lists := st.data.lists.set id.ix vs } }

/-- `push_inaccessible_value`, `data.rs:304-311`. -/
def pushInacc (st : Part) (v : Val) : Part := { st with data := { st.data with inacc := st.data.inacc ++ [v] } }

/-- The id given by `push_inaccessible_value`. -/
def nextInacc (st : Part) : Id := ⟨st.id, st.data.inacc.length⟩

end Part

/-- Propagate a null if the position is required and errors are reported for it: `list/mod.rs:41-63`,
`scalar/mod.rs:53-64`, `enum.rs:90-103`, and the cases of `object/concrete.rs:129-163`. -/
def orPropagate (vis req : Bool) (par loc : List VId) (st : Part) : Part :=
  if vis && req then st.propagate par loc else st

/-- `visit_none` and `visit_unit` of the seeds: `list/mod.rs:187-221`, `scalar/mod.rs:306-333`,
`enum.rs:183-216`; for objects `object/concrete.rs:129-148`. -/
def onNull (vis req : Bool) (par loc : List VId) (st : Part) : Option Val × Part :=
  (some (if req then .unexpected else .null), orPropagate vis req par loc st)

/-- `unexpected_type` of the seeds. -/
def onUnexpected (vis req : Bool) (par loc : List VId) (st : Part) : Option Val × Part :=
  (some .unexpected, orPropagate vis req par loc st)

/-- A list or an object where something else is expected is skipped first. -/
def onSkipped (broken vis req : Bool) (par loc : List VId) (st : Part) : Option Val × Part :=
  if broken then (none, st) else onUnexpected vis req par loc st

/-- `result.inspect_err` of `FieldSeed`, `write/deserialize/field.rs:93-110`. -/
def onErr (vis : Bool) (par loc : List VId) (r : Option Val × Part) : Option Val × Part :=
  match r with
  | (some v, st) => (some v, st)
  | (none, st) =>
    let reported := !st.bubbling && vis
    let st := { st with bubbling := true }
    (none, if reported then st.propagate par loc else st)

/-- A value that is not a list, where a list is expected: `list/mod.rs:127-253`. -/
def listOther (vis req : Bool) (par loc : List VId) (j : Json) (st : Part) : Option Val × Part :=
  match j with
  | .null => onNull vis req par loc st
  | .bad => (none, st)
  | j => onSkipped j.broken vis req par loc st

/-- `ScalarTypeSeed`, `scalar/mod.rs`. -/
def seedScalar (ok : Leaf → Bool) (vis req : Bool) (par loc : List VId) (j : Json) (st : Part) : Option Val × Part :=
  match j with
  | .null => onNull vis req par loc st
  | .bad => (none, st)
  | .leaf l => if ok l then (some (.leaf l), st) else onUnexpected vis req par loc st
  | j => onSkipped j.broken vis req par loc st

/-- `EnumValueSeed`, `enum.rs:22-81`. -/
def seedEnum (vals : Nat → Option Bool) (vis req : Bool) (par loc : List VId) (j : Json) (st : Part) :
    Option Val × Part :=
  match j with
  | .null => onNull vis req par loc st
  | .bad => (none, st)
  | .leaf l =>
    if l.str then
      match vals l.n with
      | none => onUnexpected vis req par loc st
      | some inaccessible =>
        if vis && inaccessible then
          if req then (some (.leaf l), st.propagate par loc)
          else (some (.inacc st.nextInacc), st.pushInacc (.leaf l))
        else (some (.leaf l), st)
    else onUnexpected vis req par loc st
  | j => onSkipped j.broken vis req par loc st

/-- The loop of `ListSeed::visit_seq`, `list/mod.rs:92-122`, for `NonNullIntSeedList` and
`NonNullFloatSeedList` with the element seeds of `scalar/int.rs` and `scalar/float.rs`.  An unexpected
element propagates from the path of the element and sets `encountered_unexpected_value`. -/
def packedItems (ok : Leaf → Bool) (vis : Bool) (par loc : List VId) :
    Jsons → Nat → Bool → List Leaf → Part → Option (List Leaf × Bool) × Part
  | .nil, _, unexp, acc, st => (some (acc, unexp), st)
  | .bad, _, _, _, st =>
    let reported := !st.bubbling && vis
    let st := { st with bubbling := true }
    (none, if reported then st.propagate par loc else st)
  | .cons j js, i, unexp, acc, st =>
    let bad : Option (List Leaf × Bool) × Part :=
      let reported := !st.bubbling && vis
      let st := { st with bubbling := true }
      (none, if reported then st.propagate par loc else st)
    match j with
    | .leaf l =>
      if ok l then packedItems ok vis par loc js (i + 1) unexp (acc ++ [l]) st
      else packedItems ok vis par loc js (i + 1) true (acc ++ [⟨false, 0⟩])
        (orPropagate vis true par (.packed st.id i :: loc) st)
    | j =>
      if j.broken then bad
      else packedItems ok vis par loc js (i + 1) true (acc ++ [⟨false, 0⟩])
        (orPropagate vis true par (.packed st.id i :: loc) st)

/-- `handle_shape_errors`, `object/fields.rs:405-441`, from the field shapes `fs` on. -/
def shapeErrors (par loc : List VId) : List FieldShape → Bool → List Fld → Part → Bool × List Fld × Part
  | [], done, F, st => (done, F, st)
  | f :: fs, done, F, st =>
    if f.errors = 0 then shapeErrors par loc fs done F st
    else
      let st := if !done && f.ty.required then st.propagate par loc else st
      let done := done || f.ty.required
      match F.find? (fun x => x.key = f.key) with
      | some x =>
        shapeErrors par loc fs done
          (F.map fun y => if y.key = f.key then ⟨y.key, .inacc st.nextInacc⟩ else y) (st.pushInacc x.value)
      | none => shapeErrors par loc fs done (F ++ [⟨f.key, .null⟩]) st

/-- The loop of `handle_typename_fields`, `object/fields.rs:447-487`; `F0` are the fields present
before the loop. -/
def missingLoop (par loc : List VId) (F0 : List Fld) : List FieldShape → Bool → List Fld → Part → List Fld × Part
  | [], _, F, st => (F, st)
  | f :: fs, done, F, st =>
    if f.absent then missingLoop par loc F0 fs done F st
    else if F0.any (fun x => x.key = f.key) then missingLoop par loc F0 fs done F st
    else if f.ty.required then
      if visible f.key then
        missingLoop par loc F0 fs true F (if done then st else st.propagate par loc)
      else missingLoop par loc F0 fs done F st
    else missingLoop par loc F0 fs done (F ++ [⟨f.key, .null⟩]) st

/-- `handle_typename_fields`, `object/fields.rs:443-489`: the fields the subgraph did not send. -/
def missingFields (par loc : List VId) (fs : List FieldShape) (done : Bool) (F : List Fld) (st : Part) :
    List Fld × Part :=
  if F.length < fs.length then missingLoop par loc F fs done F st else (F, st)

/-- `ObjectFields`, `object/fields.rs:77-84`. -/
inductive ObjFields where
  | null
  | some (ty : Option Nat) (F : List Fld)
  | error
  deriving DecidableEq, Repr

/-- The type of the object is known from the identifier or was detected. -/
def objTy (ident : Ident) (detected : Option Nat) : Option Nat :=
  match ident with
  | .known t => some t
  | .detect _ => detected
  | .anonymous => none

/-- `ConcreteShapeFieldsSeed::visit_map`, `object/fields.rs:116-176`, after the fields were visited. -/
def finishMap (par loc : List VId) (ident : Ident) (tns : List Key) (fs : List FieldShape)
    (detected : Option Nat) (F : List Fld) (st : Part) : ObjFields × Part :=
  match ident, detected with
  | .detect _, none => (.error, st)
  | _, _ =>
    let (done, F, st) := shapeErrors par loc fs false F st
    let (F, st) := missingFields par loc fs done F st
    match tns with
    | [] => (.some (objTy ident detected) F, st)
    | tns =>
      match objTy ident detected with
      | none => (.error, st)
      | some t => (.some (some t) (F ++ tns.map fun k => ⟨k, .leaf ⟨true, t⟩⟩), st)

/-- `ingest_object_fields`, `object/concrete.rs:83-165`. -/
def ingestObj (hid : Nat → Bool) (vis req : Bool) (par loc : List VId) (set : Option Nat) (id : Id)
    (r : ObjFields × Part) : Option Val × Part :=
  match r with
  | (.some ty F, st) =>
    let st := st.putObj id F
    match ty with
    | none => (some (.obj id), st)
    | some t =>
      let st := if vis && hid t then st.propagate par loc else st
      match set with
      | none => (some (.obj id), st)
      | some s => (some (.obj id), { st with refs := st.refs ++ [(s, ⟨id, loc ++ par, t⟩)] })
  | (.null, st) => onNull vis req par loc st
  | (.error, st) => onUnexpected vis req par loc st

/-- The field shapes still looked at: `offset += (pos == 0)`, `object/fields.rs:305` and `:361`. -/
def advance (k : Nat) : List FieldShape → List FieldShape
  | [] => []
  | f :: fs => if f.expected = k then fs else f :: fs

/-- `[Int!]` and `[Float!]`: `write/deserialize/field.rs:36-49`. -/
def packedOk (sh : Shape) (inner : Ty) : Option (Leaf → Bool) :=
  match sh, inner with
  | .scalar true ok, .base true => some ok
  | _, _ => none

/-- The names tried for `__typename`, if it is looked for. -/
def Ident.possible : Ident → Option (List Nat)
  | .detect ps => some ps
  | _ => none

mutual

/-- `FieldSeed::deserialize`, `write/deserialize/field.rs:25-112`.  `par` is the path of the parent
object, `loc` the local path, `hid` says which object types are inaccessible. -/
def seed (hid : Nat → Bool) (par : List VId) (vis : Bool) (loc : List VId) (ty : Ty) (sh : Shape) :
    Json → Part → Option Val × Part
  | j, st =>
    onErr vis par loc <|
      match ty with
      | .list req inner =>
        match packedOk sh inner with
        | some ok =>
          match j with
          | .list js =>
            match packedItems ok vis par loc js 0 false [] st with
            | (none, st) => (none, st)
            | (some (ls, unexp), st) => (some (if unexp then .unexpected else .packed ls), st)
          | j => listOther vis req par loc j st
        | none =>
          match j with
          | .list js =>
            match seedItems hid par vis loc st.nextList inner sh js 0 [] st.reserveList with
            | (none, st') => (none, st')
            | (some vs, st') => (some (.list st.nextList), st'.putList st.nextList vs)
          | j => listOther vis req par loc j st.reserveList
      | .base req =>
        match sh with
        | .scalar _ ok => seedScalar ok vis req par loc j st
        | .enum vals => seedEnum vals vis req par loc j st
        | .obj ident set tns fs =>
          match j with
          | .map es =>
            match visit hid par loc st.nextObj ident.possible es fs none [] st.reserveObj with
            | (none, st') => (none, st')
            | (some (F, detected), st') =>
              ingestObj hid vis req par loc set st.nextObj (finishMap par loc ident tns fs detected F st')
          | .null => onNull vis req par loc st.reserveObj
          | .bad => (none, st.reserveObj)
          | .leaf _ => onUnexpected vis req par loc st.reserveObj
          | .list js => onSkipped js.broken vis req par loc st.reserveObj

/-- The loop of `ListSeed::visit_seq`, `list/mod.rs:92-122`, for `ResponseValueSeedList`. -/
def seedItems (hid : Nat → Bool) (par : List VId) (vis : Bool) (loc : List VId) (id : Id) (inner : Ty) (sh : Shape) :
    Jsons → Nat → List Val → Part → Option (List Val) × Part
  | .nil, _, acc, st => (some acc, st)
  | .bad, _, _, st =>
    let reported := !st.bubbling && vis
    let st := { st with bubbling := true }
    (none, if reported then st.propagate par loc else st)
  | .cons j js, i, acc, st =>
    match seed hid par vis (.index id i (!inner.required) :: loc) inner sh j st with
    | (none, st) =>
      let reported := !st.bubbling && vis
      let st := { st with bubbling := true }
      (none, if reported then st.propagate par loc else st)
    | (some v, st) => seedItems hid par vis loc id inner sh js (i + 1) (acc ++ [v]) st

/-- `visit_fields` and `visit_fields_with_typename_detection`, `object/fields.rs:262-370`, with
`visit_field`, `:372-400`. -/
def visit (hid : Nat → Bool) (par loc : List VId) (oid : Id) (detect : Option (List Nat)) :
    Entries → List FieldShape → Option Nat → List Fld → Part → Option (List Fld × Option Nat) × Part
  | .nil, _, found, acc, st => (some (acc, found), st)
  | .bad, _, _, _, st => (none, st)
  | .cons k j es, rest, found, acc, st =>
    match rest.find? (fun f => f.expected = k) with
    | some f =>
      match seed hid par f.vis (.field oid f.key (!f.ty.required) :: loc) f.ty f.shape j st with
      | (none, st) => (none, st)
      | (some v, st) => visit hid par loc oid detect es (advance k rest) found (acc ++ [⟨f.key, v⟩]) st
    | none =>
      match detect with
      | some ps =>
        if found = none && k = typenameKey then
          match j with
          | .leaf l =>
            if l.str then
              visit hid par loc oid detect es rest (if ps.contains l.n then some l.n else none) acc st
            else (none, st)
          | _ => (none, st)
        else if j.broken then (none, st) else visit hid par loc oid detect es rest found acc st
      | none => if j.broken then (none, st) else visit hid par loc oid detect es rest found acc st

end

/-- `OnRootFieldsError`, `prepare/cached/shape/root.rs`. -/
inductive OnError where
  | propagateNull
  | default (fs : List Fld)
  | skip
  deriving DecidableEq, Repr

/-- `insert_empty_update`, `write/part.rs:77-91`; `insert_error_update`, `:136-166`, does the same
besides the errors. -/
def emptyUpdate (on : OnError) (parent : Ref) (st : Part) : Part :=
  match on with
  | .propagateNull => st.propagateParent parent.path
  | .default fs => { st with updates := st.updates ++ [.default parent.id fs] }
  | .skip => st

/-- `insert_propagated_empty_update`, `write/part.rs:123-134`. -/
def propagatedEmptyUpdate (on : OnError) (parent : Ref) (st : Part) : Part :=
  match on with
  | .propagateNull => st
  | .default fs => { st with updates := st.updates ++ [.default parent.id fs] }
  | .skip => st

/-- The concrete shape of the root fields and what to do on errors: `RootFieldsShape`. -/
structure RootShape where
  tns : List Key
  fields : List FieldShape
  onError : OnError

/-- `RootObjectSeed::deserialize`, `root/object.rs:25-76`, with the visitors of
`object/fields.rs:116-258`.  The identifier is the type of the parent object. -/
def rootSeed (hid : Nat → Bool) (shape : RootShape) (parent : Ref) (j : Json) (st : Part) : Part :=
  let st := { st with bubbling := false }
  let r : Option ObjFields × Part :=
    match j with
    | .map es =>
      match visit hid parent.path [] parent.id none es shape.fields none [] st with
      | (none, st) => (none, st)
      | (some (F, detected), st) =>
        let (o, st) := finishMap parent.path [] (.known parent.ty) shape.tns shape.fields detected F st
        (some o, st)
    | .null => (some .null, st)
    | .bad => (none, st)
    | .leaf _ => (some .error, st)
    | .list js => if js.broken then (none, st) else (some .error, st)
  match r with
  | (some (.some _ F), st) => { st with updates := st.updates ++ [.fields parent.id F] }
  | (some .null, st) => emptyUpdate shape.onError parent st
  | (some .error, st) => emptyUpdate shape.onError parent st
  | (none, st) =>
    let was := st.bubbling
    let st := { st with bubbling := true }
    if was then propagatedEmptyUpdate shape.onError parent st else emptyUpdate shape.onError parent st

/-! ## The response -/

/-- `ResponseBuilder`, `write/mod.rs:19-27`. -/
structure Response where
  parts : List Data
  root : Option Id
  deriving DecidableEq, Repr

/-- `DataParts[ResponseObjectId]`, `data.rs:87-92`; `none` is an index panic. -/
def getObj (ps : List Data) (id : Id) : Option (List Fld) := (ps[id.part]?).bind fun d => d.objs[id.ix]?

/-- `DataParts[ResponseListId]`, `data.rs:115-120`. -/
def getList (ps : List Data) (id : Id) : Option (List Val) := (ps[id.part]?).bind fun d => d.lists[id.ix]?

/-- `DataParts[ResponseInaccessibleValueId]`, `data.rs:73-78`. -/
def getInacc (ps : List Data) (id : Id) : Option Val := (ps[id.part]?).bind fun d => d.inacc[id.ix]?

/-- Write an object. -/
def setObj (ps : List Data) (id : Id) (F : List Fld) : List Data :=
  ps.modify id.part fun d => { d with objs := d.objs.set id.ix F }

/-- `ResponseBuilder::new`, `write/mod.rs:30-45`: the root is the only object of part 0. -/
def Response.new : Response := ⟨[{ objs := [[]] }], some ⟨0, 0⟩⟩

/-- `DataParts::new_part`, `data.rs:32-39`. -/
def Response.createPart (r : Response) : Response × Part :=
  ({ r with parts := r.parts ++ [{}] }, { id := r.parts.length })

/-- `root_response_object`, `write/mod.rs:75-81`. -/
def Response.rootRef (r : Response) (ty : Nat) : Option Ref := r.root.map fun id => ⟨id, [], ty⟩

/-- The loop of `recursive_merge_object`, `write/merge.rs:86-117`, over the existing fields from `i`
on, the new field and the ones after it.  The result is the parts and the fields pushed at the end of
the existing ones.  Each round takes a field from one of the lists; the first argument bounds the
number of rounds. -/
def mergeScan (mv : List Data → Val → Val → Option (List Data)) :
    Nat → List Data → List Fld → Fld → List Fld → Option (List Data × List Fld)
  | 0, _, _, _, _ => none
  | _ + 1, ps, [], d, ds => some (ps, d :: ds)
  | n + 1, ps, e :: es, d, ds =>
    match e.key.cmp d.key with
    | .lt => mergeScan mv n ps es d ds
    | .gt =>
      match ds with
      | [] => some (ps, [d])
      | d' :: ds' => (mergeScan mv n ps (e :: es) d' ds').map fun r => (r.1, d :: r.2)
    | .eq =>
      match mv ps e.value d.value with
      | none => none
      | some ps =>
        match ds with
        | [] => some (ps, [])
        | d' :: ds' => mergeScan mv n ps es d' ds'

/-- `recursive_merge_object`, `write/merge.rs:74-121`. -/
def mergeObj (mv : List Data → Val → Val → Option (List Data)) (ps : List Data) (id : Id) (new : List Fld) :
    Option (List Data) :=
  match new with
  | [] => some ps
  | d :: ds =>
    match getObj ps id with
    | none => none
    | some existing =>
      match mergeScan mv (existing.length + ds.length + 1) (setObj ps id []) existing d ds with
      | none => none
      | some (ps, pushed) => some (setObj ps id (sortBy fldLe (existing ++ pushed)))

/-- `recursive_merge_list`, `write/merge.rs:150-161`; the lists are read once. -/
def mergeList (mv : List Data → Val → Val → Option (List Data)) : List Data → List Val → List Val → Option (List Data)
  | ps, v :: vs, w :: ws =>
    match mv ps v w with
    | none => none
    | some ps => mergeList mv ps vs ws
  | ps, _, _ => some ps

/-- `recursive_merge_value`, `write/merge.rs:123-148`.  The fuel bounds the depth; `none` also is a
panic. -/
def mergeVal : Nat → List Data → Val → Val → Option (List Data)
  | 0, _, _, _ => none
  | n + 1, ps, .obj a, .obj b =>
    match getObj ps b with
    | none => none
    | some F => mergeObj (mergeVal n) (setObj ps b []) a F
  | n + 1, ps, .list a, .list b =>
    match getList ps a, getList ps b with
    | some vs, some ws => mergeList (mergeVal n) ps vs ws
    | _, _ => none
  | n + 1, ps, .inacc a, .inacc b =>
    match getInacc ps a, getInacc ps b with
    | some v, some w => mergeVal n ps v w
    | _, _ => none
  | n + 1, ps, .inacc a, w =>
    match getInacc ps a with
    | some v => mergeVal n ps v w
    | none => none
  | n + 1, ps, v, .inacc b =>
    match getInacc ps b with
    | some w => mergeVal n ps v w
    | none => none
  | _ + 1, ps, .null, .null => some ps
  | _ + 1, _, _, _ => none

/-- `DataPart::make_inaccessible`, `data.rs:243-302`; `none` is a panic. -/
def makeInacc (part : Nat) (d : Data) (v : VId) : Option Data :=
  match v with
  | .field o k _ =>
    match d.objs[o.ix]? with
    | none => none
    | some F =>
      match F.find? (fun f => f.key = k) with
      | some x =>
        some { d with
          objs := d.objs.set o.ix (F.map fun f => if f.key = k then ⟨f.key, .inacc ⟨part, d.inacc.length⟩⟩ else f)
          inacc := d.inacc ++ [x.value] }
      | none => some { d with objs := d.objs.set o.ix (insertBy fldLe ⟨k, .null⟩ F) }
  | .index l i _ =>
    match d.lists[l.ix]? with
    | none => none
    | some vs =>
      match vs[i]? with
      | none => none
      | some x =>
        some { d with
          lists := d.lists.set l.ix (vs.set i (.inacc ⟨part, d.inacc.length⟩))
          inacc := d.inacc ++ [x] }
  | .packed _ _ => none

/-- `self.data_parts[value_id.part_id()].make_inaccessible(value_id)`, `write/mod.rs:59-61`. -/
def makeInaccessible (ps : List Data) (v : VId) : Option (List Data) :=
  match ps[v.part]? with
  | none => none
  | some d => (makeInacc v.part d v).map fun d => ps.set v.part d

/-- The loop over `propagated_null_at`, `write/mod.rs:110-112`. -/
def makeAll : List Data → List VId → Option (List Data)
  | ps, [] => some ps
  | ps, v :: vs =>
    match makeInaccessible ps v with
    | none => none
    | some ps => makeAll ps vs

/-- The loop over `object_updates`, `write/mod.rs:94-105`; `write/merge.rs:11-72` for the defaults. -/
def applyUpdates (fuel : Nat) : List Data → List Update → Option (List Data)
  | ps, [] => some ps
  | ps, .fields id F :: us =>
    match mergeObj (mergeVal fuel) ps id (sortBy fldLe F) with
    | none => none
    | some ps => applyUpdates fuel ps us
  | ps, .default id F :: us =>
    match F with
    | [] => applyUpdates fuel ps us
    | F =>
      match getObj ps id with
      | none => none
      | some existing =>
        applyUpdates fuel (setObj ps id (sortBy fldLe (DefaultMerge.mergeDefaults existing F))) us

/-- `ResponseBuilder::ingest`, `write/mod.rs:83-122`. -/
def ingest (fuel : Nat) (r : Response) (p : Part) : Option Response :=
  let ps := r.parts.set p.id p.data
  if p.toRoot then some ⟨ps, none⟩
  else
    match applyUpdates fuel ps p.updates with
    | none => none
    | some ps => (makeAll ps p.nullAt).map fun ps => ⟨ps, r.root⟩

/-- A plan of root fields: a part is created, the subgraph response is read, the part is ingested.
`execution/operation/coordinator.rs:393-415` gives the plan the root object as parent if there still
is one. -/
def runPlan (hid : Nat → Bool) (ty fuel : Nat) (p : RootShape × Json) (r : Response) : Option Response :=
  match r.rootRef ty with
  | none => some r
  | some ref => ingest fuel r.createPart.1 (rootSeed hid p.1 ref p.2 r.createPart.2)

/-- The plans of root fields, one after the other. -/
def runPlans (hid : Nat → Bool) (ty fuel : Nat) : List (RootShape × Json) → Response → Option Response
  | [], r => some r
  | p :: ps, r =>
    match runPlan hid ty fuel p r with
    | none => none
    | some r => runPlans hid ty fuel ps r

/-! ## Serialisation -/

/-- What the client receives. -/
inductive Out where
  | null
  | leaf (l : Leaf)
  | list (os : List Out)
  | obj (fs : List (Nat × Out))

/-- `SerializableResponseValue`, `SerializableResponseList` and `SerializableResponseObject`,
`read/ser/data.rs:32-126`; the fields without position come first and are skipped.  `none` is an
index panic or too little fuel. -/
def showVal : Nat → List Data → Val → Option Out
  | 0, _, _ => none
  | n + 1, ps, v =>
    match v with
    | .null => some .null
    | .unexpected => some .null
    | .inacc _ => some .null
    | .leaf l => some (.leaf l)
    | .packed ls => some (.list (ls.map .leaf))
    | .list id => (getList ps id).bind fun vs => (vs.mapM fun v => showVal n ps v).map .list
    | .obj id =>
      (getObj ps id).bind fun F =>
        ((F.dropWhile fun f => !visible f.key).mapM fun f =>
          (showVal n ps f.value).map fun o => (f.key.key, o)).map .obj

/-- `ResponseData`, `write/mod.rs:142-145`: `null` if there is no root. -/
def Response.show (fuel : Nat) (r : Response) : Option Out :=
  match r.root with
  | none => some .null
  | some id => showVal fuel r.parts (.obj id)

end Verif.NullProp
