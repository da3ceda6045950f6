/-!
# Derived entities

Fields of an object of a subgraph response can be the key of an entity: `{ authorId }` has the object `author { id }`, and
`{ tagIds }` the list `tags { id }`. These objects are made while the response is read.

* `crates/engine/src/response/write/deserialize/object/derive.rs` (all of it)
* `crates/engine/src/response/write/deserialize/object/fields.rs` lines 423 to 577: what is done with the fields of an object which
  was read: errors of the query, fields that are missing, derived fields
* `crates/engine/src/response/write/deserialize/field.rs` lines 32 to 63: how a list is kept
* `crates/engine/src/response/write/part.rs` lines 49 to 71: `propagate_null`
* `crates/engine/src/response/data.rs` lines 243 to 303: `make_inaccessible`

Simplifications: positions of errors in the text and messages are left out; a path of the parent and the local one are one path,
since `propagate_null` looks for the last nullable value in the latter first. Lists and objects that are taken out of the data
while a list is gone through, and put back, stay there: nothing is read from them in the meantime. `unreachable!`, `unwrap` on
nothing and an index out of bounds are a panic, `none`.
-/
namespace Verif.Derived

/-- `PositionedResponseKey`. -/
structure Key where
  pos : Option Nat
  name : Nat
deriving DecidableEq

/-- `ResponseValue`. -/
inductive Value where
  | null
  | unexpected
  | scalar (n : Nat)
  | typename (n : Nat)
  | inaccessible (id : Nat)
  | object (id : Nat)
  | list (id : Nat)
  /-- `IntList` and `FloatList`. -/
  | numbers (id : Nat)
deriving DecidableEq

/-- `ResponseObjectField`. -/
structure RField where
  key : Key
  value : Value
deriving DecidableEq

/-- `ResponseObject`. -/
structure Obj where
  type : Option Nat
  fields : List RField
deriving DecidableEq

/-- `ResponseValueId`. -/
inductive Seg where
  | field (object : Nat) (key : Key) (nullable : Bool)
  | index (list : Nat) (index : Nat) (nullable : Bool)
deriving DecidableEq

def Seg.isNullable : Seg → Bool
  | .field _ _ n => n
  | .index _ _ n => n

abbrev Path := List Seg

inductive Kind where
  | query (error : Nat)
  | invalidResponse
deriving DecidableEq

/-- An error at a path, with the key of a field beneath it. -/
structure Err where
  kind : Kind
  path : Path
  key : Option Nat
deriving DecidableEq

/-- `ResponseObjectRef` in a set. -/
structure Ref where
  set : Nat
  object : Nat
  path : Path
  type : Nat
deriving DecidableEq

/-- `ResponsePartBuilder`. -/
structure St where
  objects : List Obj
  lists : List (List Value)
  hidden : List Value
  errors : List Err
  nulls : List Seg
  root : Bool
  refs : List Ref
deriving DecidableEq

/-! ## The part -/

/-- `Ord` of `PositionedResponseKey`: a key without a position is first. -/
def Key.le (a b : Key) : Bool :=
  match a.pos, b.pos with
  | none, none => decide (a.name ≤ b.name)
  | none, some _ => true
  | some _, none => false
  | some p, some q => decide (p < q) || (decide (p = q) && decide (a.name ≤ b.name))

def insertKey (f : RField) : List RField → List RField
  | [] => [f]
  | g :: gs => if f.key.le g.key then f :: g :: gs else g :: insertKey f gs

/-- `ResponseObject::new`. -/
def sortKeys : List RField → List RField
  | [] => []
  | f :: fs => insertKey f (sortKeys fs)

/-- `propagate_null`. -/
def propagate (path : Path) (st : St) : St :=
  match path.reverse.find? Seg.isNullable with
  | some s => { st with nulls := st.nulls ++ [s] }
  | none => { st with root := true }

def pushError (e : Err) (st : St) : St := { st with errors := st.errors ++ [e] }

def pushObject (o : Obj) (st : St) : Nat × St := (st.objects.length, { st with objects := st.objects ++ [o] })

def pushList (l : List Value) (st : St) : Nat × St := (st.lists.length, { st with lists := st.lists ++ [l] })

def setAt {α : Type} : List α → Nat → α → List α
  | [], _, _ => []
  | _ :: xs, 0, y => y :: xs
  | x :: xs, n + 1, y => x :: setAt xs n y

/-- `make_inaccessible` for an item of a list (data.rs:282-298). -/
def hideItem (st : St) (list index : Nat) : Option St :=
  match st.lists[list]? with
  | none => none
  | some l =>
    match l[index]? with
    | none => none
    | some v => some { st with
        lists := setAt st.lists list (setAt l index (.inaccessible st.hidden.length))
        hidden := st.hidden ++ [v] }

/-! ## Shapes -/

/-- A field of a derived entity: `FieldShapeRecord`. -/
structure DField where
  id : Nat
  key : Key
  expected : Nat
  nonNull : Bool
  /-- `should_report_error_for`: it is in the response. -/
  report : Bool
  /-- `as_derive_from_query_position().is_some()`: the field it is from was asked for by the user. -/
  fromAsked : Bool
  /-- `is_derive_from_scalar`. -/
  scalar : Bool
deriving DecidableEq

structure Batch where
  key : Key
  innerRequired : Bool
deriving DecidableEq

/-- `DerivedEntityShapeRecord`. -/
structure Shape where
  set : Option Nat
  type : Option Nat
  batch : Option Batch
  typenames : List Key
  fields : List DField
deriving DecidableEq

/-- The field for a derived entity. -/
structure Outer where
  id : Nat
  key : Key
  nonNull : Bool
  report : Bool
  /-- `!is_absent`. -/
  present : Bool
  shape : Shape
deriving DecidableEq

/-- `field_shape_id_to_error_ids`: sorted by the field. -/
abbrev Table := List (Nat × Nat)

/-! ## `derive.rs` -/

/-- The loop on the errors for a field (derive.rs:284-307): those for it, and the rest. -/
def takeErrors (id : Nat) : Table → List Nat × Table
  | [] => ([], [])
  | (i, e) :: t =>
    if i < id then takeErrors id t
    else if i = id then
      let r := takeErrors id t
      (e :: r.1, r.2)
    else ([], (i, e) :: t)

/-- `partition_point` (derive.rs:281). -/
def skipErrors (id : Nat) (t : Table) : Table := t.dropWhile (fun x => decide (x.1 < id))

def pushErrors (path : Path) (key : Nat) (nonNull : Bool) : List Nat → St → St
  | [], st => st
  | e :: es, st =>
    let st := pushError ⟨.query e, path, some key⟩ st
    pushErrors path key nonNull es (if nonNull then propagate path st else st)

/-- The value with a response key. -/
def lookup (src : List RField) (n : Nat) : Option Value :=
  (src.find? (fun f => decide (f.key.name = n))).map RField.value

/-- The part of `handle_object_derive` for the source of a field (derive.rs:309-362). -/
def deriveField (path : Path) (f : DField) (src : List RField) (acc : List RField) (isNull : Bool) (st : St) : List RField × Bool × St :=
  match lookup src f.expected with
  | some .null => (acc ++ [⟨f.key, .null⟩], isNull, st)
  | some .unexpected =>
    let st := if f.report then
        let st := if f.fromAsked then st else pushError ⟨.invalidResponse, path, some f.key.name⟩ st
        if f.nonNull then propagate path st else st
      else st
    (acc ++ [⟨f.key, .unexpected⟩], isNull, st)
  | some v => (acc ++ [⟨f.key, v⟩], false, st)
  | none =>
    if f.report then (acc, isNull, pushError ⟨.invalidResponse, path, some f.key.name⟩ (propagate path st))
    else (acc, isNull, st)

def deriveFields (path : Path) (src : List RField) : List DField → Table → List RField → Bool → St → List RField × Bool × St
  | [], _, acc, isNull, st => (acc, isNull, st)
  | f :: fs, table, acc, isNull, st =>
    let r := takeErrors f.id table
    let st := pushErrors path f.key.name f.nonNull r.1 st
    let d := deriveField path f src acc isNull st
    deriveFields path src fs r.2 d.1 d.2.1 d.2.2

/-- The object of an entity is made known to the plans that need it (derive.rs:376-388). -/
def pushRef (shape : Shape) (path : Path) (id : Nat) (st : St) : Option St :=
  match shape.set with
  | none => some st
  | some s =>
    match shape.type with
    | none => none
    | some t => some { st with refs := st.refs ++ [⟨s, id, path, t⟩] }

/-- The fields for `__typename` (derive.rs:367-375, 168-177). -/
def typenameFields (shape : Shape) : Option (List RField) :=
  if shape.typenames.isEmpty then some []
  else
    match shape.type with
    | none => none
    | some t => some (shape.typenames.map (fun k => ⟨k, .typename t⟩))

def makeObject (shape : Shape) (path : Path) (fields : List RField) (st : St) : Option (Value × St) :=
  match typenameFields shape with
  | none => none
  | some ts =>
    let p := pushObject ⟨shape.type, sortKeys (fields ++ ts)⟩ st
    (pushRef shape path p.1 p.2).map (fun st => (.object p.1, st))

/-- The first of the fields. -/
def firstId : List DField → Nat
  | [] => 0
  | f :: _ => f.id

/-- `handle_object_derive` (derive.rs:268-391). -/
def objectDerive (table : Table) (shape : Shape) (path : Path) (nullable : Bool) (src : List RField) (st : St) : Option (Value × St) :=
  let r := deriveFields path src shape.fields (skipErrors (firstId shape.fields) table) [] true st
  if r.2.1 && nullable then some (.null, r.2.2) else makeObject shape path r.1 r.2.2

/-- What is done with an unexpected item or list (derive.rs:72-89, 146-163, 229-246). -/
def unexpectedAt (o : Outer) (b : Batch) (path : Path) (nullable : Bool) (st : St) : St :=
  if o.report then
    let st := if b.key.pos.isNone then pushError ⟨.invalidResponse, path, none⟩ st else st
    if nullable then st else propagate path st
  else st

/-- An item of `handle_derive_object_list` (derive.rs:222-260). -/
def objectItem (table : Table) (o : Outer) (b : Batch) (path : Path) (v : Value) (st : St) : Option (Value × St) :=
  match v with
  | .null => some (.null, st)
  | .unexpected => some (.unexpected, unexpectedAt o b path (!b.innerRequired) st)
  | .object id =>
    match st.objects[id]? with
    | none => none
    | some obj => objectDerive table o.shape path (!b.innerRequired) obj.fields st
  | _ => none

/-- An item of `handle_derive_scalar_list` (derive.rs:139-202). -/
def scalarItem (o : Outer) (b : Batch) (path : Path) (key : Key) (v : Value) (st : St) : Option (Value × St) :=
  match v with
  | .null => some (.null, st)
  | .unexpected => some (.unexpected, unexpectedAt o b path (!b.innerRequired) st)
  | v => makeObject o.shape path [⟨key, v⟩] st

/-- The loops on the items (derive.rs:136-204, 218-262). -/
def items (read : Path → Value → St → Option (Value × St)) (nullable : Bool) (path : Path) (list : Nat) :
    Nat → List Value → St → Option (List Value × St)
  | _, [], st => some ([], st)
  | i, v :: vs, st =>
    match read (path ++ [.index list i nullable]) v st with
    | none => none
    | some (w, st) => (items read nullable path list (i + 1) vs st).map (fun r => (w :: r.1, r.2))

/-- `find_all`. -/
def findAll (id : Nat) (t : Table) : List Nat := (t.filter (fun x => decide (x.1 = id))).map (·.2)

/-- The errors of `handle_derive_scalar_list`, at the first item (derive.rs:116-135). -/
def scalarErrors (table : Table) (b : Batch) (path : Path) (list : Nat) (f : DField) (vs : List Value) (st : St) : St :=
  if vs.isEmpty then st
  else pushErrors (path ++ [.index list 0 (!b.innerRequired)]) f.key.name f.nonNull (findAll f.id table) st

/-- The items of a list, by the kind of the shape (derive.rs:92-97). -/
def deriveItems (table : Table) (o : Outer) (b : Batch) (path : Path) (list : Nat) (vs : List Value) (st : St) : Option (List Value × St) :=
  match o.shape.fields.find? (fun f => f.scalar) with
  | some f => items (fun p => scalarItem o b p f.key) (!b.innerRequired) path list 0 vs (scalarErrors table b path list f vs st)
  | none => items (objectItem table o b) (!b.innerRequired) path list 0 vs st

/-- `handle_list_derive` (derive.rs:65-105). -/
def listDerive (table : Table) (o : Outer) (b : Batch) (path : Path) (v : Value) (st : St) : Option (Value × St) :=
  match v with
  | .null => some (.null, st)
  | .unexpected => some (.unexpected, unexpectedAt o b path (!o.nonNull) st)
  | .list id =>
    match st.lists[id]? with
    | none => none
    | some vs =>
      (deriveItems table o b path id vs st).map (fun r =>
        let p := pushList r.1 r.2
        (.list p.1, p.2))
  | _ => none

/-- `ingest` (derive.rs:23-47). -/
def ingest (table : Table) (o : Outer) (path : Path) (parent : Nat) (fields : List RField) (st : St) : Option (List RField × St) :=
  let at_ := path ++ [.field parent o.key (!o.nonNull)]
  let r := match o.shape.batch with
    | some b => listDerive table o b at_ ((lookup fields b.key.name).getD .null) st
    | none => objectDerive table o.shape at_ (!o.nonNull) fields st
  r.map (fun r => (fields ++ [⟨o.key, r.1⟩], r.2))

/-! ## `fields.rs` -/

/-- A field that is read from the response. -/
structure Plain where
  id : Nat
  key : Key
  nonNull : Bool
  present : Bool
deriving DecidableEq

/-- `handle_derive_fields` (fields.rs:518-577). -/
def deriveAll (path : Path) (parent : Nat) : List Outer → Table → Table → List RField → St → Option (List RField × St)
  | [], _, _, fields, st => some (fields, st)
  | o :: os, table, rest, fields, st =>
    let r := takeErrors o.id rest
    let st := pushErrors path o.key.name o.nonNull r.1 st
    if o.present then
      match ingest table o path parent fields st with
      | none => none
      | some (fields, st) => deriveAll path parent os table r.2 fields st
    else deriveAll path parent os table r.2 fields st

def handleDerived (path : Path) (parent : Nat) (os : List Outer) (table : Table) (fields : List RField) (st : St) :
    Option (List RField × St) :=
  match os with
  | [] => some (fields, st)
  | o :: _ => deriveAll path parent os table (skipErrors o.id table) fields st

/-- The missing fields (`handle_typename_fields`, fields.rs:474-516): `n` is the number of fields there were. -/
def missing (path : Path) (had : List RField) : List Plain → Bool → List RField → St → List RField × St
  | [], _, fields, st => (fields, st)
  | p :: ps, propagated, fields, st =>
    if p.present && !had.any (fun f => decide (f.key = p.key)) then
      if p.nonNull then
        if p.key.pos.isSome then
          let st := if propagated then st else propagate path st
          missing path had ps true fields (pushError ⟨.invalidResponse, path, some p.key.name⟩ st)
        else missing path had ps propagated fields st
      else missing path had ps propagated (fields ++ [⟨p.key, .null⟩]) st
    else missing path had ps propagated fields st

def handleMissing (path : Path) (ps : List Plain) (propagated : Bool) (fields : List RField) (st : St) : List RField × St :=
  if fields.length < ps.length then missing path fields ps propagated fields st else (fields, st)

/-- The first field with a key has another value. -/
def setFirst (k : Key) (v : Value) : List RField → List RField
  | [] => []
  | f :: fs => if f.key = k then ⟨f.key, v⟩ :: fs else f :: setFirst k v fs

/-- The field with a key is hidden, or null if there is none (fields.rs:455-466). -/
def hideField (k : Key) (fields : List RField) (st : St) : List RField × St :=
  match fields.find? (fun f => decide (f.key = k)) with
  | some f =>
    (setFirst k (.inaccessible st.hidden.length) fields, { st with hidden := st.hidden ++ [f.value] })
  | none => (fields ++ [⟨k, .null⟩], st)

/-- The errors of one field (fields.rs:443-454). -/
def shapeErrors (path : Path) (key : Nat) (nonNull : Bool) : List Nat → Bool → St → Bool × St
  | [], propagated, st => (propagated, st)
  | e :: es, propagated, st =>
    let st := pushError ⟨.query e, path, some key⟩ st
    if !propagated && nonNull then shapeErrors path key nonNull es true (propagate path st)
    else shapeErrors path key nonNull es propagated st

/-- `handle_shape_errors` (fields.rs:434-472), for `(id, key, nonNull)` of all fields. -/
def handleErrors (path : Path) (table : Table) : List (Nat × Key × Bool) → Bool → List RField → St → Bool × List RField × St
  | [], propagated, fields, st => (propagated, fields, st)
  | (id, key, nonNull) :: fs, propagated, fields, st =>
    let es := findAll id table
    let r := shapeErrors path key.name nonNull es propagated st
    let h := if es.isEmpty then (fields, r.2) else hideField key fields r.2
    handleErrors path table fs r.1 h.1 h.2

/-- `finalize_deserialized_object_fields` (fields.rs:423-432). -/
def finalize (path : Path) (parent : Nat) (table : Table) (hasError : Bool) (ps : List Plain) (os : List Outer) (fields : List RField)
    (st : St) : Option (List RField × St) :=
  let r := if hasError then
      handleErrors path table (ps.map (fun p => (p.id, p.key, p.nonNull)) ++ os.map (fun o => (o.id, o.key, o.nonNull))) false fields st
    else (false, fields, st)
  let m := handleMissing path ps r.1 r.2.1 r.2.2
  handleDerived path parent os table m.1 m.2

/-- How the items of a list of scalars are kept (field.rs:32-63): `number` for `Int` and `Float`. -/
def keepList (number itemRequired : Bool) (vs : List Value) (st : St) : Value × St :=
  if number && itemRequired then (.numbers 0, st)
  else
    let p := pushList vs st
    (.list p.1, p.2)

end Verif.Derived
