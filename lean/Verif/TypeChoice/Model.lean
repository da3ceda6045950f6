/-!
# Objects of subgraph responses: which shape they are read with

* `crates/engine/src/response/write/deserialize/object/polymorphic.rs` (all of it): an object whose type has a shape of its own
* `crates/engine/src/response/write/deserialize/object/fields.rs` lines 106 to 174 and 297 to 419: the fields of an object
* `crates/engine/src/response/write/deserialize/object/concrete.rs` lines 73 to 164
* `crates/engine/src/response/write/deserialize/key.rs`: a key or a name, borrowed from the text or not

How nulls in required positions are propagated and which errors are pushed is the subject of C10 (`Verif.NullProp`), how a leaf
is read that of C79 (`Verif.Leaves`). Here it is which fields an object has in the response and where their values are from.

Simplifications: a leaf is kept as it is; a JSON value is whole (the parser does not fail within it). A failure which ends the
reading is `none`. A text is `borrowed` when a `&str` of it can be had: it has no escapes and is not read from a value in
memory. The value of an entry before `__typename` is kept in memory by the polymorphic shape: so no text in it is borrowed. This
is the argument `kept`. The names of object definitions are different, and stand for them. A response key with its position is
a number, the fields of an object being sorted by it. No field is absent because of the modifications of the query, and there
are no derived fields.
-/
namespace Verif.TypeChoice

abbrev Name := String

/-- The name under which a subgraph tells the type of an object. -/
def typenameKey : Name := "__typename"

inductive Json where
  | null
  | text (s : Name) (borrowed : Bool)
  | other (n : Nat)
  | list (items : List Json)
  | map (entries : List (Name × Json))

/-- `ObjectIdentifier`, with the possible types of the union or the interface. -/
inductive Ident where
  | known (type : Name)
  | detect (possible : List Name)
  | anonymous

mutual
inductive Shape where
  | leaf
  | list (item : Shape)
  | concrete (c : Concrete)
  | poly (possibilities : List (Name × Concrete)) (fallback : Option Concrete)
/-- `ConcreteShapeRecord`: with the keys of `__typename` fields. -/
inductive Concrete where
  | mk (ident : Ident) (typenames : List Nat) (fields : List Field)
/-- `FieldShapeRecord`. -/
inductive Field where
  | mk (key : Nat) (expected : Name) (required : Bool) (shape : Shape)
end

def Field.key : Field → Nat | .mk k _ _ _ => k
def Field.expected : Field → Name | .mk _ e _ _ => e
def Field.required : Field → Bool | .mk _ _ r _ => r
def Field.shape : Field → Shape | .mk _ _ _ s => s

def Concrete.ident : Concrete → Ident | .mk i _ _ => i
def Concrete.typenames : Concrete → List Nat | .mk _ t _ => t
def Concrete.fields : Concrete → List Field | .mk _ _ f => f

/-- What is in the response. -/
inductive Val where
  | null
  | unexpected
  | leaf (j : Json)
  | typename (n : Name)
  | list (items : List Val)
  | object (type : Option Name) (fields : List (Nat × Val))

/-- The names of the type definitions of the schema: whether it is one of an object. -/
abbrev Types := Name → Option Bool

/-- How a value is read: with a shape, and from memory or not. -/
abbrev Reader := Shape → Bool → Option Val

/-- An entry of an object, with the way to read its value. -/
structure Entry where
  key : Name
  value : Json
  read : Reader
  kept : Bool

/-- Sorting by key (`ResponseObject::new`). -/
def insertField (f : Nat × Val) : List (Nat × Val) → List (Nat × Val)
  | [] => [f]
  | g :: gs => if f.1 ≤ g.1 then f :: g :: gs else g :: insertField f gs

def sortFields : List (Nat × Val) → List (Nat × Val)
  | [] => []
  | f :: fs => insertField f (sortFields fs)

/-! ## Concrete shapes -/

/-- The position of the field a key is expected for. -/
def position : List Field → Name → Option (Nat × Field)
  | [], _ => none
  | f :: fs, k => if f.expected = k then some (0, f) else (position fs k).map (fun p => (p.1 + 1, p.2))

/-- A name read as `&str`. -/
def asStr (e : Entry) : Option Name :=
  match e.value with
  | .text s borrowed => if borrowed && !e.kept then some s else none
  | _ => none

/-- `visit_fields` (fields.rs:346-383). -/
def visitFields (fields : List Field) : Nat → List Entry → List (Nat × Val) → Option (List (Nat × Val))
  | _, [], acc => some acc
  | offset, e :: es, acc =>
    match position (fields.drop offset) e.key with
    | some (pos, f) =>
      match e.read f.shape e.kept with
      | none => none
      | some v => visitFields fields (if pos = 0 then offset + 1 else offset) es (acc ++ [(f.key, v)])
    | none => visitFields fields offset es acc

/-- `visit_fields_with_typename_detection` (fields.rs:297-344). -/
def visitDetect (possible : List Name) (fields : List Field) :
    Nat → List Entry → Option Name → List (Nat × Val) → Option (Option Name × List (Nat × Val))
  | _, [], type, acc => some (type, acc)
  | offset, e :: es, type, acc =>
    match position (fields.drop offset) e.key with
    | some (pos, f) =>
      match e.read f.shape e.kept with
      | none => none
      | some v => visitDetect possible fields (if pos = 0 then offset + 1 else offset) es type (acc ++ [(f.key, v)])
    | none =>
      if type.isNone && decide (e.key = typenameKey) then
        match asStr e with
        | none => none
        | some n => visitDetect possible fields offset es (if possible.contains n then some n else none) acc
      else visitDetect possible fields offset es type acc

/-- The fields which were not there (fields.rs:443-489). -/
def missingFields (fields : List Field) (acc : List (Nat × Val)) : List (Nat × Val) :=
  if acc.length < fields.length then
    (fields.filter (fun f => !acc.any (fun x => decide (x.1 = f.key)) && !f.required)).map (fun f => (f.key, Val.null))
  else []

/-- The rest of `visit_map` (fields.rs:152-174) and `ingest_object_fields` (concrete.rs:87-128, 149-163). -/
def finish (c : Concrete) (type : Option Name) (acc : List (Nat × Val)) : Val :=
  let fields := acc ++ missingFields c.fields acc
  if c.typenames.isEmpty then .object type (sortFields fields)
  else
    match type with
    | none => .unexpected
    | some n => .object type (sortFields (fields ++ c.typenames.map (fun k => (k, Val.typename n))))

/-- `ConcreteShapeFieldsSeed::visit_map` (fields.rs:114-174). -/
def readConcrete (c : Concrete) (known : Option Name) (es : List Entry) : Option Val :=
  match (match known with | some n => Ident.known n | none => c.ident) with
  | .known n => (visitFields c.fields 0 es []).map (finish c (some n))
  | .anonymous => (visitFields c.fields 0 es []).map (finish c none)
  | .detect possible =>
    match visitDetect possible c.fields 0 es none [] with
    | none => none
    | some (none, _) => some .unexpected
    | some (some n, acc) => some (finish c (some n) acc)

/-! ## Polymorphic shapes -/

/-- `serde_value::Value` of the entries before (polymorphic.rs:180-182). -/
def keep (e : Entry) : Entry := { e with kept := true }

/-- With the type of the object known (polymorphic.rs:98-178). -/
def choose (types : Types) (possibilities : List (Name × Concrete)) (fallback : Option Concrete) (n : Name) (es : List Entry) :
    Option Val :=
  if types n = some true then
    match possibilities.find? (fun p => decide (p.1 = n)) with
    | some p => readConcrete p.2 (some n) es
    | none =>
      match fallback with
      | some c =>
        match c.ident with
        | .detect possible => if possible.contains n then readConcrete c (some n) es else some .unexpected
        | _ => readConcrete c (some n) es
      | none => some (.object (some n) [])
  else some .unexpected

/-- `PolymorphicShapeSeed::visit_map` (polymorphic.rs:87-205), with the entries before. -/
def readPoly (types : Types) (possibilities : List (Name × Concrete)) (fallback : Option Concrete) :
    List Entry → List Entry → Option Val
  | _, [] => some .unexpected
  | before, e :: es =>
    if e.key = typenameKey then
      match e.value with
      | .text n _ => choose types possibilities fallback n (before ++ es)
      | _ => none
    else readPoly types possibilities fallback (before ++ [keep e]) es

/-! ## Values -/

def readLeaf (j : Json) : Reader := fun s _ =>
  match s with
  | .leaf => some (.leaf j)
  | _ => some .unexpected

def readNull : Reader := fun _ _ => some .null

def readItems (s : Shape) (kept : Bool) : List Reader → Option (List Val)
  | [] => some []
  | r :: rs =>
    match r s kept with
    | none => none
    | some v => (readItems s kept rs).map (v :: ·)

def readList (rs : List Reader) : Reader := fun s kept =>
  match s with
  | .list item => (readItems item kept rs).map Val.list
  | _ => some .unexpected

def readMap (types : Types) (es : List (Name × Json × Reader)) : Reader := fun s kept =>
  match s with
  | .concrete c => readConcrete c none (es.map (fun e => ⟨e.1, e.2.1, e.2.2, kept⟩))
  | .poly ps fb => readPoly types ps fb [] (es.map (fun e => ⟨e.1, e.2.1, e.2.2, kept⟩))
  | _ => some .unexpected

mutual
/-- Reading a value (`FieldSeed`, field.rs:25-92). -/
def read (types : Types) : Json → Reader
  | .null => readNull
  | .text s b => readLeaf (.text s b)
  | .other n => readLeaf (.other n)
  | .list items => readList (readers types items)
  | .map es => readMap types (entryReaders types es)

def readers (types : Types) : List Json → List Reader
  | [] => []
  | j :: js => read types j :: readers types js

def entryReaders (types : Types) : List (Name × Json) → List (Name × Json × Reader)
  | [] => []
  | (n, j) :: es => (n, j, read types j) :: entryReaders types es
end

end Verif.TypeChoice
