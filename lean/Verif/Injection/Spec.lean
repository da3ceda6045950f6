import Verif.Injection.Model

/-!
# Values of types

What it means for a value of the response to be of an output type, and for JSON to be of an input type.
-/

namespace Verif.Injection

open Verif.Views (Out Item Data Val Obj Json forward)

def Def.isLeaf : Def → Bool
  | .scalar _ => true
  | .enum _ => true
  | _ => false

/-- The fields of an input object that the subgraph knows. -/
def known (S : Schema) (subgraph id : Nat) : List Nat :=
  (S.inputFields id).filter fun i => (S.input i).internal = none ∨ (S.input i).internal = some subgraph

/-- The objects of the response are of type `d`. `leaf` says which JSON values are values of a scalar or an
enum. An object has every required field that one of the types it belongs to has. -/
inductive ValOk (S : Schema) (leaf : Def → Json → Prop) : Def → Wrap → List (Item Data) → Val → Prop where
  | null (d : Def) (w : Wrap) (reqs : List (Item Data)) (h : w.isNonNull = false) : ValOk S leaf d w reqs .null
  | unexpected (d : Def) (w : Wrap) (reqs : List (Item Data)) : ValOk S leaf d w reqs .unexpected
  | inaccessible (d : Def) (w : Wrap) (reqs : List (Item Data)) (v : Val) (h : ValOk S leaf d w reqs v) :
      ValOk S leaf d w reqs (.inaccessible v)
  | list (d : Def) (r : Bool) (w : Wrap) (reqs : List (Item Data)) (vs : List Val)
      (h : ∀ v ∈ vs, ValOk S leaf d w reqs v) : ValOk S leaf d (.list r w) reqs (.list vs)
  | scalar (d : Def) (r : Bool) (reqs : List (Item Data)) (v : Val) (hd : d.isLeaf = true)
      (h : ∀ k j, forward k v = .ok j → leaf d j) : ValOk S leaf d (.named r) reqs v
  | object (d : Def) (r : Bool) (reqs : List (Item Data)) (o : Obj) (t : Nat) (hd : d.isComposite = true)
      (ht : t ∈ possible S d)
      (there : ∀ i ∈ reqs, ∀ e fs, fieldsOf S e = some fs → i.id ∈ fs → t ∈ possible S e →
        (o.find i.data.key).isSome = true)
      (typed : ∀ i ∈ reqs, ∀ v, o.find i.data.key = some v →
        ValOk S leaf (S.fieldTy i.id).definition (S.fieldTy i.id).wrap i.sub v) :
      ValOk S leaf d (.named r) reqs (.object o.definition o.fields)

/-- JSON of an input type, as the subgraph knows it. A `@oneOf` object has one entry, which is not null. -/
inductive Admits (S : Schema) (leaf : Def → Json → Prop) (subgraph : Nat) : Def → Wrap → Json → Prop where
  | null (d : Def) (w : Wrap) (h : w.isNonNull = false) : Admits S leaf subgraph d w .null
  | list (d : Def) (r : Bool) (w : Wrap) (js : List Json) (h : ∀ j ∈ js, Admits S leaf subgraph d w j) :
      Admits S leaf subgraph d (.list r w) (.list js)
  | scalar (d : Def) (r : Bool) (j : Json) (hd : d.isLeaf = true) (h : leaf d j) : Admits S leaf subgraph d (.named r) j
  | object (id : Nat) (r : Bool) (es : List (String × Json)) (ids : String → Nat)
      (distinct : (es.map (·.1)).Nodup)
      (field : ∀ e ∈ es, ids e.1 ∈ known S subgraph id ∧ (S.input (ids e.1)).name = e.1)
      (typed : ∀ e ∈ es, Admits S leaf subgraph (S.input (ids e.1)).ty.definition (S.input (ids e.1)).ty.wrap e.2)
      (required : ∀ i ∈ known S subgraph id, (S.input i).default = none → (S.input i).ty.wrap.isNonNull = true →
        (S.input i).name ∈ es.map (·.1))
      (one : S.oneOf id = true → ∃ e, es = [e] ∧ e.2 ≠ .null) :
      Admits S leaf subgraph (.input id) (.named r) (.obj es)

/-- What is assumed of a schema: the fields of an input object have distinct names and ids, a default is a
value of its type, a `@oneOf` object has no defaults, and null is not a value of a scalar. -/
structure Schema.Ok (S : Schema) (leaf : Def → Json → Prop) : Prop where
  ids : ∀ id, (S.inputFields id).Nodup
  names : ∀ id, ∀ i ∈ S.inputFields id, ∀ j ∈ S.inputFields id, (S.input i).name = (S.input j).name → i = j
  defaults : ∀ subgraph i j, (S.input i).default = some j →
    Admits S leaf subgraph (S.input i).ty.definition (S.input i).ty.wrap j
  oneOf : ∀ id, S.oneOf id = true → ∀ i ∈ S.inputFields id, (S.input i).default = none
  leaf : ∀ d, ¬ leaf d .null

/-! ## Selections for which the checks of the builder suffice -/

/-- A type condition that all objects meet. -/
def Always (S : Schema) (d : Def) (ty : Option String) : Prop :=
  ∀ d', condition S d ty = .ok d' → ∀ t ∈ possible S d, t ∈ possible S d'

/-- Nothing but the last field of the path is a list, and its type conditions are always met. -/
def CleanSegments (S : Schema) (d : Def) : List Segment → Prop
  | [] => True
  | seg :: segs =>
    ∀ ids f d', fieldsOf S d = some ids → ids.find? (fun f => S.fieldName f == seg.field) = some f →
      condition S (S.fieldTy f).definition seg.ty = .ok d' →
        (segs ≠ [] → (S.fieldTy f).wrap.isList = false) ∧ Always S (S.fieldTy f).definition seg.ty ∧
        CleanSegments S d' segs

def CleanPath (S : Schema) (source : Ty) (p : Path) : Prop :=
  p.segments ≠ [] ∧ Always S source.definition p.ty ∧
  ∀ d, condition S source.definition p.ty = .ok d → CleanSegments S d p.segments

def CleanPathOpt (S : Schema) (source : Ty) : Option Path → Prop
  | none => True
  | some p => CleanPath S source p

/-- The value is not null: the source, or what is at the end of the path. -/
def NonNullEntry (S : Schema) (source : Ty) : Entry → Prop
  | .identity => source.wrap.isNonNull = true
  | .path p => ∀ fs ty, bindPath S source p = .ok (fs, ty) → ty.wrap.isNonNull = true
  | .object path _ => ∀ fs ty, bindPathOpt S source path = .ok (fs, ty) → ty.wrap.isNonNull = true
  | .list path _ => ∀ fs ty, bindPathOpt S source path = .ok (fs, ty) → ty.wrap.isNonNull = true

def NonNullValue (S : Schema) (source : Ty) : Value → Prop
  | .mk alternatives => ∀ e ∈ alternatives, NonNullEntry S source e

mutual

/-- One alternative, which is as follows. -/
def CleanValue (S : Schema) (subgraph : Nat) (source : Ty) (t : Nat) (w : Wrap) : Value → Prop
  | .mk alternatives => CleanSingle S subgraph source t w alternatives

def CleanSingle (S : Schema) (subgraph : Nat) (source : Ty) (t : Nat) (w : Wrap) : List Entry → Prop
  | [] => False
  | e :: es => CleanEntry S subgraph source t w e ∧ es = []

/-- Paths only go through objects, whose absence the target allows; an object is made of one object, and a
`@oneOf` one of a value that is not null. -/
def CleanEntry (S : Schema) (subgraph : Nat) (source : Ty) (t : Nat) (w : Wrap) : Entry → Prop
  | .identity => True
  | .path p => CleanPath S source p ∧ ∀ fs ty, bindPath S source p = .ok (fs, ty) → w.lenient ty.wrap = true
  | .object path fields => CleanPathOpt S source path ∧ (isOneOf S t = true → fields ≠ []) ∧
      ∀ fs source', bindPathOpt S source path = .ok (fs, source') →
        source'.wrap.isList = false ∧ source'.definition.isComposite = true ∧
        CleanFields S subgraph source' (isOneOf S t) fields
  | .list path item => CleanPathOpt S source path ∧
      ∀ fs source' w' v', bindPathOpt S source path = .ok (fs, source') → w.withoutList = some w' →
        source'.wrap.withoutList = some v' → CleanValue S subgraph ⟨source'.definition, v'⟩ t w' item

def CleanFields (S : Schema) (subgraph : Nat) (source : Ty) (oneOf : Bool) : List SelField → Prop
  | [] => True
  | f :: fs => CleanField S subgraph source oneOf f ∧ CleanFields S subgraph source oneOf fs

def CleanField (S : Schema) (subgraph : Nat) (source : Ty) (oneOf : Bool) : SelField → Prop
  | .short key => oneOf = true → ∀ ids f, fieldsOf S source.definition = some ids →
      ids.find? (fun f => S.fieldName f == key) = some f → (S.fieldTy f).wrap.isNonNull = true
  | .long key value => (oneOf = true → NonNullValue S source value) ∧
      ∀ t, (S.input t).name = key → CleanValue S subgraph source t (S.input t).ty.wrap value

end

/-! ## Arguments -/

/-- What the values of the arguments are taken from (`lookup.rs` 60-70): an entity or, in a batch, all of
them. -/
def sourceOf (d : Def) (batch : Bool) : Ty := ⟨d, if batch then .list true (.named true) else .named true⟩

/-- The objects of the response that the field is called for. -/
inductive Parents (S : Schema) (leaf : Def → Json → Prop) (d : Def) (reqs : List (Item Data)) : Bool → Val → Prop where
  | one (o : Obj) (h : ValOk S leaf d (.named true) reqs (.object o.definition o.fields)) :
      Parents S leaf d reqs false (.object o.definition o.fields)
  | all (os : List Obj) (h : ∀ o ∈ os, ValOk S leaf d (.named true) reqs (.object o.definition o.fields)) :
      Parents S leaf d reqs true (.list (os.map fun o => .object o.definition o.fields))

/-- Values for the arguments `args` that the field can be called with: each is of the type of its argument,
none is given twice and none that is required is missing. -/
def ArgumentsOk (S : Schema) (leaf : Def → Json → Prop) (subgraph : Nat) (args : List Nat)
    (es : List (String × Json)) : Prop :=
  ∃ l : List (Nat × Json), es = l.map (fun p => ((S.input p.1).name, p.2)) ∧ (l.map (·.1)).Nodup ∧
    (∀ p ∈ l, p.1 ∈ args ∧ Admits S leaf subgraph (S.input p.1).ty.definition (S.input p.1).ty.wrap p.2) ∧
    ∀ i ∈ args, (S.input i).default = none → (S.input i).ty.wrap.isNonNull = true → i ∈ l.map (·.1)

def SelField.key : SelField → String
  | .short key => key
  | .long key _ => key

mutual

/-- One alternative, which is as follows. -/
def CleanTopValue (S : Schema) (subgraph : Nat) (d : Def) (batch : Bool) (t : Nat) : Value → Prop
  | .mk alternatives => CleanTops S subgraph d batch t alternatives

def CleanTops (S : Schema) (subgraph : Nat) (d : Def) (batch : Bool) (t : Nat) : List Entry → Prop
  | [] => False
  | e :: es => CleanTop S subgraph d batch t e ∧ es = []

/-- An input object that is made of its fields is not for a list; a `@oneOf` one has a field, which is not
null; in a batch all fields with a default are given. -/
def CleanTop (S : Schema) (subgraph : Nat) (d : Def) (batch : Bool) (t : Nat) : Entry → Prop
  | .object none fields => (S.input t).ty.wrap.isList = false ∧ (isOneOf S t = true → fields ≠ []) ∧
      (batch = true → ∀ id, (S.input t).ty.definition = .input id → ∀ i ∈ known S subgraph id,
        (S.input i).default ≠ none → (S.input i).name ∈ fields.map SelField.key) ∧
      CleanInputs S subgraph d batch (isOneOf S t) fields
  | e => CleanEntry S subgraph (sourceOf d batch) t (S.input t).ty.wrap e

def CleanInputs (S : Schema) (subgraph : Nat) (d : Def) (batch : Bool) (oneOf : Bool) : List SelField → Prop
  | [] => True
  | f :: fs => CleanInput S subgraph d batch oneOf f ∧ CleanInputs S subgraph d batch oneOf fs

def CleanInput (S : Schema) (subgraph : Nat) (d : Def) (batch : Bool) (oneOf : Bool) : SelField → Prop
  | .short key => CleanField S subgraph (sourceOf d batch) oneOf (.short key)
  | .long key value => (oneOf = true → NonNullValue S (sourceOf d batch) value) ∧
      ∀ t, (S.input t).name = key → CleanTopValue S subgraph d batch t value

end

/-- One of several alternatives for a `@oneOf` argument: an object with one field, made of something that is
not null, at the end of a path without nulls. -/
def CleanAlternative (S : Schema) (subgraph : Nat) (source : Ty) : Entry → Prop
  | .object path [f] => CleanPathOpt S source path ∧
      ∀ fs source', bindPathOpt S source path = .ok (fs, source') → source'.wrap.isNonNull = true ∧
        CleanField S subgraph source' true f
  | _ => False

/-- What is given with `@is` for the arguments. -/
def CleanIs (S : Schema) (subgraph : Nat) (d : Def) (batch : Bool) (is : Nat → Option Value) : Prop :=
  ∀ t alternatives, is t = some (.mk alternatives) →
    CleanTops S subgraph d batch t alternatives ∨
    (2 ≤ alternatives.length ∧ isOneOf S t = true ∧
      ∀ e ∈ alternatives, CleanAlternative S subgraph (sourceOf d batch) e)

end Verif.Injection
