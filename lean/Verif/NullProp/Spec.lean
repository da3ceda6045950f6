import Verif.NullProp.Model

/-!
# What a response should be

`complete` is the completion of values of the GraphQL specification (sections 6.4.3 and 6.4.4): the
value of every requested field, a null where the subgraph gave nothing usable, and a null in a
required position moved to its parent.  It is written on values only: no ids, no paths.

`Conforms` says that a response has no null, and lacks nothing, in a required position.
-/
namespace Verif.NullProp

open Verif.DefaultMerge (Key Field)
open Verif.OpChecks (sortBy)

/-- Nothing usable: null if the position allows it. -/
def orNull (required : Bool) : Option Out := if required then none else some .null

/-- The first value under a key. -/
def Entries.lookup (k : Nat) : Entries → Option Json
  | .nil | .bad => none
  | .cons k' j es => if k' = k then some j else es.lookup k

/-- The type of an object: `none` if it cannot be told although it must be, `some none` if it does
not matter. -/
def typeOf (ident : Ident) (es : Entries) : Option (Option Nat) :=
  match ident with
  | .known t => some (some t)
  | .anonymous => some none
  | .detect ps =>
    match es.lookup typenameKey with
    | some (.leaf l) => if l.str ∧ l.n ∈ ps then some (some l.n) else none
    | _ => none

/-- Keys in the order of the response. -/
def keyLe (a b : Key × Out) : Bool := a.1.pos < b.1.pos || (a.1.pos == b.1.pos && a.1.key ≤ b.1.key)

/-- Fields in the order of the response. -/
def inOrder (fs : List (Key × Out)) : List (Nat × Out) := (sortBy keyLe fs).map fun f => (f.1.key, f.2)

/-- The `__typename` fields. -/
def typenameFields (tns : List Key) (ty : Option Nat) : List (Key × Out) :=
  (tns.filter visible).map fun k => (k, .leaf ⟨true, ty.getD 0⟩)

mutual

/-- The value of a position of type `ty`, read against `sh`; `none` if it is a null the parent has to
take. -/
def complete (hid : Nat → Bool) (ty : Ty) (sh : Shape) : Json → Option Out
  | .null => orNull ty.required
  | .bad => orNull ty.required
  | .leaf l =>
    match ty, sh with
    | .base req, .scalar _ ok => if ok l then some (.leaf l) else orNull req
    | .base req, .enum vals => if l.str ∧ vals l.n = some false then some (.leaf l) else orNull req
    | ty, _ => orNull ty.required
  | .list js =>
    match ty with
    | .list req inner =>
      match completeAll hid inner sh js with
      | some os => some (.list os)
      | none => orNull req
    | .base req => orNull req
  | .map es =>
    match ty, sh with
    | .base req, .obj ident _ tns fs =>
      match typeOf ident es with
      | none => orNull req
      | some t =>
        if t.any hid ∨ (t = none ∧ tns ≠ []) then orNull req
        else
          match (fs.filter FieldShape.vis).mapM fun f => (completeField hid f es).map fun o => (f.key, o) with
          | none => orNull req
          | some os => some (.obj (inOrder (os ++ typenameFields tns t)))
    | ty, _ => orNull ty.required

/-- The items of a list. -/
def completeAll (hid : Nat → Bool) (inner : Ty) (sh : Shape) : Jsons → Option (List Out)
  | .nil => some []
  | .bad => none
  | .cons j js =>
    match complete hid inner sh j, completeAll hid inner sh js with
    | some o, some os => some (o :: os)
    | _, _ => none

/-- A field of an object: null if it has errors or is missing. -/
def completeField (hid : Nat → Bool) (f : FieldShape) : Entries → Option Out
  | .nil => orNull f.ty.required
  | .bad => orNull f.ty.required
  | .cons k j es =>
    if f.errors ≠ 0 then orNull f.ty.required
    else if k = f.expected then complete hid f.ty f.shape j
    else completeField hid f es

end

/-- The fields a root plan adds to the response; `none` if `data` is null. -/
def rootFields (hid : Nat → Bool) (ty : Nat) (p : RootShape × Entries) : Option (List (Key × Out)) :=
  ((p.1.fields.filter FieldShape.vis).mapM fun f => (completeField hid f p.2).map fun o => (f.key, o)).map
    fun os => os ++ typenameFields p.1.tns (some ty)

/-- The response of several plans of root fields. -/
def completeData (hid : Nat → Bool) (ty : Nat) (plans : List (RootShape × Entries)) : Out :=
  match plans.mapM (rootFields hid ty) with
  | none => .null
  | some oss => .obj (inOrder oss.flatten)

/-- The response has no null in a required position, and no requested field is missing. -/
inductive Conforms : Ty → Shape → Out → Prop where
  | null {ty sh} : ty.required = false → Conforms ty sh .null
  | scalar {r p ok l} : ok l = true → Conforms (.base r) (.scalar p ok) (.leaf l)
  | enum {r vals l} : vals l.n = some false → Conforms (.base r) (.enum vals) (.leaf l)
  | list {r inner sh os} : (∀ o ∈ os, Conforms inner sh o) → Conforms (.list r inner) sh (.list os)
  | obj {r ident set tns} {fs : List FieldShape} {os} :
    (∀ f ∈ fs, f.vis = true → f.key.key ∈ os.map (·.1)) →
    (∀ f ∈ fs, f.vis = true → ∀ o, (f.key.key, o) ∈ os → Conforms f.ty f.shape o) →
    Conforms (.base r) (.obj ident set tns fs) (.obj os)

/-! ## Well-formedness -/

/-- Nothing of the shape is sent to the client, and nothing of it has errors. -/
inductive AllHidden : Shape → Prop where
  | scalar {p ok} : AllHidden (.scalar p ok)
  | enum {vals} : AllHidden (.enum vals)
  | obj {ident set tns} {fs : List FieldShape} :
    (∀ f ∈ fs, f.vis = false ∧ f.errors = 0) → (∀ f ∈ fs, AllHidden f.shape) → AllHidden (.obj ident set tns fs)

/-- What holds of the fields of every object shape: the response keys and the keys expected in the
subgraph response are distinct, and a field that is asked for by the client and left out of the
subgraph request has an error. -/
structure WFFields (tns : List Key) (fs : List FieldShape) : Prop where
  names : (fs.map (·.key.key) ++ tns.map (·.key)).Nodup
  expected : (fs.map (·.expected)).Nodup
  typename : ∀ f ∈ fs, f.expected ≠ typenameKey
  absent : ∀ f ∈ fs, f.absent = true → f.vis = true → f.errors ≠ 0
  errors : ∀ f ∈ fs, f.errors ≠ 0 → f.vis = true

/-- Well-formed shapes. -/
inductive WF : Shape → Prop where
  | scalar {p ok} : WF (.scalar p ok)
  | enum {vals} : WF (.enum vals)
  | obj {ident set tns} {fs : List FieldShape} :
    WFFields tns fs → (∀ f ∈ fs, f.vis = false → AllHidden f.shape) → (∀ f ∈ fs, WF f.shape) →
    WF (.obj ident set tns fs)

/-- The keys of an object. -/
def Entries.keys : Entries → List Nat
  | .nil | .bad => []
  | .cons k _ es => k :: es.keys

mutual
/-- No object of the subgraph response has a key twice. -/
def Json.Uniq : Json → Prop
  | .null | .leaf _ | .bad => True
  | .list js => js.Uniq
  | .map es => es.keys.Nodup ∧ es.Uniq
def Jsons.Uniq : Jsons → Prop
  | .nil | .bad => True
  | .cons j js => j.Uniq ∧ js.Uniq
def Entries.Uniq : Entries → Prop
  | .nil | .bad => True
  | .cons _ j es => j.Uniq ∧ es.Uniq
end

/-- The plans of root fields: the shapes are well-formed, and no two ask for the same response key. -/
structure RootsOk (plans : List (RootShape × Entries)) : Prop where
  fields : ∀ p ∈ plans, WFFields p.1.tns p.1.fields
  hidden : ∀ p ∈ plans, ∀ f ∈ p.1.fields, f.vis = false → AllHidden f.shape
  shapes : ∀ p ∈ plans, ∀ f ∈ p.1.fields, WF f.shape
  names : (plans.flatMap fun p => p.1.fields.map (·.key.key) ++ p.1.tns.map (·.key)).Nodup
  unique : ∀ p ∈ plans, (Json.map p.2).Uniq

mutual
/-- The subgraph response is JSON, and a `__typename` is a string. -/
def Json.Readable : Json → Prop
  | .null | .leaf _ => True
  | .bad => False
  | .list js => js.Readable
  | .map es => es.Readable
def Jsons.Readable : Jsons → Prop
  | .nil => True
  | .bad => False
  | .cons j js => j.Readable ∧ js.Readable
def Entries.Readable : Entries → Prop
  | .nil => True
  | .bad => False
  | .cons k j es => j.Readable ∧ (k = typenameKey → ∃ l, j = .leaf l ∧ l.str = true) ∧ es.Readable
end

end Verif.NullProp
