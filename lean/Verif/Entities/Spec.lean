import Verif.Entities.Model
import Verif.NullProp.Spec

/-!
# What a plan that fetches entities should do

Every object that asked for an entity gets the element of `data._entities` at the position of its
representation, and nothing if there is none.
-/
namespace Verif.Entities

open Verif.NullProp

/-- What an object is given: an entity to read its fields from; nothing, so that its fields get their
defaults or the null moves up; or a second time nothing after a failure, without moving a null up. -/
inductive Answer where
  | entity (j : Json)
  | nothing
  | again

/-- The effect on the part of the response. -/
def give (hid : Nat → Bool) (shape : RootShape) (p : Part) (a : Ref × Answer) : Part :=
  match a.2 with
  | .entity j => rootSeed hid shape a.1 j p
  | .nothing => emptyUpdate shape.onError a.1 p
  | .again => propagatedEmptyUpdate shape.onError a.1 p

/-- The effect of several answers, one after the other. -/
def giveAll (hid : Nat → Bool) (shape : RootShape) (p : Part) (as : List (Ref × Answer)) : Part :=
  as.foldl (give hid shape) p

/-- The part without the flag that is set while an error moves up. -/
def calm (p : Part) : Part := { p with bubbling := false }

def toList : Jsons → List Json
  | .nil | .bad => []
  | .cons j js => j :: toList js

/-- The elements of `data._entities`. -/
def elements : Json → List Json
  | .map es =>
    match es.lookup dataKey with
    | some (.map ds) =>
      match ds.lookup entitiesKey with
      | some (.list js) => toList js
      | _ => []
    | _ => []
  | _ => []

/-- Each object with the element at its position. -/
def matched (rs : List Ref) (js : List Json) : List (Ref × Answer) :=
  rs.mapIdx fun i r =>
    (r, match js[i]? with
      | some j => .entity j
      | none => .nothing)

/-- Each object with nothing. -/
def without (rs : List Ref) : List (Ref × Answer) := rs.map fun r => (r, .nothing)

/-- An error: an object with a message. -/
def errorOf : Json → SubErr
  | .map ds =>
    ⟨match ds.lookup messageKey with
      | some (.leaf ⟨true, m⟩) => m
      | _ => 0, (ds.lookup pathKey).getD .null⟩
  | _ => ⟨0, .null⟩

/-- The errors of the subgraph. -/
def sentErrors : Json → List SubErr
  | .map es =>
    match es.lookup errorsKey with
    | some (.list js) => (toList js).map errorOf
    | _ => []
  | _ => []

/-- The message is a text, `extensions` an object or null, and no key is there twice. -/
def IsError (j : Json) : Prop :=
  ∃ ds m, j = .map ds ∧ ds.keys.Nodup ∧ ds.lookup messageKey = some (.leaf ⟨true, m⟩) ∧
    ∀ v, ds.lookup extensionsKey = some v → v = .null ∨ ∃ xs, v = .map xs

/-- The answer is JSON, its top level and `data` have no key twice, `_entities` is a list or null, and
`errors` are errors. -/
structure Good (body : Json) : Prop where
  readable : body.Readable
  map : ∃ es, body = .map es ∧ es.keys.Nodup ∧
    (∀ ds, es.lookup dataKey = some (.map ds) → ds.keys.Nodup ∧
      ∀ v, ds.lookup entitiesKey = some v → v = .null ∨ ∃ js, v = .list js) ∧
    (∀ v, es.lookup errorsKey = some v → v = .null ∨ ∃ js, v = .list js ∧ ∀ e ∈ toList js, IsError e)

/-- The value is neither null nor an object. -/
def odd : Json → Bool
  | .leaf _ | .list _ => true
  | _ => false

/-- The object at a position gets an error: its entity is not an object, or it is the first one
without. -/
def wrong (js : List Json) (i : Nat) : Bool :=
  match js[i]? with
  | some j => odd j
  | none => i == js.length

/-- The errors for the objects. -/
def objectErrors (rs : List Ref) (js : List Json) : List Err :=
  (rs.mapIdx fun i r => if wrong js i then [Err.invalid r.path] else []).flatten

def ofSubgraph : Err → Bool
  | .subgraph .. => true
  | _ => false

/-- Nothing is done for objects without data, and no errors are reported: none of the fields is sent
to the client. -/
def silent (shape : RootShape) : Bool :=
  match shape.onError with
  | .skip => true
  | _ => false

/-- The answer has `data`. -/
def hasData : Json → Bool
  | .map es => (es.lookup dataKey).isSome
  | _ => false

/-- `_entities` is not null. -/
def Listed (body : Json) : Prop := ∀ es ds, body = .map es → es.lookup dataKey = some (.map ds) → ds.lookup entitiesKey ≠ some .null

/-- Each object with the entity found. -/
def found (hits : List (Ref × Json)) : List (Ref × Answer) := hits.map fun h => (h.1, .entity h.2)

/-- Every object has an answer. -/
def Complete (refs : List Ref) (log : List (Ref × Answer)) : Prop :=
  ∀ r ∈ refs, ∃ a, (r, a) ∈ log ∧ a ≠ .again

/-- The objects with a representation that is not in the cache. -/
def asked (repr : Ref → Option Nat) (cache : Option (Nat → Option Json)) (parents : List Ref) : List Item :=
  parents.filterMap fun r =>
    match repr r with
    | none => none
    | some n => if (cache.bind (· n)).isNone then some ⟨r, n⟩ else none

/-- The objects with an entity in the cache. -/
def served (repr : Ref → Option Nat) (cache : Option (Nat → Option Json)) (parents : List Ref) : List (Ref × Json) :=
  parents.filterMap fun r =>
    match repr r with
    | none => none
    | some n => (cache.bind (· n)).map fun j => (r, j)

/-- The objects without a representation. -/
def unfit (repr : Ref → Option Nat) (parents : List Ref) : List Ref := parents.filter fun r => (repr r).isNone

/-- The rest of the path of an error. -/
inductive SegsOf (asU64 : Nat → Option Nat) : Jsons → List Seg → Prop
  | nil : SegsOf asU64 .nil []
  | field {n : Nat} {js : Jsons} {ss : List Seg} :
    SegsOf asU64 js ss → SegsOf asU64 (.cons (.leaf ⟨true, n⟩) js) (.field n :: ss)
  | index {n i : Nat} {js : Jsons} {ss : List Seg} :
    asU64 n = some i → SegsOf asU64 js ss → SegsOf asU64 (.cons (.leaf ⟨false, n⟩) js) (.index i :: ss)

/-- The path of an error of the subgraph, `["_entities", k, …]`, is the path of the object that the
entity at position `k` is for, followed by the rest. -/
def PathOf (asU64 : Nat → Option Nat) (refs : List Ref) (j : Json) (p : List VId × List Seg) : Prop :=
  ∃ n k r js, j = .list (.cons (.leaf ⟨true, entitiesKey⟩) (.cons (.leaf ⟨false, n⟩) js)) ∧
    asU64 n = some k ∧ refs[k]? = some r ∧ p.1 = r.path ∧ SegsOf asU64 js p.2

/-- How an error of the subgraph is reported. -/
def Reported (asU64 : Nat → Option Nat) (refs : List Ref) (e : SubErr) (x : Err) : Prop :=
  ∃ path, x = .subgraph e.message path ∧ ∀ p, path = some p ↔ PathOf asU64 refs e.path p

end Verif.Entities
