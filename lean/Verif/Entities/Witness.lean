import Verif.Entities.Exact
import Verif.NullProp.Witness

/-!
Concrete plans and answers.
-/
namespace Verif.Entities

open Verif.NullProp

/-- The elements of a list of objects, field 1 of a list field 5. -/
def parent (i : Nat) : Ref := ⟨⟨0, i + 1⟩, [.index ⟨0, 0⟩ i true, .field ⟨0, 0⟩ ⟨5, 5⟩ true], 9⟩

def fourParents : List Ref := [parent 0, parent 1, parent 2, parent 3]

/-- Object `i` has the representation `70 + i`; the last one has none. -/
def reprOf (r : Ref) : Option Nat := if r.id.ix < 4 then some (70 + r.id.ix) else none

/-- `... on Entity { 1  2! }`, the second required. -/
def entityShape : RootShape := ⟨[], [leafField 1 false, leafField 2 true], .propagateNull⟩

/-- `... on Entity { 1 }`, with null as its default. -/
def nullableShape : RootShape := ⟨[], [leafField 1 false], .default [⟨⟨1, 1⟩, .null⟩]⟩

def plainEnv : Env := ⟨noneHidden, fun n => some n⟩

def entity (n m : Nat) : Json := .map (.cons 1 (num n) (.cons 2 (num m) .nil))

def text (n : Nat) : Json := .leaf ⟨true, n⟩

def entitiesOf (js : Jsons) : Json := .map (.cons entitiesKey (.list js) .nil)

/-- `{"message": "40", "path": ["_entities", 1, "2"]}` -/
def someError : Json :=
  .map (.cons messageKey (text 40) (.cons pathKey
    (.list (.cons (text entitiesKey) (.cons (num 1) (.cons (text 2) .nil)))) .nil))

/-- Two entities, the second null, and an error for it. -/
def goodBody : Json :=
  .map (.cons errorsKey (.list (.cons someError .nil)) (.cons dataKey (entitiesOf (.cons (entity 11 12) (.cons .null .nil))) .nil))

/-- The same without an error. -/
def fullBody : Json := .map (.cons dataKey (entitiesOf (.cons (entity 11 12) (.cons (entity 21 22) .nil))) .nil)

/-- The representation of the first object is in the cache. -/
def oneCached (n : Nat) : Option Json := if n = 71 then some (entity 91 92) else none

/-- What is in the cache for the first object is cut off. -/
def cutCached (n : Nat) : Option Json := if n = 71 then some (.map (.cons 1 (num 91) .bad)) else none

/-- An answer that is no JSON. -/
def cutBody : Json := .bad

/-- `{"data": {"_entities": [{…}, {…}]}, "errors": 1}` -/
def oddErrors : Json :=
  .map (.cons dataKey (entitiesOf (.cons (entity 11 12) (.cons (entity 21 22) (.cons (entity 31 32) .nil)))) (.cons errorsKey (num 1) .nil))

/-- `{"data": {"_entities": null}, "errors": [{"message": …}]}` -/
def nullEntities : Json :=
  .map (.cons dataKey (.map (.cons entitiesKey .null .nil)) (.cons errorsKey (.list (.cons someError .nil)) .nil))

def start : St := { part := { id := 1 } }

/-- The ids of objects that something was done for. -/
def updated (p : Part) : List Nat :=
  p.updates.map fun u =>
    match u with
    | .fields id _ => id.ix
    | .default id _ => id.ix

end Verif.Entities
