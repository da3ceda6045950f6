/-!
# Which parts of a schema are hidden from clients

Model of `finalize_inaccessible`, crates/engine/schema/src/builder/graph/directives/common/mod.rs:183-437.
It is given the elements marked `@inaccessible` and marks what cannot be used without them.

Simplifications: the nine bit sets are one function from elements to `Bool` (bit sets are C40); ids are valid
indices, a lookup with another one gives nothing instead of a panic; `IdToMany` is a filter (C53).
The type of a field is no input object (`unreachable!`, :352).
-/

namespace Verif.Hidden

/-- `DirectiveSiteId`: the elements of a schema. -/
inductive Site where
  | object (n : Nat)
  | interface (n : Nat)
  | union (n : Nat)
  | enum (n : Nat)
  | scalar (n : Nat)
  | input (n : Nat)
  | field (n : Nat)
  | value (n : Nat)
  | enumValue (n : Nat)
  deriving DecidableEq, Repr

/-- `FieldDefinitionRecord`: type, arguments and the object or interface it is in. -/
structure FieldDef where
  ty : Site
  args : List Nat
  parent : Site
  deriving DecidableEq, Repr

/-- `InputValueDefinitionRecord`: an argument or an input field; `internal` is `is_internal_in_id.is_some()`. -/
structure ValueDef where
  ty : Site
  required : Bool
  internal : Bool
  parent : Site
  deriving DecidableEq, Repr

structure ObjectDef where
  fields : List Nat
  interfaces : List Nat
  deriving DecidableEq, Repr

structure InterfaceDef where
  fields : List Nat
  possible : List Nat
  deriving DecidableEq, Repr

/-- `Graph`; of a scalar it is known whether it is built in, of an enum value its enum. -/
structure Schema where
  objects : List ObjectDef := []
  interfaces : List InterfaceDef := []
  unions : List (List Nat) := []
  enums : List (List Nat) := []
  scalars : List Bool := []
  inputs : List (List Nat) := []
  fields : List FieldDef := []
  values : List ValueDef := []
  enumValues : List Nat := []
  query : Nat := 0
  mutation : Option Nat := none
  subscription : Option Nat := none
  metaFields : List Nat := []
  deriving DecidableEq, Repr

/-- `Inaccessible`: the nine bit sets. -/
abbrev Marks := Site → Bool

def Marks.set (m : Marks) (s : Site) (b : Bool) : Marks := fun t => if t = s then b else m t

namespace Schema

/-- The fields of an object, interface or input object, the values of an enum, the members of a union. -/
def kids (S : Schema) : Site → List Site
  | .object n => (S.objects[n]?.map fun o => o.fields.map Site.field).getD []
  | .interface n => (S.interfaces[n]?.map fun o => o.fields.map Site.field).getD []
  | .union n => (S.unions[n]?.map fun l => l.map Site.object).getD []
  | .enum n => (S.enums[n]?.map fun l => l.map Site.enumValue).getD []
  | .input n => (S.inputs[n]?.map fun l => l.map Site.value).getD []
  | _ => []

end Schema

/-! ## Input values -/

/-- One round of the loop over the input values, mod.rs:188-220. -/
def markValue (S : Schema) (m : Marks) (ix : Nat) : Marks :=
  match S.values[ix]? with
  | none => m
  | some v =>
    let hidden := m v.ty || v.internal
    let m := if hidden then m.set (.value ix) true else m
    if m (.value ix) && v.required && !v.internal then m.set v.parent true else m

/-- The loop over the input values, mod.rs:188-220. -/
def markValues (S : Schema) (m : Marks) : Marks := (List.range S.values.length).foldl (markValue S) m

/-- `output_to_input_value.find_all`: the input values of an input object type, mod.rs:197,226. -/
def usersOf (S : Schema) (id : Nat) : List Nat :=
  (List.range S.values.length).filter fun ix => decide ((S.values[ix]?.map (·.ty)) = some (.input id))

/-- The body of the inner loop, mod.rs:227-241; the marks and the input objects pushed. -/
def spreadValue (S : Schema) (acc : Marks × List Nat) (ix : Nat) : Marks × List Nat :=
  let (m, new) := acc
  if m (.value ix) then acc
  else
    let m := m.set (.value ix) true
    match S.values[ix]? with
    | none => (m, new)
    | some v =>
      if v.required && !v.internal then
        match v.parent with
        | .input i => if m (.input i) then (m, new) else (m.set (.input i) true, new ++ [i])
        | p => (m.set p true, new)
      else (m, new)

/-- The loop over `inaccessible_input_objects`, mod.rs:225-243; the end of the vector is the head of the list.
The first argument bounds the number of rounds. -/
def spreadInputs (S : Schema) : Nat → Marks → List Nat → Marks
  | 0, m, _ => m
  | _ + 1, m, [] => m
  | n + 1, m, id :: stack =>
    let (m, new) := (usersOf S id).foldl (spreadValue S) (m, [])
    spreadInputs S n m (new.reverse ++ stack)

/-- mod.rs:222-243. -/
def markInputs (S : Schema) (m : Marks) : Marks :=
  let ones := (List.range S.inputs.length).filter fun i => m (.input i)
  spreadInputs S (S.inputs.length + 1) m ones.reverse

/-! ## Types without accessible elements -/

/-- A loop that hides the types all elements of which are hidden: mod.rs:246-259, 261-274, 277-291, 294-307 and
309-321. -/
def hideEmpty (S : Schema) (mk : Nat → Site) (n : Nat) (m : Marks) : Marks :=
  (List.range n).foldl (fun m i => if m (mk i) then m else if (S.kids (mk i)).all m then m.set (mk i) true else m) m

/-- mod.rs:245-321. -/
def hideAllEmpty (S : Schema) (m : Marks) : Marks :=
  let m := hideEmpty S .object S.objects.length m
  let m := hideEmpty S .interface S.interfaces.length m
  let m := hideEmpty S .union S.unions.length m
  let m := hideEmpty S .enum S.enums.length m
  hideEmpty S .input S.inputs.length m

/-! ## Fields -/

/-- Hide a field and its parent if it was the last one: mod.rs:354-377 and 395-417; the types pushed. -/
def hideField (S : Schema) (acc : Marks × List Site) (ix : Nat) : Marks × List Site :=
  let (m, new) := acc
  if m (.field ix) then acc
  else
    let m := m.set (.field ix) true
    match S.fields[ix]? with
    | none => (m, new)
    | some f =>
      if (S.kids f.parent).all m && !m f.parent then (m.set f.parent true, new ++ [f.parent]) else (m, new)

/-- One round of the loop over the fields, mod.rs:326-378. -/
def markField (S : Schema) (acc : Marks × List Site) (ix : Nat) : Marks × List Site :=
  match S.fields[ix]? with
  | none => acc
  | some f => if acc.1 f.ty then hideField S acc ix else acc

/-- `composite_type_to_fields.find_all`. -/
def fieldsOf (S : Schema) (c : Site) : List Nat :=
  (List.range S.fields.length).filter fun ix => decide ((S.fields[ix]?.map (·.ty)) = some c)

/-- `object_to_unions.find_all`, mod.rs:289,386: the unions that were accessible, with the object as member. -/
def unionsOf (S : Schema) (m0 : Marks) (c : Site) : List Nat :=
  (List.range S.unions.length).filter fun u => !m0 (.union u) && decide (c ∈ S.kids (.union u))

/-- The body of the loop over unions, mod.rs:386-395. -/
def hideUnion (S : Schema) (acc : Marks × List Site) (u : Nat) : Marks × List Site :=
  let (m, new) := acc
  if (S.kids (.union u)).all m && !m (.union u) then (m.set (.union u) true, new ++ [.union u]) else acc

/-- The loop over `newly_inaccessible_types`, mod.rs:383-419; `m0` are the marks when `object_to_union` was
built. -/
def spreadTypes (S : Schema) (m0 : Marks) : Nat → Marks → List Site → Marks
  | 0, m, _ => m
  | _ + 1, m, [] => m
  | n + 1, m, c :: stack =>
    let acc := (unionsOf S m0 c).foldl (hideUnion S) (m, [])
    let (m, new) := (fieldsOf S c).foldl (hideField S) acc
    spreadTypes S m0 n m (new.reverse ++ stack)

/-- mod.rs:323-419. -/
def markFields (S : Schema) (m : Marks) : Marks :=
  let (m', new) := (List.range S.fields.length).foldl (markField S) (m, [])
  spreadTypes S m (S.objects.length + S.interfaces.length + S.unions.length + 1) m' new.reverse

/-- `finalize_inaccessible`, mod.rs:183-437, without the two sets of flags. -/
def finalize (S : Schema) (m : Marks) : Marks := markFields S (hideAllEmpty S (markInputs S (markValues S m)))

/-- `union_has_inaccessible_member`, mod.rs:424-433. -/
def unionFlag (S : Schema) (m : Marks) (u : Nat) : Bool := (S.kids (.union u)).any m

/-- `interface_has_inaccessible_implementor`, mod.rs:435-443. -/
def interfaceFlag (S : Schema) (m : Marks) (i : Nat) : Bool :=
  ((S.interfaces[i]?.map (·.possible)).getD []).any fun o => m (.object o)

end Verif.Hidden
