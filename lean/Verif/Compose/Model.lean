import Verif.FieldTypes.Model
import Verif.OpChecks.Model
/-!
# Composition of enums and input objects

Model of `crates/graphql-composition/src/compose/{enums,input_object,fields}.rs` with the tables of
`subgraphs/{enums,fields}.rs`.  Strings are interned, so names are numbers; descriptions, directives other
than the join directives, and the messages of diagnostics are left out.  `sort_unstable_by_key` is modelled
by a sort; the property theorems assume that no definition declares a name twice, so that every sort gives
the same table.
-/
namespace Verif.Compose
open Verif.FieldTypes (FieldType composeAll composeForInput composeForOutput)
open Verif.PatchPaths (binarySearchBy partitionPoint)
open Verif.OpChecks (cmp2 sortBy)

/-- `DefinitionKind`. -/
inductive Kind where
  | object
  | interface
  | inputObject
  | enum
  | union
  | scalar
  deriving DecidableEq, Repr

/-- `DefinitionView`: the id of the definition, its subgraph and its kind. -/
structure Def where
  id : Nat
  subgraph : Nat
  kind : Kind
  deriving DecidableEq, Repr

/-- `EnumValue`, subgraphs/enums.rs:14-20. -/
structure EnumValue where
  parent : Nat
  name : Nat
  deriving DecidableEq, Repr

/-- The literal of a default value. -/
inductive Default where
  | null
  | value (n : Nat)
  deriving DecidableEq, Repr

/-- `FieldTuple`, subgraphs/fields.rs. -/
structure Field where
  parent : Nat
  name : Nat
  ty : FieldType
  default : Option Default
  deriving DecidableEq, Repr

/-- `Subgraphs`.  `args` are the base types of all arguments of output fields, `kinds` the kinds of the
definitions. -/
structure Subgraphs where
  values : List EnumValue
  fields : List Field
  args : List Nat
  kinds : List (Nat × Kind)
  deriving DecidableEq, Repr

def EnumValue.key (v : EnumValue) : Nat × Nat := (v.parent, v.name)
def Field.key (f : Field) : Nat × Nat := (f.parent, f.name)

/-- `sort_pre_composition`, subgraphs.rs:179-197. -/
def Subgraphs.sorted (s : Subgraphs) : Subgraphs :=
  { s with values := sortBy (fun a b => (cmp2 a.key b.key).isLE) s.values
           fields := sortBy (fun a b => (cmp2 a.key b.key).isLE) s.fields }

/-- `DefinitionId::enum_values`, subgraphs/enums.rs:36-47. -/
def Subgraphs.enumValues (s : Subgraphs) (id : Nat) : List EnumValue :=
  let start := partitionPoint (fun v : EnumValue => decide (v.parent < id)) s.values
  (s.values.drop start).takeWhile fun v => decide (v.parent = id)

/-- `DefinitionId::enum_value_by_name`, subgraphs/enums.rs:23-34. -/
def Subgraphs.enumValueByName (s : Subgraphs) (id name : Nat) : Option EnumValue :=
  let r := binarySearchBy (fun v : EnumValue => cmp2 v.key (id, name)) s.values
  if r.1 then s.values[r.2]? else none

/-- `DefinitionId::fields`, subgraphs/fields.rs:149-163. -/
def Subgraphs.fieldsOf (s : Subgraphs) (id : Nat) : List Field :=
  let start := partitionPoint (fun f : Field => decide (f.parent < id)) s.fields
  (s.fields.drop start).takeWhile fun f => decide (f.parent = id)

/-- `DefinitionId::field_by_name`, subgraphs/fields.rs:165-175. -/
def Subgraphs.fieldByName (s : Subgraphs) (id name : Nat) : Option Field :=
  let r := binarySearchBy (fun f : Field => cmp2 f.key (id, name)) s.fields
  if r.1 then s.fields[r.2]? else none

/-- `subgraphs.at(id).kind`. -/
def Subgraphs.kindOf (s : Subgraphs) (id : Nat) : Option Kind := (s.kinds.find? fun p => decide (p.1 = id)).map (·.2)

/-- `enum_is_used_in_input`, compose/enums.rs:45-61. -/
def usedInInput (s : Subgraphs) (name : Nat) : Bool :=
  s.args.any (fun a => decide (a = name)) ||
    (s.fields.filter fun f => decide (s.kindOf f.parent = some .inputObject)).any
      fun f => decide (f.ty.definitionNameId = name)

/-- `enum_is_used_in_return_position`, compose/enums.rs:64-75. -/
def usedInOutput (s : Subgraphs) (name : Nat) : Bool :=
  (s.fields.filter fun f =>
    decide (s.kindOf f.parent = some .object) || decide (s.kindOf f.parent = some .interface)).any
      fun f => decide (f.ty.definitionNameId = name)

/-- The composed enum: each value with the subgraphs of its `@join__enumValue`, and whether a fatal
diagnostic was pushed. -/
structure EnumOut where
  values : List (Nat × List Nat)
  fatal : Bool
  deriving DecidableEq, Repr

/-- compose/enums.rs:99-117 and 171-190. -/
def withGraphs (s : Subgraphs) (defs : List Def) (names : List Nat) : List (Nat × List Nat) :=
  names.map fun n => (n, defs.filterMap fun d => (s.enumValueByName d.id n).map fun _ => d.subgraph)

/-- `merge_intersection`, compose/enums.rs:77-118. -/
def mergeIntersection (s : Subgraphs) (first : Def) (defs : List Def) : EnumOut :=
  let names := defs.foldl (fun names d =>
    let scratch := (s.enumValues d.id).map (·.name)
    names.filter fun n => decide (n ∈ scratch)) ((s.enumValues first.id).map (·.name))
  ⟨withGraphs s defs names, names.isEmpty⟩

/-- `slice::chunk_by`. -/
def chunkBy {α : Type} (p : α → α → Bool) : List α → List (List α)
  | [] => []
  | x :: xs =>
    match chunkBy p xs with
    | (y :: ys) :: rest => if p x y then (x :: y :: ys) :: rest else [x] :: (y :: ys) :: rest
    | other => [x] :: other

/-- `merge_union`, compose/enums.rs:120-145.  A value carries the subgraph of its parent. -/
def mergeUnion (s : Subgraphs) (defs : List Def) : EnumOut :=
  let all := defs.flatMap fun d => (s.enumValues d.id).map fun v => (v.name, d.subgraph)
  let all := sortBy (fun a b => decide (a.1 ≤ b.1)) all
  ⟨(chunkBy (fun a b => decide (a.1 = b.1)) all).map fun c => ((c.head?.map (·.1)).getD 0, c.map (·.2)), false⟩

/-- `merge_exactly_matching`, compose/enums.rs:147-191. -/
def mergeExactlyMatching (s : Subgraphs) (first : Def) (defs : List Def) : EnumOut :=
  let expected := (s.enumValues first.id).map (·.name)
  if defs.any fun d => decide (expected ≠ (s.enumValues d.id).map (·.name)) then ⟨[], true⟩
  else ⟨withGraphs s defs expected, false⟩

/-- `merge_enum_definitions`, compose/enums.rs:6-42. -/
def mergeEnum (s : Subgraphs) (name : Nat) (first : Def) (defs : List Def) : EnumOut :=
  match usedInInput s name, usedInOutput s name with
  | true, false => mergeIntersection s first defs
  | false, true => mergeUnion s defs
  | true, true => mergeExactlyMatching s first defs
  | false, false => mergeUnion s defs

/-! ## Input objects -/

/-- `InputValueDefinitionIr` with the subgraphs of its `@join__inputField`; a subgraph whose type differs
from the composed one carries it. -/
structure InputField where
  name : Nat
  ty : FieldType
  default : Option Default
  graphs : List (Nat × Option FieldType)
  deriving DecidableEq, Repr

structure InputOut where
  fields : List InputField
  fatal : Bool
  deriving DecidableEq, Repr

/-- The loops of compose/input_object.rs:35-42 and compose/fields.rs:20-31: the groups of equal names. -/
def groups {α : Type} (name : α → Nat) : Nat → List α → List (List α)
  | 0, _ => []
  | _, [] => []
  | fuel + 1, x :: xs =>
    let l := x :: xs
    let stop := partitionPoint (fun f => decide (name f = name x)) l
    l.take stop :: groups name fuel (l.drop stop)

/-- One iteration of compose/input_object.rs:44-98: the composed field, if any, and whether a fatal
diagnostic was pushed. -/
def mergeGroup (intersection : List Nat) (fields : List (Field × Nat)) : Option InputField × Bool :=
  match fields with
  | [] => (none, false)
  | f :: _ =>
    if f.1.name ∉ intersection then (none, fields.any fun f => f.1.ty.wrapping.isNonNull)
    else
      match composeAll composeForInput (fields.map (·.1.ty)) with
      | none => (none, true)
      | some ty =>
        (some ⟨f.1.name, ty, fields.findSome? (·.1.default),
          fields.map fun f => (f.2, if f.1.ty ≠ ty then some f.1.ty else none)⟩, false)

/-- `merge_input_object_definitions`, compose/input_object.rs:3-105. -/
def mergeInputObject (s : Subgraphs) (first : Def) (defs : List Def) : InputOut :=
  let intersection := ((s.fieldsOf first.id).map (·.name)).filter fun n =>
    (defs.drop 1).all fun d => (s.fieldByName d.id n).isSome
  let all := defs.flatMap fun d => (s.fieldsOf d.id).map fun f => (f, d.subgraph)
  let all := sortBy (fun a b => decide (a.1.name ≤ b.1.name)) all
  let out := (groups (fun f : Field × Nat => f.1.name) all.length all).map (mergeGroup intersection)
  ⟨out.filterMap (·.1), out.any (·.2)⟩

end Verif.Compose
