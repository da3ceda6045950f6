import Verif.Compose.Model

/-!
# Who resolves a field: from the subgraphs to the engine's schema

The composition of the fields of an object type (crates/graphql-composition), the `@join__field` directives
it prints and what the engine's schema builder (crates/engine/schema) reads from them.

Simplifications: the definitions of a group are all objects (a mixture is refused, compose.rs:62-77);
names of fields are interned numbers; a default value is a number; fields with a batched `@require` argument
(fields.rs:60-79) are left out; `@requires` and `@provides` are only present or absent, so their parse errors
in the engine are left out; types survive printing and parsing (C02).
The functions on Unicode characters are a parameter.
-/

namespace Verif.FieldOwners

open Verif.FieldTypes Verif.OpChecks Verif.Compose

abbrev Name := List Char

/-- The functions of `char` in the standard library the code relies on. -/
structure Unicode where
  upper : Char → List Char
  alphabetic : Char → Bool
  alphanumeric : Char → Bool

/-- A subgraph: its name and whether it follows Apollo Federation 1. -/
structure Subgraph where
  name : Name
  v1 : Bool
  deriving DecidableEq, Repr

/-- The selections of a key. Of a field only the name is kept: its own selections are not looked at. -/
inductive Sels where
  | nil
  | field (name : Nat) (rest : Sels)
  | fragment (sub rest : Sels)
  deriving DecidableEq, Repr

structure Arg where
  name : Nat
  ty : FieldType
  default : Option Nat
  inaccessible : Bool
  typeInaccessible : Bool
  deriving DecidableEq, Repr

structure Override where
  src : Name
  label : Option Name
  deriving DecidableEq, Repr

/-- A field of an object type in a subgraph. `typeInaccessible`: its type is `@inaccessible` there. -/
structure Field where
  name : Nat
  ty : FieldType
  args : List Arg
  external : Bool
  shareable : Bool
  internal : Bool
  inaccessible : Bool
  typeInaccessible : Bool
  requires : Bool
  provides : Bool
  override : Option Override
  deriving DecidableEq, Repr

/-- The definition of an object type in a subgraph. -/
structure Def where
  subgraph : Nat
  external : Bool
  shareable : Bool
  keys : List Sels
  fields : List Field
  deriving DecidableEq, Repr

/-- A field with the definition it belongs to. -/
structure View where
  d : Def
  f : Field
  deriving DecidableEq, Repr

inductive Err where
  | overrideFromSelf
  | overrideSourceHasOverride
  | invalidFieldSharing
  | inaccessibleType
  | requiredArgument
  | argumentDefaults
  | argumentTypes
  | argumentInaccessible
  | fieldTypes
  | externalRequires
  | externalProvides
  | entityness
  | shareableMissing
  | subscriptionShareable
  | subgraphName
  deriving DecidableEq, Repr

/-! ## Names of subgraphs -/

/-- `validate_name`, validate/subgraph_names.rs:22-43. -/
def validName (u : Unicode) : Name → Bool
  | [] => false
  | c :: cs => u.alphabetic c && cs.all fun c => c == '-' || u.alphanumeric c

/-- `to_ascii_lowercase`. -/
def asciiLower (n : Name) : Name := n.map Char.toLower

/-- The loop of `validate_subgraph_names`, validate/subgraph_names.rs:4-20. -/
def validateNames (u : Unicode) : List Name → List Name → List Err
  | _, [] => []
  | seen, n :: ns =>
    (if validName u n then [] else [.subgraphName]) ++
    (if asciiLower n ∈ seen then [.subgraphName] else []) ++
    validateNames u (asciiLower n :: seen) ns

/-- `join_graph_enum_variant_name`, emit_federated_graph.rs:389-402. -/
def enumName (u : Unicode) (n : Name) : Name :=
  n.flatMap fun c => if c = '-' ∨ c = '_' ∨ c = ' ' then ['_'] else u.upper c

/-! ## Validations -/

/-- `selection_contains_field` over the selections of a key, subgraphs/fields.rs:131-138. -/
def Sels.contains (n : Nat) : Sels → Bool
  | .nil => false
  | .field name rest => name == n || rest.contains n
  | .fragment sub rest => sub.contains n || rest.contains n

/-- `FieldView::is_part_of_key`, subgraphs/fields.rs:130-145. -/
def View.isPartOfKey (v : View) : Bool := v.d.keys.any fun k => k.contains v.f.name

/-- object.rs:270: `is_external`. -/
def View.isExternal (v : View) : Bool := v.f.external || v.d.external

def nameOf (sg : List Subgraph) (i : Nat) : Name := (sg[i]?.map (·.name)).getD []

def isV1 (sg : List Subgraph) (i : Nat) : Bool := (sg[i]?.map (·.v1)).getD false

/-- `override_from_self`, validate/composite_schemas/source_schema.rs:51-73. -/
def overrideFromSelf (sg : List Subgraph) (v : View) : List Err :=
  match v.f.override with
  | none => []
  | some o => if o.src = nameOf sg v.d.subgraph then [.overrideFromSelf] else []

/-- The sources of truth of `invalid_field_sharing`, post_merge.rs:22-40. -/
def isSource (sg : List Subgraph) (v : View) : Bool :=
  v.f.override.isNone && !v.f.external && !v.d.external && !v.f.internal && !isV1 sg v.d.subgraph

/-- `invalid_field_sharing`, validate/composite_schemas/post_merge.rs:9-65. -/
def invalidFieldSharing (sg : List Subgraph) (fields : List View) : List Err :=
  if fields.any fun v => v.isPartOfKey || v.f.shareable || v.d.shareable then []
  else
    match fields.filter (isSource sg) with
    | _ :: _ :: _ => [.invalidFieldSharing]
    | _ => []

/-- `override_source_has_override`, compose/validate.rs:4-89: an error per source with several overrides. -/
def overrideSourceHasOverride (fields : List View) : List Err :=
  if (fields.filter fun v => v.f.override.isSome).length < 2 then []
  else
    let sources := fields.filterMap fun v => v.f.override.map (·.src)
    (sources.eraseDups.filter fun s => decide (2 ≤ sources.count s)).map fun _ => .overrideSourceHasOverride

/-! ## Arguments -/

structure ComposedArg where
  name : Nat
  ty : FieldType
  default : Option Nat
  deriving DecidableEq, Repr

/-- The loop of `compose_field_argument_defaults`, object.rs:113-145. -/
def composeDefaults : Option Nat → List Arg → Option Nat × List Err
  | default, [] => (default, [])
  | default, a :: as =>
    match a.default, default with
    | none, _ => composeDefaults default as
    | some v, none => composeDefaults (some v) as
    | some v, some w =>
      let (r, es) := composeDefaults default as
      (r, (if v = w then [] else [.argumentDefaults]) ++ es)

/-- One round of the loop of `merge_field_arguments`, object.rs:33-95. -/
def mergeArgument (intersection : List Nat) (args : List Arg) : Option ComposedArg × List Err :=
  match args with
  | [] => (none, [])
  | a :: _ =>
    let (default, es) := composeDefaults none args
    if a.name ∉ intersection then
      (none, es ++ if args.any (·.ty.wrapping.isNonNull) then [.requiredArgument] else [])
    else
      match composeAll composeForInput (args.map (·.ty)) with
      | none => (none, es ++ [.argumentTypes])
      | some ty =>
        (some ⟨a.name, ty, default⟩,
          es ++ if args.any (·.typeInaccessible) && !args.any (·.inaccessible) then [.argumentInaccessible] else [])

/-- `merge_field_arguments`, object.rs:5-98. -/
def mergeArguments (first : View) (fields : List View) : List ComposedArg × List Err :=
  let intersection := (first.f.args.map (·.name)).filter fun n =>
    (fields.drop 1).all fun v => v.f.args.any fun a => a.name == n
  let all := sortBy (fun a b => decide (a.name ≤ b.name)) (fields.flatMap fun v => v.f.args)
  let out := (groups (fun a : Arg => a.name) all.length all).map (mergeArgument intersection)
  (out.filterMap (·.1), out.flatMap (·.2))

/-! ## Fields -/

inductive Source where
  | subgraph (id : Nat)
  | missing (name : Name)
  deriving DecidableEq, Repr

inductive Label where
  | percent (n : Nat)
  | unknown (l : Name)
  deriving DecidableEq, Repr

/-- `u8::from_str`: an optional plus sign and decimal digits. -/
def parseU8 (s : Name) : Option Nat :=
  let digits := if s.head? = some '+' then s.drop 1 else s
  if digits ≠ [] ∧ digits.all Char.isDigit then
    let n := digits.foldl (fun n c => 10 * n + (c.toNat - '0'.toNat)) 0
    if n ≤ 255 then some n else none
  else none

/-- `strip_prefix` then `strip_suffix` of override.rs:26-29. -/
def stripPercent (s : Name) : Option Name :=
  if "percent(".toList.isPrefixOf s then
    let r := s.drop 8
    if r.getLast? = some ')' then some r.dropLast else none
  else none

/-- `OverrideLabel::from_str`, federated_graph/directives/override.rs:22-36. It does not fail. -/
def parseLabel (s : Name) : Label :=
  match (stripPercent s).bind parseU8 with
  | some n => .percent n
  | none => .unknown s

/-- `JoinFieldDirective`, composition_ir/directive.rs, with the `@requires` and `@provides` added by
`transform_join_field_directive`, emit_federated_graph/directive.rs:302-331. -/
structure JoinField where
  graph : Nat
  requires : Bool
  provides : Bool
  ty : Option FieldType
  external : Bool
  override : Option Source
  label : Option Label
  deriving DecidableEq, Repr

/-- The `position` of object.rs:287-292. -/
def sourceOf (sg : List Subgraph) (name : Name) : Source :=
  match sg.findIdx? fun s => s.name == name with
  | some i => .subgraph i
  | none => .missing name

/-- One round of `ingest_join_field_directives`, object.rs:264-295. -/
def joinField (sg : List Subgraph) (ty : FieldType) (v : View) : JoinField where
  graph := v.d.subgraph
  requires := v.f.requires
  provides := v.f.provides
  ty := if v.f.ty ≠ ty then some v.f.ty else none
  external := v.isExternal && !v.isPartOfKey
  override := v.f.override.map fun o => sourceOf sg o.src
  label := (v.f.override.bind (·.label)).map parseLabel

/-- The errors of `ingest_join_field_directives`, object.rs:297-315. -/
def joinFieldErrors (v : View) : List Err :=
  (if v.f.requires && v.isExternal then [.externalRequires] else []) ++
  (if v.f.provides && v.isExternal then [.externalProvides] else [])

structure ComposedField where
  name : Nat
  ty : FieldType
  args : List ComposedArg
  joins : List JoinField
  deriving DecidableEq, Repr

/-- `compose_field` for an object, object.rs:191-250. -/
def composeField (sg : List Subgraph) (first : View) (fields : List View) : Option ComposedField × List Err :=
  let e1 := invalidFieldSharing sg fields
  let e2 := if fields.any fun v => !v.f.inaccessible && v.f.typeInaccessible then [.inaccessibleType] else []
  let (args, e3) := mergeArguments first fields
  match composeAll composeForOutput (fields.map (·.f.ty)) with
  | none => (none, e1 ++ e2 ++ e3 ++ [.fieldTypes])
  | some ty =>
    (some ⟨first.f.name, ty, args, fields.map (joinField sg ty)⟩,
      e1 ++ e2 ++ e3 ++ overrideSourceHasOverride fields ++ fields.flatMap joinFieldErrors)

/-- The views of the fields of the definitions, in their order. -/
def viewsOf (defs : List Def) : List View := defs.flatMap fun d => d.fields.map fun f => ⟨d, f⟩

/-- `for_each_field_group`, compose/fields.rs:5-32. -/
def fieldGroups (defs : List Def) : List (List View) :=
  let all := sortBy (fun a b => decide (a.f.name ≤ b.f.name)) (viewsOf defs)
  groups (fun v : View => v.f.name) all.length all

/-- `compose_fields`, object.rs:175-189. -/
def composeFields (sg : List Subgraph) (defs : List Def) : List ComposedField × List Err :=
  let out := (fieldGroups defs).map fun fields =>
    match fields with
    | [] => (none, [])
    | first :: _ => composeField sg first fields
  (out.filterMap (·.1), out.flatMap (·.2))

/-! ## Objects -/

/-- Itertools' `dedup`. -/
def dedup : List Nat → List Nat
  | [] => []
  | [a] => [a]
  | a :: b :: l => if a = b then dedup (b :: l) else a :: dedup (b :: l)

def sortNat (l : List Nat) : List Nat := sortBy (fun a b => decide (a ≤ b)) l

/-- `validate_consistent_entityness`, compose.rs:111-154. -/
def entityness (sg : List Subgraph) (defs : List Def) : Bool × List Err :=
  if !defs.any fun d => !d.keys.isEmpty then (false, [])
  else if defs.all fun d => !d.keys.isEmpty || isV1 sg d.subgraph then (true, [])
  else (false, [.entityness])

/-- The `@join__type` of an object, compose.rs:79-98, and `create_join_type_from_definitions`,
compose/directives.rs:5-20. -/
def joinTypes (sg : List Subgraph) (defs : List Def) : List Nat :=
  if (entityness sg defs).1 then defs.flatMap fun d => d.keys.map fun _ => d.subgraph
  else dedup (sortNat (defs.map (·.subgraph)))

/-- `validate_shareable_object_fields_match`, object.rs:320-345. -/
def shareableMissing (defs : List Def) : List Err :=
  let all := (viewsOf defs).map (·.f.name)
  let inaccessible := ((viewsOf defs).filter (·.f.inaccessible)).map (·.f.name)
  defs.flatMap fun d =>
    (all.eraseDups.filter fun n => n ∉ inaccessible && !d.fields.any fun f => f.name == n).map fun _ =>
      .shareableMissing

inductive Role where
  | object
  | root
  | subscription
  deriving DecidableEq, Repr

structure ComposedObject where
  joinTypes : List Nat
  fields : List ComposedField
  deriving DecidableEq, Repr

/-- `merge_object_definitions`, compose.rs:57-109, and `merge_fields` for the root types, roots.rs:36-89, which
get no `@join__type`; with the validations of the fields before (validate.rs:32-39). -/
def composeObject (sg : List Subgraph) (role : Role) (defs : List Def) : ComposedObject × List Err :=
  let pre := (viewsOf defs).flatMap (overrideFromSelf sg)
  let fields := composeFields sg defs
  match role with
  | .object =>
    (⟨joinTypes sg defs, fields.1⟩,
      pre ++ (entityness sg defs).2 ++ (if defs.any (·.shareable) then shareableMissing defs else []) ++ fields.2)
  | .root => (⟨[], fields.1⟩, pre ++ fields.2)
  | .subscription =>
    (⟨[], fields.1⟩,
      pre ++ (defs.filter (·.shareable)).map (fun _ => .subscriptionShareable) ++
        ((viewsOf defs).filter (·.f.shareable)).map (fun _ => .subscriptionShareable) ++ fields.2)

/-! ## Printing -/

/-- A `@join__field` of the printed schema. -/
structure Printed where
  graph : Option Name
  ty : Option FieldType
  external : Bool
  override : Option Name
  deriving DecidableEq, Repr

/-- `render_join_field_directive`, render_sdl/directive.rs:163-206. The label is not read by the engine. -/
def printJoinField (u : Unicode) (sg : List Subgraph) (j : JoinField) : Printed where
  graph := some (enumName u (nameOf sg j.graph))
  ty := j.ty
  external := j.external
  override := j.override.map fun
    | .subgraph i => nameOf sg i
    | .missing n => n

/-- The subgraphs whose field is overridden for all requests, render_federated_sdl.rs:336-341. -/
def fullyOverridden (joins : List JoinField) : List Nat :=
  joins.filterMap fun j =>
    match j.override, j.label with
    | some (.subgraph i), none => some i
    | some (.subgraph i), some (.percent 100) => some i
    | _, _ => none

/-- `join_field_must_be_present`, render_federated_sdl.rs:343-367. -/
def mustBePresent (joinTypes : List Nat) (joins : List JoinField) : Bool :=
  (joins.any fun j => j.override.isSome || j.requires || j.provides || j.ty.isSome || j.external) ||
    decide (dedup (sortNat joinTypes) ≠ sortNat (joins.map (·.graph)))

/-- `write_field_directives`, render_federated_sdl.rs:320-385. -/
def writeJoinFields (u : Unicode) (sg : List Subgraph) (joinTypes : List Nat) (joins : List JoinField) :
    List Printed :=
  (joins.filter fun j => !(!mustBePresent joinTypes joins || (fullyOverridden joins).contains j.graph)).map
    (printJoinField u sg)

/-! ## The engine -/

/-- What `ingest_field_federation_directives` gathers from the `@join__field`. -/
structure St where
  types : List (Name × FieldType)
  resolvable : List Name
  hasJoinField : Bool
  overrides : List Name
  errors : Nat
  deriving DecidableEq, Repr

/-- Insertion in a `BTreeSet`; the order is left out. -/
def insertSet (x : Name) (l : List Name) : List Name := if x ∈ l then l else l ++ [x]

/-- The end of the round: directives/federation.rs:349-353. The name of the overridden subgraph is looked up
among the values of the enum. -/
def St.override (all : List Name) (p : Printed) (st : St) : St :=
  match p.override with
  | some n => if n ∈ all then { st with overrides := st.overrides ++ [n] } else st
  | none => st

/-- One round of the loop, schema/src/builder/graph/directives/federation.rs:263-354. -/
def St.step (all : List Name) (ty : FieldType) (p : Printed) (st : St) : St :=
  match p.graph with
  | none => { st with hasJoinField := true }.override all p
  | some g =>
    if g ∉ all then { st with errors := st.errors + 1 }
    else
      let st := { st with hasJoinField := true }
      let st := match p.ty with
        | some t => if t ≠ ty then { st with types := st.types ++ [(g, t)] } else st
        | none => st
      let st := if p.external then st else { st with resolvable := insertSet g st.resolvable }
      st.override all p

structure EngineField where
  types : List (Name × FieldType)
  existsIn : List Name
  errors : Nat
  deriving DecidableEq, Repr

/-- `ingest_field_federation_directives`, directives/federation.rs:238-399. -/
def ingestField (all : List Name) (ty : FieldType) (joinTypes : List Name) (printed : List Printed) : EngineField :=
  let st : St := printed.foldl (fun (st : St) p => st.step all ty p) ⟨[], [], false, [], 0⟩
  let known := joinTypes.filter (· ∈ all)
  let resolvable := if st.hasJoinField then st.resolvable else known.foldl (fun r g => insertSet g r) st.resolvable
  let resolvable := resolvable.filter (· ∉ st.overrides)
  ⟨st.types, if !st.hasJoinField && known.isEmpty then all else resolvable,
    st.errors + (joinTypes.length - known.length)⟩

/-- The subgraphs of the engine: one per value of the enum (schema/src/builder/subgraphs.rs:27-112). -/
def engineGraphs (u : Unicode) (sg : List Subgraph) : List Name := (sg.map fun s => enumName u s.name).eraseDups

/-- The engine's view of a composed field. -/
def engineField (u : Unicode) (sg : List Subgraph) (joinTypes : List Nat) (f : ComposedField) : EngineField :=
  ingestField (engineGraphs u sg) f.ty (joinTypes.map fun i => enumName u (nameOf sg i))
    (writeJoinFields u sg joinTypes f.joins)

end Verif.FieldOwners
