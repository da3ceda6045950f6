import Verif.Views.Model

/-!
# Which values are injected into the arguments of a lookup (C73)

A field with `@lookup` is called with arguments taken from the response. With `@is(field: "…")` (and
`@require`) the schema says how: the string is a *field selection map*. When the schema is built it is bound
to the definitions (`schema/src/builder/coerce/field_selection_map/mod.rs`), turned into required fields
and an injection (`…/composite/injection/explicit.rs`, modelled in C72), and for every call the arguments are
serialised from the response (`src/prepare/cached/query_plan/field/arguments.rs`).

Paths are in `crates/engine`. Simplifications: ids are numbers; the id of a field of the schema without
arguments is that of its definition; types are given by a search by name; wrappings are trees of lists (C01
proves that the packed words are); the messages of the errors are left out. Parsing the string is not
modelled.
-/

namespace Verif.Injection

open Verif.Views (Out Item Data Val Obj Json Inj Sel FieldSel union forward inject swapRemove create createValue prepend)

/-! ## Types -/

/-- `Wrapping` (`crates/engine/wrapping`, C01): whether a value is required, at each list level. -/
inductive Wrap where
  | named (required : Bool)
  | list (required : Bool) (inner : Wrap)
  deriving DecidableEq

namespace Wrap

/-- `is_non_null`. -/
def isNonNull : Wrap → Bool
  | named r => r
  | list r _ => r

/-- `is_list`. -/
def isList : Wrap → Bool
  | named _ => false
  | list _ _ => true

/-- `without_list`. -/
def withoutList : Wrap → Option Wrap
  | named _ => none
  | list _ w => some w

/-- `without_non_null`. -/
def withoutNonNull : Wrap → Wrap
  | named _ => named false
  | list _ w => list false w

/-- `self.is_equal_or_more_lenient_than(other)`. -/
def lenient : Wrap → Wrap → Bool
  | named a, named b => !a || b
  | list a w, list b w' => (!a || b) && lenient w w'
  | _, _ => false

end Wrap

/-- `TypeDefinitionId`. -/
inductive Def where
  | scalar (id : Nat)
  | enum (id : Nat)
  | object (id : Nat)
  | interface (id : Nat)
  | union (id : Nat)
  | input (id : Nat)
  deriving DecidableEq

/-- `TypeRecord`. -/
structure Ty where
  definition : Def
  wrap : Wrap

/-- `InputValueDefinitionRecord`. `internal` is `is_internal_in_id`. -/
structure Input where
  name : String
  ty : Ty
  default : Option Json
  internal : Option Nat

/-- The part of the schema that is used here. `types` are the types ordered by name, `possible` the possible
objects of an interface or union, `fieldsOf` the fields of an object or interface. -/
structure Schema where
  fieldName : Nat → String
  fieldTy : Nat → Ty
  objectFields : Nat → List Nat
  interfaceFields : Nat → List Nat
  possibleInterface : Nat → List Nat
  possibleUnion : Nat → List Nat
  types : List (String × Def)
  input : Nat → Input
  inputFields : Nat → List Nat
  oneOf : Nat → Bool

/-- `as_composite_type().is_some()`. -/
def Def.isComposite : Def → Bool
  | .object _ => true
  | .interface _ => true
  | .union _ => true
  | _ => false

/-- `as_entity().is_some()`. -/
def Def.isEntity : Def → Bool
  | .object _ => true
  | .interface _ => true
  | _ => false

/-- The possible objects of a type (`coerce/field_set.rs` 281-290). -/
def possible (S : Schema) : Def → List Nat
  | .object id => [id]
  | .interface id => S.possibleInterface id
  | .union id => S.possibleUnion id
  | _ => []

/-- The fields of a type; nothing for a type without fields (`mod.rs` 254-263). -/
def fieldsOf (S : Schema) : Def → Option (List Nat)
  | .object id => some (S.objectFields id)
  | .interface id => some (S.interfaceFields id)
  | _ => none

/-- `is_disjoint` (`coerce/field_set.rs` 280-303): the merge of two sorted lists. -/
def isDisjoint (S : Schema) (left right : Def) : Bool :=
  !(possible S left).any (possible S right).contains

/-! ## Field selection maps -/

/-- `PathSegment` (`field-selection-map/src/model.rs` 71-75). -/
structure Segment where
  field : String
  ty : Option String

/-- `Path` (`model.rs` 87-92). -/
structure Path where
  ty : Option String
  segments : List Segment

mutual

/-- `SelectedValue` (`model.rs` 5-10). -/
inductive Value where
  | mk (alternatives : List Entry)

/-- `SelectedValueEntry` (`model.rs` 31-49). -/
inductive Entry where
  | identity
  | path (p : Path)
  | object (path : Option Path) (fields : List SelField)
  | list (path : Option Path) (item : Value)

/-- `SelectedObjectField` (`model.rs` 126-131). -/
inductive SelField where
  | short (key : String)
  | long (key : String) (value : Value)

end

/-! ## Binding -/

/-- `bind_type_condition` (`mod.rs` 303-327). -/
def bindTypeCondition (S : Schema) (parent : Def) (ty : String) : Out Def :=
  match S.types.find? (fun t => t.1 == ty) with
  | none => .err
  | some (_, d) =>
    if !d.isEntity then .err
    else if isDisjoint S parent d then .err
    else .ok d

/-- The type condition of a segment or of the start of a path, if there is one (`mod.rs` 245-249, 282-291). -/
def condition (S : Schema) (d : Def) : Option String → Out Def
  | none => .ok d
  | some ty => if d.isComposite then bindTypeCondition S d ty else .err

/-- The loop over the segments in `bind_path` (`mod.rs` 251-300). -/
def bindSegments (S : Schema) (d : Def) (w : Wrap) : List Segment → Out (List Nat × Ty)
  | [] => .ok ([], ⟨d, w⟩)
  | seg :: segs =>
    match fieldsOf S d with
    | none => .err
    | some ids =>
      match ids.find? (fun f => S.fieldName f == seg.field) with
      | none => .err
      | some f =>
        let ty := S.fieldTy f
        let w' := if w.isNonNull then ty.wrap else ty.wrap.withoutNonNull
        (condition S ty.definition seg.ty).bind fun d' =>
          (bindSegments S d' w' segs).map fun (fs, ty) => (f :: fs, ty)

/-- `bind_path` (`mod.rs` 229-301). -/
def bindPath (S : Schema) (source : Ty) (p : Path) : Out (List Nat × Ty) :=
  if source.wrap.isList then .err
  else if !source.definition.isComposite then .err
  else (condition S source.definition p.ty).bind fun d => bindSegments S d source.wrap p.segments

/-- The path of an object or a list, if there is one (`mod.rs` 200-220). -/
def bindPathOpt (S : Schema) (source : Ty) : Option Path → Out (List Nat × Ty)
  | none => .ok ([], source)
  | some p => bindPath S source p

/-- `ensure_type_compatibility` (`mod.rs` 496-537): the target is the input value `t` with the wrapping `w`. -/
def compatible (S : Schema) (source : Ty) (t : Nat) (w : Wrap) : Bool :=
  w.lenient source.wrap &&
  match (S.input t).ty.definition, source.definition with
  | .scalar a, .scalar b => a == b
  | .enum a, .enum b => a == b
  | _, _ => false

/-- `as_object` (`target.rs` 66-90): the fields of the input object that the subgraph knows. -/
def asObject (S : Schema) (subgraph t : Nat) : Option (Bool × List Nat) :=
  match (S.input t).ty.definition with
  | .input id =>
    some (S.oneOf id, (S.inputFields id).filter fun i =>
      match (S.input i).internal with
      | none => true
      | some s => s == subgraph)
  | _ => none

/-- `target_fields.iter().position(…)` and `swap_remove` (`mod.rs` 100-107, 405-412). -/
def takeField (S : Schema) (targets : List Nat) (key : String) : Option (Nat × List Nat) :=
  match targets.findIdx? (fun i => (S.input i).name == key) with
  | none => none
  | some ix =>
    match targets[ix]? with
    | none => none
    | some t => some (t, swapRemove targets ix)

/-- The loop over the fields that are left (`mod.rs` 139-162, 371-394): what is added. -/
def missing (S : Schema) (present : List Nat) : List Nat → Out (List (Nat × Json))
  | [] => .ok []
  | t :: ts =>
    if present.contains t then missing S present ts
    else
      match (S.input t).default with
      | some j => (missing S (present ++ [t]) ts).map ((t, j) :: ·)
      | none => if (S.input t).ty.wrap.isNonNull then .err else missing S present ts

/-- A field that is taken from the source under its own name (`mod.rs` 418-456). -/
def shortField (S : Schema) (source : Ty) (t : Nat) (key : String) : Out FieldSel :=
  if source.wrap.isList then .err
  else
    match fieldsOf S source.definition with
    | none => .err
    | some ids =>
      match ids.find? (fun f => S.fieldName f == key) with
      | none => .err
      | some f => if compatible S (S.fieldTy f) t (S.input t).ty.wrap then .ok (.field f) else .err

/-- `BoundSelectedValue`, with one alternative. Other numbers are refused by what uses it (`model.rs` 31-38,
`explicit.rs` 84-92). -/
def single : List Sel → Sel
  | [s] => s
  | _ => .several

mutual

/-- `bind_selected_value` (`mod.rs` 167-179). -/
def bindSelected (S : Schema) (subgraph : Nat) (source : Ty) (t : Nat) (w : Wrap) : Value → Out (List Sel)
  | .mk alternatives => bindAlternatives S subgraph source t w alternatives

def bindAlternatives (S : Schema) (subgraph : Nat) (source : Ty) (t : Nat) (w : Wrap) : List Entry → Out (List Sel)
  | [] => .ok []
  | e :: es =>
    (bindEntry S subgraph source t w e).bind fun s =>
      (bindAlternatives S subgraph source t w es).map (s :: ·)

/-- `bind_selected_value_entry` (`mod.rs` 181-227), with `bind_selected_object_value` (329-396) and
`bind_selected_list_value` (465-494). -/
def bindEntry (S : Schema) (subgraph : Nat) (source : Ty) (t : Nat) (w : Wrap) : Entry → Out Sel
  | .identity => if compatible S source t w then .ok .identity else .err
  | .path p =>
    (bindPath S source p).bind fun (fs, _) =>
      match fs, fs.getLast? with
      | first :: rest, some last =>
        if compatible S (S.fieldTy last) t w then .ok (.path first rest) else .err
      | _, _ => .panic
  | .object path fields =>
    (bindPathOpt S source path).bind fun (fs, source) =>
      if w.isList then .err
      else if w.isNonNull && !source.wrap.isNonNull then .err
      else
        match asObject S subgraph t with
        | none => .err
        | some (oneOf, targets) =>
          (bindFields S subgraph source targets fields).bind fun (bound, left) =>
            if oneOf && decide (1 < bound.length) then .err
            else
              (missing S (bound.map (·.1)) left).map fun added =>
                .object fs (bound ++ added.map fun (i, j) => (i, .default j))
  | .list path item =>
    (bindPathOpt S source path).bind fun (fs, source) =>
      if w.isNonNull && !source.wrap.isNonNull then .err
      else
        match w.withoutList, source.wrap.withoutList with
        | some w, some w' =>
          (bindSelected S subgraph ⟨source.definition, w'⟩ t w item).map fun alternatives =>
            .list fs (single alternatives)
        | _, _ => .err

/-- The loop over the fields of an object (`mod.rs` 355-359). -/
def bindFields (S : Schema) (subgraph : Nat) (source : Ty) (targets : List Nat) :
    List SelField → Out (List (Nat × FieldSel) × List Nat)
  | [] => .ok ([], targets)
  | f :: fs =>
    (bindField S subgraph source targets f).bind fun (b, targets) =>
      (bindFields S subgraph source targets fs).map fun (bs, targets) => (b :: bs, targets)

/-- `bind_selected_object_field` (`mod.rs` 398-463). -/
def bindField (S : Schema) (subgraph : Nat) (source : Ty) (targets : List Nat) :
    SelField → Out ((Nat × FieldSel) × List Nat)
  | .short key =>
    match takeField S targets key with
    | none => .err
    | some (t, left) => (shortField S source t key).map fun f => ((t, f), left)
  | .long key value =>
    match takeField S targets key with
    | none => .err
    | some (t, left) =>
      (bindSelected S subgraph source t (S.input t).ty.wrap value).map fun alternatives =>
        ((t, .value (single alternatives)), left)

end

/-- `BoundValue`, `BoundInputObject` and `BoundInputFieldValue` (`model.rs` 3-25). -/
inductive Bound where
  | object (fields : List (Nat × Bound))
  | value (alternatives : List Sel)
  | field (f : FieldSel)

/-- What a bound value is as the value of a field (`mod.rs` 111-114). -/
def Bound.asField : Bound → Bound
  | .value alternatives => .field (.value (single alternatives))
  | b => b

mutual

/-- `bind_value` (`mod.rs` 52-76). -/
def bindValue (S : Schema) (subgraph : Nat) (source : Ty) (t : Nat) : Value → Out Bound
  | .mk alternatives => bindTops S subgraph source t alternatives

/-- The alternatives of a value (`mod.rs` 59-75). -/
def bindTops (S : Schema) (subgraph : Nat) (source : Ty) (t : Nat) : List Entry → Out Bound
  | [] => .panic
  | [e] => bindTop S subgraph source t e
  | e :: es => (bindAlternatives S subgraph source t (S.input t).ty.wrap (e :: es)).map .value

/-- The only alternative (`mod.rs` 68-75), with `bind_input_object` (78-165). -/
def bindTop (S : Schema) (subgraph : Nat) (source : Ty) (t : Nat) : Entry → Out Bound
  | .object none fields =>
    match asObject S subgraph t with
    | none => .err
    | some (oneOf, targets) =>
      (bindInputs S subgraph source targets fields).bind fun (bound, left) =>
        if oneOf && decide (1 < bound.length) then .err
        else
          (missing S (bound.map (·.1)) left).map fun added =>
            .object (bound ++ added.map fun (i, j) => (i, .field (.default j)))
  | e => (bindEntry S subgraph source t (S.input t).ty.wrap e).map fun s => .value [s]

/-- The loop over the fields of an input object (`mod.rs` 95-126). -/
def bindInputs (S : Schema) (subgraph : Nat) (source : Ty) (targets : List Nat) :
    List SelField → Out (List (Nat × Bound) × List Nat)
  | [] => .ok ([], targets)
  | f :: fs =>
    (bindInput S subgraph source targets f).bind fun (b, targets) =>
      (bindInputs S subgraph source targets fs).map fun (bs, targets) => (b :: bs, targets)

/-- One field of an input object (`mod.rs` 98-125). -/
def bindInput (S : Schema) (subgraph : Nat) (source : Ty) (targets : List Nat) :
    SelField → Out ((Nat × Bound) × List Nat)
  | .short key =>
    match takeField S targets key with
    | none => .err
    | some (t, left) => (shortField S source t key).map fun f => ((t, .field f), left)
  | .long key value =>
    match takeField S targets key with
    | none => .err
    | some (t, left) => (bindValue S subgraph source t value).map fun b => ((t, b.asField), left)

end

/-! ## Arguments -/

/-- `ArgumentInjectionRecord` and `ArgumentValueInjection`, with the ids followed. -/
inductive Arg where
  | value (inj : Inj)
  | object (fields : List (Nat × Arg))

mutual

/-- `create_requirements_and_injection` and `…_for_input_object` (`explicit.rs` 24-77). -/
def createArg : Bound → Out (List (Item Unit) × Arg)
  | .object fields => (createArgs [] fields).map fun (fs, args) => (fs, .object args)
  | .value alternatives => (create (single alternatives)).map fun (fs, inj) => (fs, .value inj)
  | .field f => (createValue f).map fun (fs, inj) => (fs, .value inj)

/-- The loop of `create_requirements_and_injections` (`explicit.rs` 14-20) and the one over the fields of an
input object (49-68): `fs` are the requirements up to here. -/
def createArgs (fs : List (Item Unit)) : List (Nat × Bound) → Out (List (Item Unit) × List (Nat × Arg))
  | [] => .ok (fs, [])
  | b :: bs =>
    (createPair b).bind fun (r, arg) =>
      (createArgs (union fs r) bs).map fun (fs, args) => (fs, arg :: args)

def createPair : Nat × Bound → Out (List (Item Unit) × Nat × Arg)
  | (t, b) => (createArg b).map fun (fs, arg) => (fs, t, arg)

end

mutual

/-- The value of a field of an `ArgumentObject` (`arguments.rs` 295-331). `parents` is the object of the
response for `PlanFieldArgumentsView` and the list of all of them for `PlanFieldArgumentsBatchView`
(`ParentObjectsView`, `response/read/view/ser.rs` 14-24). -/
def argValue (S : Schema) (reqs : List (Item Data)) (parents : Val) : Arg → Out Json
  | .value inj => forward (inject (fun i => (S.input i).name) inj reqs) parents
  | .object fields => (argEntries S reqs parents fields).map .obj

def argEntries (S : Schema) (reqs : List (Item Data)) (parents : Val) : List (Nat × Arg) → Out (List (String × Json))
  | [] => .ok []
  | f :: fs => (argEntry S reqs parents f).bind fun e => (argEntries S reqs parents fs).map (e :: ·)

def argEntry (S : Schema) (reqs : List (Item Data)) (parents : Val) : Nat × Arg → Out (String × Json)
  | (t, arg) => (argValue S reqs parents arg).map ((S.input t).name, ·)

end

/-- The value of an argument that is injected (`arguments.rs` 207-227, 263-282). -/
def topValue (S : Schema) (reqs : List (Item Data)) (parents : Val) : Arg → Out Json
  | .value (.default j) => .ok j
  | arg => argValue S reqs parents arg

/-- The injected arguments of a field (`arguments.rs` 183-232, 241-288). -/
def arguments (S : Schema) (reqs : List (Item Data)) (parents : Val) : List (Nat × Arg) → Out (List (String × Json))
  | [] => .ok []
  | (t, arg) :: args =>
    (topValue S reqs parents arg).bind fun j => (arguments S reqs parents args).map (((S.input t).name, j) :: ·)

/-! ## Explicit injections of a lookup -/

/-- `ExplicitKeyInjection` (`lookup.rs` 423-427). -/
inductive Explicit where
  | exact (fs : List (Item Unit)) (args : List (Nat × Arg))
  | oneOf (alternatives : List (List (Item Unit) × List (Nat × Arg)))
  | none

/-- The arguments without `@is` (`lookup.rs` 364-384, 394-415). -/
def otherArguments (S : Schema) (present : List Nat) : List Nat → Out (List (Nat × Arg))
  | [] => .ok []
  | t :: ts =>
    if present.contains t then otherArguments S present ts
    else
      match (S.input t).default with
      | some j => (otherArguments S present ts).map ((t, .value (.default j)) :: ·)
      | none => if (S.input t).ty.wrap.isNonNull then .err else otherArguments S present ts

/-- One alternative for an argument of a `@oneOf` type (`lookup.rs` 317-387). -/
def oneOfAlternative (S : Schema) (args : List Nat) (t : Nat) : Sel → Out (List (Item Unit) × List (Nat × Arg))
  | .object path [(i, f)] =>
    match f with
    | .default _ => .panic
    | f =>
      (createValue f).bind fun result =>
        let (fs, inj) := prepend path result
        (otherArguments S [t] args).map fun others => (fs, (t, .object [(i, .value inj)]) :: others)
  | .object _ _ => .err
  | _ => .panic

def oneOfAlternatives (S : Schema) (args : List Nat) (t : Nat) :
    List Sel → Out (List (List (Item Unit) × List (Nat × Arg)))
  | [] => .ok []
  | s :: ss => (oneOfAlternative S args t s).bind fun a => (oneOfAlternatives S args t ss).map (a :: ·)

/-- The bound `@is` of the arguments (`lookup.rs` 278-289). -/
def bindAll (S : Schema) (subgraph : Nat) (source : Ty) (is : Nat → Option Value) : List Nat → Out (List (Nat × Bound))
  | [] => .ok []
  | t :: ts =>
    match is t with
    | none => bindAll S subgraph source is ts
    | some v => (bindValue S subgraph source t v).bind fun b => (bindAll S subgraph source is ts).map ((t, b) :: ·)

/-- Whether an argument is of a `@oneOf` type (`lookup.rs` 301-306). -/
def isOneOf (S : Schema) (t : Nat) : Bool :=
  match (S.input t).ty.definition with
  | .input id => S.oneOf id
  | _ => false

/-- `detect_explicit_is_directive_injections` (`lookup.rs` 270-421) for the arguments `args`. -/
def explicit (S : Schema) (subgraph : Nat) (source : Ty) (args : List Nat) (is : Nat → Option Value) : Out Explicit :=
  (bindAll S subgraph source is args).bind fun injections =>
    match injections with
    | [] => .ok .none
    | [(t, .value (s :: s' :: ss))] =>
      if isOneOf S t then (oneOfAlternatives S args t (s :: s' :: ss)).map .oneOf
      else exactly S args [(t, .value (s :: s' :: ss))]
    | injections => exactly S args injections
where
  /-- The last part (`lookup.rs` 392-420). -/
  exactly (S : Schema) (args : List Nat) (injections : List (Nat × Bound)) : Out Explicit :=
    (createArgs [] injections).bind fun (fs, injected) =>
      (otherArguments S (injected.map (·.1)) args).map fun others => .exact fs (injected ++ others)

end Verif.Injection
