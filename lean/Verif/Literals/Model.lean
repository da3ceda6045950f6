import Verif.Coercion.Model
/-!
# Coercion and evaluation of the values written in an operation

Model of `crates/engine/operation/src/bind/coercion/query.rs`, of `bind_field_arguments_sorted` and
`bind_variable_definitions` in `crates/engine/operation/src/bind/operation.rs`, of the serialization of bound values in
`crates/engine/operation/src/model/input_value/{query,variable}/walker/ser.rs` and of the arguments given to resolvers in
`crates/engine/src/prepare/cached/query_plan/field/arguments.rs`.

Simplifications: values are trees, where the code stores them in three arenas; errors carry their kind only; `f64` is the
rational it stands for; integers written in an operation are within `i64` (the parser, cynic_parser, is external); the
recursion is by fuel (`Err.fuel` without), `coerceQueryValue` provides enough (`Verif.Literals.C56_no_panic`). The
definitions of arguments and input fields are given by their id.
-/
namespace Verif.Literals

open Verif.Wrapping Verif.Coercion

/-- `cynic_parser::Value`. -/
inductive Lit where
  | null
  | var (name : Str)
  | int (i : Int)
  | float (q : Rat)
  | str (s : Str)
  | bool (b : Bool)
  | enum (name : Str)
  | list (items : List Lit)
  | obj (fields : List (Str × Lit))

namespace Lit
def isNull : Lit → Bool
  | null => true
  | _ => false
def isList : Lit → Bool
  | list _ => true
  | _ => false
def isVar : Lit → Bool
  | var _ => true
  | _ => false
end Lit

/-- `QueryInputValueRecord`, model/input_value/query/mod.rs:94-120, as a tree; `object` also says whether the input object
is a `@oneOf` one. `U64` and `UnboundEnumValue` are not produced for operations. -/
inductive Q where
  | null
  | str (s : Str)
  | enumValue (id : Nat)
  | int (i : Int)
  | float (q : Rat)
  | bool (b : Bool)
  | object (oneOf : Bool) (fields : List (Nat × Q))
  | list (items : List Q)
  | map (fields : List (Str × Q))
  | i64 (i : Int)
  | default (id : Nat)
  | variable (i : Nat)

/-- `number.value() as f64` for an integer. -/
def intToF64 (i : Int) : Rat := if 0 ≤ i then (natToF64 i.natAbs : Int) else -(natToF64 i.natAbs : Int)

/-- `variable_ref`, query.rs:88-123; `vars` is `none` within the default value of a variable. -/
def variableRef (vars : Option (List VarDef)) (name : Str) (ty : Ty) : Except Err Q :=
  match vars with
  | none => .error .variableInDefault
  | some vs =>
    match vs.findIdx? fun v => decide (v.name = name) with
    | none => .error .unknownVariable
    | some i =>
      match vs[i]? with
      | none => .error .unreachable
      | some v => if areTypesCompatible v.ty ty then .ok (.variable i) else .error .variableType

/-- `coerce_scalar` for `ScalarType::Unknown`, query.rs:365-394. -/
def coerceAny : Nat → Lit → Except Err Q
  | 0, _ => .error .fuel
  | _ + 1, .null => .ok .null
  | _ + 1, .float q => .ok (.float q)
  | _ + 1, .int i => .ok (.i64 i)
  | _ + 1, .str s => .ok (.str s)
  | _ + 1, .bool b => .ok (.bool b)
  | n + 1, .list xs => (mapE (coerceAny n) xs).map .list
  | n + 1, .obj fs => (mapE (fun p => (coerceAny n p.2).map fun v => (p.1, v)) fs).map .map
  | _ + 1, .enum _ => .error .scalarType
  | _ + 1, .var _ => .error .scalarType

/-- `coerce_scalar`, query.rs:359-428; `can_coerce_to_int`, query.rs:451-453, is the same as for variables. -/
def coerceScalar (vars : Option (List VarDef)) (fuel : Nat) (d : Nat) (t : ScalarType) (v : Lit) : Except Err Q :=
  match t, v with
  | .unknown, v => coerceAny fuel v
  | .int, .int i =>
    match toI32 i with
    | some i => .ok (.int i)
    | none => .error .scalarValue
  | .float, .int i => .ok (.float (intToF64 i))
  | .float, .float q => .ok (.float q)
  | .int, .float q => if canCoerceToInt q then .ok (.int (asI32 q)) else .error .scalarType
  | .string, .str s => .ok (.str s)
  | .boolean, .bool b => .ok (.bool b)
  | _, .var name => variableRef vars name ⟨d, .new⟩
  | _, _ => .error .scalarType

/-- `coerce_enum`, query.rs:330-357. -/
def coerceEnum (values : List EnumVal) (v : Lit) : Except Err Q :=
  match v with
  | .enum name =>
    match (values.find? fun e => decide (e.name = name)).filter fun e => !e.inaccessible with
    | some e => .ok (.enumValue e.id)
    | none => .error .unknownEnum
  | _ => .error .enumType

/-- `fields.iter().position(..)` and `fields.swap_remove(index)`: the value and the other entries. Their order only
matters for the text of an error. -/
def swapRemove (name : Str) : List (Str × Lit) → Option (Lit × List (Str × Lit))
  | [] => none
  | (k, v) :: rest =>
    if k = name then some (v, rest)
    else (swapRemove name rest).map fun r => (r.1, (k, v) :: r.2)

/-- The loop over the fields of an input object, query.rs:290-310: the coerced fields and the entries that are left. -/
def fieldLoop (co : Ty → Lit → Except Err Q) : List InputField → List (Str × Lit) →
    Except Err (List (Nat × Q) × List (Str × Lit))
  | [], fs => .ok ([], fs)
  | f :: rest, fs =>
    if f.inaccessible then fieldLoop co rest fs
    else
      match swapRemove f.name fs with
      | none =>
        match f.default with
        | some d => do
          let r ← fieldLoop co rest fs
          pure ((f.id, .default d) :: r.1, r.2)
        | none => if f.ty.wrapping.isNonNull then .error .unexpectedNull else fieldLoop co rest fs
      | some (v, fs') => do
        let o ← co f.ty v
        let r ← fieldLoop co rest fs'
        pure ((f.id, o) :: r.1, r.2)

/-- The value of the field of a `@oneOf` input object, query.rs:271-285: variables are looked up directly. -/
def coerceOneOfField (vars : Option (List VarDef)) (co : Ty → Lit → Except Err Q) (ty : Ty) (v : Lit) : Except Err Q :=
  match v with
  | .var name => variableRef vars name ty
  | v => co ty v

/-- `coerce_input_object`, query.rs:228-328; `co` is `coerce_input_value`. -/
def coerceObject (vars : Option (List VarDef)) (co : Ty → Lit → Except Err Q) (oneOf : Bool) (fields : List InputField)
    (v : Lit) : Except Err Q :=
  match v with
  | .obj fs =>
    if oneOf then
      match fs with
      | [(name, v)] =>
        match fields.find? fun f => !f.inaccessible && decide (f.name = name) with
        | some f => (coerceOneOfField vars co f.ty v).map fun o => .object true [(f.id, o)]
        | none => .error .unknownField
      | _ => .error .oneOf
    else do
      let r ← fieldLoop co fields fs
      if r.2.isEmpty then pure (.object false r.1) else .error .unknownField
  | _ => .error .missingObject

/-- Lines 132-134: one list around the value per list wrapping. -/
def wrap : Nat → Q → Q
  | 0, o => o
  | n + 1, o => wrap n (.list [o])

mutual

/-- `coerce_input_value`, query.rs:125-139. -/
def coerceInput (s : Schema) (vars : Option (List VarDef)) : Nat → Ty → Lit → Except Err Q
  | 0, _, _ => .error .fuel
  | n + 1, ty, v =>
    if ty.wrapping.isList && !v.isList && !v.isNull && !v.isVar then
      (coerceNamed s vars n ty.definition v).map (wrap ty.wrapping.listWrappings.length)
    else coerceType s vars n ty.definition ty.wrapping v

/-- `coerce_type`, query.rs:141-211. -/
def coerceType (s : Schema) (vars : Option (List VarDef)) : Nat → Nat → Wrapping → Lit → Except Err Q
  | 0, _, _, _ => .error .fuel
  | n + 1, d, w, v =>
    match v with
    | .var name => variableRef vars name ⟨d, w⟩
    | v =>
      match w.popOutermost with
      | none => .error .unreachable
      | some (none, w) =>
        if v.isNull then (if w.isNonNull then .error .unexpectedNull else .ok .null)
        else coerceNamed s vars n d v
      | some (some lw, w) =>
        match v, lw with
        | .null, .listNonNull => .error .unexpectedNull
        | .null, .list => .ok .null
        | .list xs, _ => (mapE (coerceType s vars n d w) xs).map .list
        | _, _ => .error .missingList

/-- `coerce_named_type`, query.rs:213-226. -/
def coerceNamed (s : Schema) (vars : Option (List VarDef)) : Nat → Nat → Lit → Except Err Q
  | 0, _, _ => .error .fuel
  | n + 1, d, v =>
    match s d with
    | .scalar t => coerceScalar vars (n + 1) d t v
    | .enum vs => coerceEnum vs v
    | .inputObject oneOf fields => coerceObject vars (coerceInput s vars n) oneOf fields v
    | .output => .error .unreachable

end

mutual
/-- The nesting of a value. -/
def height : Lit → Nat
  | .list xs => heightItems xs + 1
  | .obj fs => heightFields fs + 1
  | _ => 1
def heightItems : List Lit → Nat
  | [] => 0
  | x :: xs => max (height x) (heightItems xs)
def heightFields : List (Str × Lit) → Nat
  | [] => 0
  | (_, x) :: xs => max (height x) (heightFields xs)
end

/-- Fuel for a value. -/
def fuelFor (v : Lit) : Nat := 3 * height v

/-- `coerce_query_value`, query.rs:38-57, and `coerce_variable_default_value`, query.rs:17-36 (with `vars = none`). -/
def coerceQueryValue (s : Schema) (vars : Option (List VarDef)) (ty : Ty) (v : Lit) : Except Err Q :=
  coerceInput s vars (fuelFor v) ty v

/-! ## Variable definitions -/

/-- A variable definition as written. -/
structure Decl where
  name : Str
  ty : Ty
  default : Option Lit

/-- One iteration of `bind_variable_definitions`, operation.rs:397-441, for a declaration whose type is known: the type
of the variable and its default value. The panic on too many list wrappings is `Err.unreachable`. -/
def bindDecl (s : Schema) (d : Decl) : Except Err (Ty × Option Q) :=
  match d.default with
  | none => .ok (d.ty, none)
  | some v =>
    match variableType d.ty (!v.isNull) with
    | none => .error .unreachable
    | some ty => (coerceQueryValue s none ty v).map fun q => (ty, some q)

/-! ## Arguments -/

/-- `bind_field_arguments_sorted`, operation.rs:175-230: the bound arguments, and whether there is an unknown one is an
error. Errors are collected by the code and any of them rejects the operation. -/
def bindArguments (s : Schema) (vars : List VarDef) (defs : List InputField) (given : List (Str × Lit)) :
    Except Err (List (Nat × Q)) := do
  let r ← fieldLoop (coerceQueryValue s (some vars)) defs given
  if r.2.isEmpty then pure r.1 else .error .unknownField

/-! ## Evaluation -/

/-- What is used of the schema when a value is serialized: the name and default of an input value definition, the name of
an enum value, and default values. -/
structure Names where
  field : Nat → Str
  fieldDefault : Nat → Option Nat
  enumValue : Nat → Str
  default : Nat → Json

/-- `serialize_i32` and `serialize_i64` to JSON. -/
def jsonInt (i : Int) : Json := .num (if 0 ≤ i then .pos i.natAbs else .neg i)

mutual
/-- `VariableInputValue::serialize`, variable/walker/ser.rs:20-47. -/
def serOut (nm : Names) : Out → Json
  | .null => .null
  | .str s => .str s
  | .enumValue id => .str (nm.enumValue id)
  | .int i => jsonInt i
  | .float q => .num (.float q)
  | .bool b => .bool b
  | .object fields => .obj (serOutFields nm fields)
  | .list items => .arr (serOutItems nm items)
  | .map fields => .obj (serOutMap nm fields)
  | .default id => nm.default id
def serOutItems (nm : Names) : List Out → List Json
  | [] => []
  | x :: xs => serOut nm x :: serOutItems nm xs
def serOutFields (nm : Names) : List (Nat × Out) → List (Str × Json)
  | [] => []
  | (i, x) :: xs => (nm.field i, serOut nm x) :: serOutFields nm xs
def serOutMap (nm : Names) : List (Str × Out) → List (Str × Json)
  | [] => []
  | (k, x) :: xs => (k, serOut nm x) :: serOutMap nm xs
end

/-- The values of the variables when a plan is executed: `none` for `VariableValueRecord::Undefined`. A default value
holds no variable, it is evaluated in advance. -/
abbrev Env := Nat → Option Json

/-- `QueryInputValue::is_undefined`, query/walker/mod.rs:46-53. -/
def isUndefined (env : Env) : Q → Bool
  | .variable i => (env i).isNone
  | _ => false

mutual
/-- `QueryInputValue::serialize`, query/walker/ser.rs:7-41. An undefined variable is null. -/
def serQ (nm : Names) (env : Env) : Q → Json
  | .null => .null
  | .str s => .str s
  | .enumValue id => .str (nm.enumValue id)
  | .int i => jsonInt i
  | .i64 i => jsonInt i
  | .float q => .num (.float q)
  | .bool b => .bool b
  | .object _ fields => .obj (serFields nm env fields)
  | .list items => .arr (serItems nm env items)
  | .map fields => .obj (serMap nm env fields)
  | .default id => nm.default id
  | .variable i => (env i).getD .null
def serItems (nm : Names) (env : Env) : List Q → List Json
  | [] => []
  | x :: xs => serQ nm env x :: serItems nm env xs
/-- Lines 22-31: the default of the field instead of an undefined variable, nothing without default. -/
def serFields (nm : Names) (env : Env) : List (Nat × Q) → List (Str × Json)
  | [] => []
  | (i, x) :: xs =>
    if isUndefined env x then
      match nm.fieldDefault i with
      | some d => (nm.field i, nm.default d) :: serFields nm env xs
      | none => serFields nm env xs
    else (nm.field i, serQ nm env x) :: serFields nm env xs
def serMap (nm : Names) (env : Env) : List (Str × Q) → List (Str × Json)
  | [] => []
  | (k, x) :: xs => (k, serQ nm env x) :: serMap nm env xs
end

/-- `PlanFieldArgumentsQueryView::serialize` without selection, arguments.rs:166-175, and the values of
`PlanFieldArgumentsView` and `PlanFieldArgumentsBatchView`, arguments.rs:260-269 and 201-210. -/
def serArguments (nm : Names) (env : Env) (args : List (Nat × Q)) : List (Str × Json) := serFields nm env args

/-- `VariableDefinitionId::walk`, variable/walker/mod.rs:27-45, and `VariableValue::serialize`; `defaults` are the
default values of the variables by id. -/
def varJson (nm : Names) (defaults : Nat → Q) : VarValue → Option Json
  | .undefined => none
  | .provided o => some (serOut nm o)
  | .default id => some (serQ nm (fun _ => none) (defaults id))

/-- The environment of an accepted request. -/
def envOf (nm : Names) (defaults : Nat → Q) (vals : List VarValue) : Env :=
  fun i => (vals[i]?).bind (varJson nm defaults)

mutual
/-- `one_of_input_field_usage_record`, query.rs:271-282: the variables that are the value of a `@oneOf` field. -/
def oneOfVars : Q → List Nat
  | .object oneOf fields => oneOfVarsFields oneOf fields
  | .list items => oneOfVarsItems items
  | _ => []
def oneOfVarsItems : List Q → List Nat
  | [] => []
  | x :: xs => oneOfVars x ++ oneOfVarsItems xs
def oneOfVarsFields (oneOf : Bool) : List (Nat × Q) → List Nat
  | [] => []
  | (_, x) :: xs =>
    (match oneOf, x with
      | true, .variable i => [i]
      | _, x => oneOfVars x) ++ oneOfVarsFields oneOf xs
end

end Verif.Literals
