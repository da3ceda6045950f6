import Verif.Wrapping.Model
/-!
# Coercion of variable values

Model of `crates/engine/operation/src/bind/coercion/variable.rs`, of `bind_variables` in
`crates/engine/operation/src/bind/mod.rs` and of the parts of `crates/engine/operation/src/bind/operation.rs` and
`bind/coercion/query.rs` that decide the type of a variable and where it may be used.

Simplifications: coerced values are trees, where the code stores them in three arenas and refers to ranges of them;
error values carry the kind of error only (no path, no location, no text); `f64` is the rational it stands for (JSON
numbers are finite); the recursion over the JSON value is by fuel, `Err.fuel` being the answer without fuel, and
`coerceVariable` provides enough (`Verif.Coercion.C07_no_panic`).
-/
namespace Verif.Coercion

open Verif.Wrapping

abbrev Str := List Char

/-- `serde_json::Number`, without the feature `arbitrary_precision`: `PosInt(u64)`, `NegInt(i64)` (negative),
`Float(f64)` (finite). -/
inductive Num where
  | pos (n : Nat)
  | neg (i : Int)
  | float (q : Rat)
  deriving DecidableEq

/-- `serde_json::Value`; objects keep their order (feature `preserve_order`). -/
inductive Json where
  | null
  | bool (b : Bool)
  | num (n : Num)
  | str (s : Str)
  | arr (items : List Json)
  | obj (fields : List (Str × Json))

namespace Json
def isNull : Json → Bool
  | null => true
  | _ => false
def isArray : Json → Bool
  | arr _ => true
  | _ => false
end Json

/-- `ScalarType`, schema/src/lib.rs:302-310. -/
inductive ScalarType where
  | string | float | int | boolean | unknown
  deriving DecidableEq

/-- `Type`: a definition and a wrapping. -/
structure Ty where
  definition : Nat
  wrapping : Wrapping
  deriving DecidableEq

/-- What is used of an `InputValueDefinition`. -/
structure InputField where
  id : Nat
  name : Str
  ty : Ty
  default : Option Nat
  inaccessible : Bool
  deriving DecidableEq

/-- What is used of an `EnumValue`. -/
structure EnumVal where
  id : Nat
  name : Str
  inaccessible : Bool
  deriving DecidableEq

/-- What is used of a `TypeDefinition`; `output` stands for objects, interfaces and unions. -/
inductive Def where
  | scalar (t : ScalarType)
  | enum (values : List EnumVal)
  | inputObject (oneOf : Bool) (fields : List InputField)
  | output

abbrev Schema := Nat → Def

/-- `VariableInputValueRecord`, model/input_value/variable/mod.rs:88-110, as a tree. -/
inductive Out where
  | null
  | str (s : Str)
  | enumValue (id : Nat)
  | int (i : Int)
  | float (q : Rat)
  | bool (b : Bool)
  | object (fields : List (Nat × Out))
  | list (items : List Out)
  | map (fields : List (Str × Out))
  | default (id : Nat)

/-- `InputValueError`, bind/coercion/error.rs, by kind; `unreachable` is a panic of the code, `fuel` is the model's. The
three kinds about variables are used in `Verif.Literals`. -/
inductive Err where
  | oneOf | unexpectedNull | missingList | missingObject | unknownField | enumType | unknownEnum | scalarType | scalarValue
  | unknownVariable | variableType | variableInDefault
  | unreachable
  | fuel
  deriving DecidableEq

/-- `?` in a loop over a list. -/
def mapE {α β : Type} (f : α → Except Err β) : List α → Except Err (List β)
  | [] => .ok []
  | x :: xs => do
    let y ← f x
    let ys ← mapE f xs
    pure (y :: ys)

/-- Truncation towards zero. -/
def trunc (q : Rat) : Int := if 0 ≤ q then q.floor else -((-q).floor)

/-- `float as i32`: truncates and saturates. -/
def asI32 (q : Rat) : Int :=
  if trunc q < -2147483648 then -2147483648 else if 2147483647 < trunc q then 2147483647 else trunc q

/-- `can_coerce_to_int`, variable.rs:327-329. -/
def canCoerceToInt (q : Rat) : Bool := decide ((q.floor : Rat) = q) && decide (q < 2147483647)

/-- The nearest `f64` of a natural number, ties to even. -/
def natToF64 (n : Nat) : Nat :=
  let bits := Nat.log2 n
  if bits < 53 then n
  else
    let k := bits - 52
    let q := n / 2 ^ k
    let r := n % 2 ^ k
    let up := decide (2 ^ (k - 1) < r) || (decide (r = 2 ^ (k - 1)) && decide (q % 2 = 1))
    (if up then q + 1 else q) * 2 ^ k

/-- `Number::as_f64`; always `Some`. -/
def Num.asF64 : Num → Rat
  | .pos n => (natToF64 n : Int)
  | .neg i => -(natToF64 i.natAbs : Int)
  | .float q => q

/-- `Number::as_i64`. -/
def Num.asI64 : Num → Option Int
  | .pos n => if n ≤ 9223372036854775807 then some n else none
  | .neg i => some i
  | .float _ => none

/-- `i32::try_from`. -/
def toI32 (i : Int) : Option Int := if -2147483648 ≤ i ∧ i ≤ 2147483647 then some i else none

/-- `coerce_scalar` for `ScalarType::Unknown`, variable.rs:255-281. -/
def coerceAny : Nat → Json → Except Err Out
  | 0, _ => .error .fuel
  | _ + 1, .null => .ok .null
  | _ + 1, .num n => .ok (.float n.asF64)
  | _ + 1, .str s => .ok (.str s)
  | _ + 1, .bool b => .ok (.bool b)
  | n + 1, .arr xs => (mapE (coerceAny n) xs).map .list
  | n + 1, .obj fs => (mapE (fun p => (coerceAny n p.2).map fun v => (p.1, v)) fs).map .map

/-- `coerce_scalar`, variable.rs:249-320. -/
def coerceScalar (fuel : Nat) (t : ScalarType) (v : Json) : Except Err Out :=
  match t, v with
  | .unknown, v => coerceAny fuel v
  | .int, .num (.float q) => if canCoerceToInt q then .ok (.int (asI32 q)) else .error .scalarValue
  | .int, .num n =>
    match n.asI64.bind toI32 with
    | some i => .ok (.int i)
    | none => .error .scalarValue
  | .float, .num n => .ok (.float n.asF64)
  | .string, .str s => .ok (.str s)
  | .boolean, .bool b => .ok (.bool b)
  | _, _ => .error .scalarType

/-- `coerce_enum`, variable.rs:220-247, with `find_value_by_name`, schema/src/enum_def.rs:4-6. -/
def coerceEnum (values : List EnumVal) (v : Json) : Except Err Out :=
  match v with
  | .str name =>
    match (values.find? fun e => decide (e.name = name)).filter fun e => !e.inaccessible with
    | some e => .ok (.enumValue e.id)
    | none => .error .unknownEnum
  | _ => .error .enumType

/-- `fields.swap_remove(name)` of an `IndexMap`: the value and the other entries. Their order only matters for the text
of an error. -/
def swapRemove (name : Str) : List (Str × Json) → Option (Json × List (Str × Json))
  | [] => none
  | (k, v) :: rest =>
    if k = name then some (v, rest)
    else (swapRemove name rest).map fun r => (r.1, (k, v) :: r.2)

/-- The loop over the fields of an input object, variable.rs:179-203: the coerced fields and the entries that are
left. -/
def fieldLoop (co : Ty → Json → Except Err Out) : List InputField → List (Str × Json) →
    Except Err (List (Nat × Out) × List (Str × Json))
  | [], fs => .ok ([], fs)
  | f :: rest, fs =>
    if f.inaccessible then fieldLoop co rest fs
    else
      match swapRemove f.name fs with
      | none =>
        match f.default with
        | some d => do
          let r ← fieldLoop co rest fs
          pure ((f.id, .default d) :: r.1, r.2)
        | none => if f.ty.wrapping.isNonNull then .error .unexpectedNull else fieldLoop co rest fs
      | some (v, fs') => do
        let o ← co f.ty v
        let r ← fieldLoop co rest fs'
        pure ((f.id, o) :: r.1, r.2)

/-- `coerce_input_objet`, variable.rs:131-218; `co` is `coerce_input_value`. -/
def coerceObject (co : Ty → Json → Except Err Out) (oneOf : Bool) (fields : List InputField) (v : Json) : Except Err Out :=
  match v with
  | .obj fs =>
    if oneOf then
      match fs with
      | [(name, v)] =>
        match fields.find? fun f => !f.inaccessible && decide (f.name = name) with
        | some f => (co f.ty v).map fun o => .object [(f.id, o)]
        | none => .error .unknownField
      | _ => .error .oneOf
    else do
      let r ← fieldLoop co fields fs
      if r.2.isEmpty then pure (.object r.1) else .error .unknownField
  | _ => .error .missingObject

/-- Lines 46-48: one list around the value per list wrapping. -/
def wrap : Nat → Out → Out
  | 0, o => o
  | n + 1, o => wrap n (.list [o])

mutual

/-- `coerce_input_value`, variable.rs:43-53. -/
def coerceInput (s : Schema) : Nat → Ty → Json → Except Err Out
  | 0, _, _ => .error .fuel
  | n + 1, ty, v =>
    if ty.wrapping.isList && !v.isArray && !v.isNull then
      (coerceNamed s n ty.definition v).map (wrap ty.wrapping.listWrappings.length)
    else coerceType s n ty.definition ty.wrapping v

/-- `coerce_type`, variable.rs:55-114. -/
def coerceType (s : Schema) : Nat → Nat → Wrapping → Json → Except Err Out
  | 0, _, _, _ => .error .fuel
  | n + 1, d, w, v =>
    match w.popOutermost with
    | none => .error .unreachable
    | some (none, w) =>
      if v.isNull then (if w.isNonNull then .error .unexpectedNull else .ok .null)
      else coerceNamed s n d v
    | some (some lw, w) =>
      match v, lw with
      | .null, .listNonNull => .error .unexpectedNull
      | .null, .list => .ok .null
      | .arr xs, _ => (mapE (coerceType s n d w) xs).map .list
      | _, _ => .error .missingList

/-- `coerce_named_type`, variable.rs:116-129. -/
def coerceNamed (s : Schema) : Nat → Nat → Json → Except Err Out
  | 0, _, _ => .error .fuel
  | n + 1, d, v =>
    match s d with
    | .scalar t => coerceScalar (n + 1) t v
    | .enum vs => coerceEnum vs v
    | .inputObject oneOf fields => coerceObject (coerceInput s n) oneOf fields v
    | .output => .error .unreachable

end

mutual
/-- The nesting of a value. -/
def height : Json → Nat
  | .arr xs => heightItems xs + 1
  | .obj fs => heightFields fs + 1
  | _ => 1
def heightItems : List Json → Nat
  | [] => 0
  | x :: xs => max (height x) (heightItems xs)
def heightFields : List (Str × Json) → Nat
  | [] => 0
  | (_, x) :: xs => max (height x) (heightFields xs)
end

/-- Fuel for a value. -/
def fuelFor (v : Json) : Nat := 3 * height v

/-- `coerce_variable`, variable.rs:17-32. -/
def coerceVariable (s : Schema) (ty : Ty) (v : Json) : Except Err Out := coerceInput s (fuelFor v) ty v

/-! ## Variable definitions and their values -/

/-- The type of a variable in `bind_variable_definitions`, bind/operation.rs:417-426; `declared` is the type as
written, `nonNullDefault` says that there is a default value other than null. `none` is the panic on too many list
wrappings. -/
def variableType (declared : Ty) (nonNullDefault : Bool) : Option Ty :=
  if nonNullDefault then
    if declared.wrapping.isList then declared.wrapping.listNonNull.map fun w => ⟨declared.definition, w⟩
    else some ⟨declared.definition, Wrapping.new.nonNull⟩
  else some declared

/-- What is used of a `VariableDefinition`: its name, `ty_record`, `default_value_id`, and whether it is used for a field
of an input object with `@oneOf`. -/
structure VarDef where
  name : Str
  ty : Ty
  default : Option Nat
  oneOfUsage : Bool
  deriving DecidableEq

/-- `VariableValueRecord`. -/
inductive VarValue where
  | undefined
  | provided (o : Out)
  | default (id : Nat)

/-- One iteration of `bind_variables`, bind/mod.rs:124-164: the number of errors and the value. -/
def bindVariable (s : Schema) (d : VarDef) (given : Option Json) : Nat × VarValue :=
  match given with
  | some v =>
    let nullErr := if d.oneOfUsage && v.isNull then 1 else 0
    match coerceVariable s d.ty v with
    | .ok o => (nullErr, .provided o)
    | .error _ => (nullErr + 1, .undefined)
  | none =>
    match d.default with
    | some id => (0, .default id)
    | none =>
      if d.ty.wrapping.isNonNull then (1, .undefined)
      else if d.oneOfUsage then (1, .undefined)
      else (0, .undefined)

/-- The loop of `bind_variables`: `request_variables.remove` for each definition. -/
def bindLoop (s : Schema) : List VarDef → List (Str × Json) → List (Nat × VarValue)
  | [], _ => []
  | d :: ds, raw =>
    match swapRemove d.name raw with
    | some (v, raw') => bindVariable s d (some v) :: bindLoop s ds raw'
    | none => bindVariable s d none :: bindLoop s ds raw

/-- `bind_variables`, bind/mod.rs:112-171: `none` when there is an error. -/
def bindVariables (s : Schema) (defs : List VarDef) (raw : List (Str × Json)) : Option (List VarValue) :=
  let r := bindLoop s defs raw
  if (r.map (·.1)).sum = 0 then some (r.map (·.2)) else none

/-! ## Where a variable may be used -/

/-- `are_type_compatibles`, bind/coercion/query.rs:435-449. The definitions of variables are input types, so that the
second alternative of the comparison of definitions never applies (`as_composite_type` is for output types). -/
def areTypesCompatible (ty usedAs : Ty) : Bool :=
  decide (ty.definition = usedAs.definition) &&
    (usedAs.wrapping.isEqualOrMoreLenientThan ty.wrapping ||
      (!ty.wrapping.isList && (usedAs.wrapping.isNullable || ty.wrapping.isNonNull)))

end Verif.Coercion
