import Verif.OpChecks.Model
import Verif.CheckTypes.Props
/-!
# Operation checks: what it means to use the schema

Stated over the two documents, without the tables.
-/
namespace Verif.OpChecks
open Verif.CheckTypes Verif.Common

/-- The first type of that name, if it has fields. -/
def SDoc.typeDef (d : SDoc) (ty : Name) : Option TypeDef :=
  d.types.find? fun t => decide (t.name = ty) && decide (t.kind ≠ .other)

/-- The definition of `ty.field`. -/
def SDoc.fieldDef (d : SDoc) (ty field : Name) : Option FieldDef :=
  (d.typeDef ty).bind fun t => t.fields.find? fun f => decide (f.name = field)

/-- The definition of the argument `ty.field(arg:)`. -/
def SDoc.argDef (d : SDoc) (ty field arg : Name) : Option ArgDef :=
  (d.fieldDef ty field).bind fun f => f.args.find? fun a => decide (a.name = arg)

/-- `ty` is an object type. -/
def SDoc.isObject (d : SDoc) (ty : Name) : Bool :=
  match d.typeDef ty with
  | some t => decide (t.kind = .object)
  | none => false

/-- No name is defined twice: types, fields of a type, arguments of a field. -/
structure SDoc.Valid (d : SDoc) : Prop where
  types : (d.types.map (·.name)).Nodup
  fields : ∀ t ∈ d.types, (t.fields.map (·.name)).Nodup
  args : ∀ t ∈ d.types, ∀ f ∈ t.fields, (f.args.map (·.name)).Nodup

/-- One use of a schema coordinate. -/
inductive Use where
  /-- The field is selected. -/
  | field (ty field : Name)
  /-- The argument is provided. -/
  | arg (ty field arg : Name)
  /-- The enum value is written as the value of the argument. -/
  | enumValue (ty field arg enum value : Name)
  /-- The enum value is written inside a list for the argument. -/
  | enumItem (ty field arg enum value : Name)
  /-- The enum value is the default of a variable. -/
  | enumDefault (enum value : Name)
  /-- A required argument with a default is not provided. -/
  | leftOut (ty field arg : Name)
  /-- An inline fragment on `on` in a selection on `ty`. -/
  | inlineOn (ty on : Name)
  /-- A named fragment on `on` spread in a selection on `ty`. -/
  | spreadOn (ty on : Name)
  deriving DecidableEq, Repr

/-- The uses by one provided argument. -/
def argUses (ty : Name) (f : FieldDef) (a : ArgLit) : List Use :=
  match f.args.find? fun d => decide (d.name = a.name) with
  | none => []
  | some d => .arg ty f.name a.name ::
      match a.value with
      | .enum v => [.enumValue ty f.name a.name d.base v]
      | .enumList vs => vs.map fun v => .enumItem ty f.name a.name d.base v
      | .other => []

/-- The required arguments with a default that are not provided. -/
def leftOutUses (ty : Name) (f : FieldDef) (args : List ArgLit) : List Use :=
  (f.args.filter fun d =>
    d.ty.toGType.required && d.hasDefault && !(args.map (·.name)).contains d.name).map
    fun d => .leftOut ty f.name d.name

/-- `Expands d frags ty items uses`: the selection `items` on type `ty`, with the fragments replaced by
their definitions, makes exactly these uses. -/
inductive Expands (d : SDoc) (frags : List (Name × Name × Items)) : Name → Items → List Use → Prop
  | nil {ty} : Expands d frags ty .nil []
  | field {ty name args sub rest f us vs} :
      d.fieldDef ty name = some f → Expands d frags f.base sub us → Expands d frags ty rest vs →
      Expands d frags ty (.field name args sub rest)
        (.field ty name :: args.flatMap (argUses ty f) ++ us ++ leftOutUses ty f args ++ vs)
  | unknownField {ty name args sub rest vs} :
      d.fieldDef ty name = none → Expands d frags ty rest vs →
      Expands d frags ty (.field name args sub rest) vs
  | spread {ty name on items rest us vs} :
      (name, on, items) ∈ frags → Expands d frags on items us → Expands d frags ty rest vs →
      Expands d frags ty (.spread name rest) (.spreadOn ty on :: us ++ vs)
  | unknownSpread {ty name rest vs} :
      (∀ f ∈ frags, f.1 ≠ name) → Expands d frags ty rest vs →
      Expands d frags ty (.spread name rest) vs
  | inlineOn {ty on sub rest us vs} :
      Expands d frags on sub us → Expands d frags ty rest vs →
      Expands d frags ty (.inline (some on) sub rest) (.inlineOn ty on :: us ++ vs)
  | inline {ty sub rest us vs} :
      Expands d frags ty sub us → Expands d frags ty rest vs →
      Expands d frags ty (.inline none sub rest) (us ++ vs)

/-- The root type of the operation. -/
def SDoc.root (d : SDoc) : OpType → Name
  | .query => d.query
  | .mutation => d.mutation
  | .subscription => d.subscription

/-- The enum values that are defaults of variables. -/
def defaultUses (vars : List (Name × Option Literal)) : List Use :=
  vars.flatMap fun v => match v.2 with
    | some (.enum e) => [.enumDefault v.1 e]
    | _ => []

/-- One execution of the operation makes these uses. -/
def Uses (d : SDoc) (q : Doc) (us : List Use) : Prop :=
  ∃ vs, Expands d q.fragments (d.root q.opType) q.items vs ∧ us = defaultUses q.variables ++ vs

/-- Recorded operations: the number of executions, the document and the uses of one execution. -/
abbrev Recorded := List (Nat × Doc × List Use)

/-- The number of uses satisfying `p`, weighted by the executions. -/
def total (ops : Recorded) (p : Use → Bool) : Nat := (ops.map fun o => o.1 * o.2.2.countP p).sum

/-- Some operation makes such a use. -/
def used (ops : Recorded) (p : Use → Bool) : Bool := ops.any fun o => o.2.2.any p

end Verif.OpChecks
