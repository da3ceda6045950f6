import Verif.Literals.Spec
/-!
# What the arguments of a field are

The second half of the specification: the value of a literal once the variables are known ("CoerceArgumentValues" and
"Input Coercion" of the GraphQL specification), and what it means for a JSON value to be a value of a type.
-/
namespace Verif.Literals

open Verif.Common Verif.Wrapping Verif.Coercion

/-- An integer, as it is written in JSON. -/
inductive JsonInt (i : Int) : Json → Prop
  | pos (n : Nat) : i = n → JsonInt i (.num (.pos n))
  | neg : i < 0 → JsonInt i (.num (.neg i))

/-- The values of plain literals. -/
inductive PlainValue : Lit → Json → Prop
  | null : PlainValue .null .null
  | int {i v} : JsonInt i v → PlainValue (.int i) v
  | float (q) : PlainValue (.float q) (.num (.float q))
  | str (s) : PlainValue (.str s) (.str s)
  | bool (b) : PlainValue (.bool b) (.bool b)
  | list {xs vs} : vs.length = xs.length → (∀ (i : Nat) x v, xs[i]? = some x → vs[i]? = some v → PlainValue x v) →
      PlainValue (.list xs) (.arr vs)
  | obj {fs : List (Str × Lit)} {vs : List (Str × Json)} : vs.length = fs.length →
      (∀ (i : Nat) p v, fs[i]? = some p → vs[i]? = some v → p.1 = v.1) →
      (∀ (i : Nat) p v, fs[i]? = some p → vs[i]? = some v → PlainValue p.2 v.2) → PlainValue (.obj fs) (.obj vs)

/-- The values of the literals of scalars; see `ScalarBound` for the last two rules. -/
inductive ScalarValue : ScalarType → Lit → Json → Prop
  | string (s) : ScalarValue .string (.str s) (.str s)
  | boolean (b) : ScalarValue .boolean (.bool b) (.bool b)
  | float (q) : ScalarValue .float (.float q) (.num (.float q))
  | floatInt (i) : ScalarValue .float (.int i) (.num (.float (intToF64 i)))
  | int {i v} : -2147483648 ≤ i → i ≤ 2147483647 → JsonInt i v → ScalarValue .int (.int i) v
  | custom {j v} : PlainValue j v → ScalarValue .unknown j v
  | intFloat {q : Rat} {i : Int} {v} : q = (i : Rat) → -2147483648 ≤ i → i < 2147483647 → JsonInt i v → ScalarValue .int (.float q) v
  | intClamped {q : Rat} {i : Int} {v} : q = (i : Rat) → i < -2147483648 → JsonInt (-2147483648) v → ScalarValue .int (.float q) v

/-- What the value of a literal depends on. -/
structure Ctx where
  s : Schema
  vars : Option (List VarDef)
  r : Rules
  /-- The values of the variables; none for a variable without value. -/
  env : Nat → Option Json
  /-- The default values of the schema. -/
  dflt : Nat → Json

/-- The literal is a variable without value. -/
def Absent (c : Ctx) (j : Lit) : Prop :=
  ∃ vs i v, c.vars = some vs ∧ vs[i]? = some v ∧ j = .var v.name ∧ c.env i = none

/-- The value of a field or argument is not given, or given by a variable without value. -/
def NotGiven (c : Ctx) (fs : List (Str × Lit)) (f : InputField) : Prop :=
  f.name ∉ keys fs ∨ ∃ j, (f.name, j) ∈ fs ∧ Absent c j

/-- The entries for the given fields, in the order of the declaration: the given value, or the default value, or none. -/
inductive FieldsValue (c : Ctx) (R : Nat → GType → Lit → Json → Prop) (fs : List (Str × Lit)) : List InputField →
    List (Str × Json) → Prop
  | nil : FieldsValue c R fs [] []
  | hidden {f rest out} : f.inaccessible = true → FieldsValue c R fs rest out → FieldsValue c R fs (f :: rest) out
  | given {f rest out j t v} : f.inaccessible = false → (f.name, j) ∈ fs → ¬ Absent c j → Reachable f.ty.wrapping t →
      R f.ty.definition t j v → FieldsValue c R fs rest out → FieldsValue c R fs (f :: rest) ((f.name, v) :: out)
  | default {f rest out dv} : f.inaccessible = false → NotGiven c fs f → f.default = some dv → FieldsValue c R fs rest out →
      FieldsValue c R fs (f :: rest) ((f.name, c.dflt dv) :: out)
  | omitted {f rest out t} : f.inaccessible = false → NotGiven c fs f → f.default = none → Reachable f.ty.wrapping t →
      t.required = false → FieldsValue c R fs rest out → FieldsValue c R fs (f :: rest) out

/-- `n` lists around a value. -/
def nestJ : Nat → Json → Json
  | 0, v => v
  | n + 1, v => .arr [nestJ n v]

/-- `Value c top d t j v`: the literal `j` at the type `t` over the definition `d` stands for `v`. -/
inductive Value (c : Ctx) : Bool → Nat → GType → Lit → Json → Prop
  | asIs {d t j v} : Value c false d t j v → Value c true d t j v
  | bare {d t j v} : t.isList = true → j.isList = false → j.isNull = false → j.isVar = false →
      Value c false d .named j v → Value c true d t j (nestJ t.depth v)
  | var {d t name i v} : Usable c.r c.vars d t name i → c.env i = some v → Value c false d t (.var name) v
  /-- A variable without value is null within a list. -/
  | absent {d t name i} : Usable c.r c.vars d t name i → c.env i = none → Value c false d t (.var name) .null
  | null {d t} : t.required = false → Value c false d t .null .null
  | nonNull {d t j v} : j.isVar = false → v ≠ .null → Value c false d t j v → Value c false d (.nonNull t) j v
  | list {d t xs vs} : vs.length = xs.length →
      (∀ (i : Nat) x v, xs[i]? = some x → vs[i]? = some v → Value c false d t x v) →
      Value c false d (.list t) (.list xs) (.arr vs)
  | scalar {d k j v} : c.s d = .scalar k → ScalarValue k j v → Value c false d .named j v
  | enum {d vs e} : c.s d = .enum vs → e ∈ vs → e.inaccessible = false → Value c false d .named (.enum e.name) (.str e.name)
  | object {d fields fs out} (R : Nat → GType → Lit → Json → Prop) : (∀ d t j v, R d t j v → Value c true d t j v) →
      c.s d = .inputObject false fields → (keys fs).Nodup → (∀ k ∈ keys fs, ∃ f ∈ accessible fields, f.name = k) →
      FieldsValue c R fs fields out → Value c false d .named (.obj fs) (.obj out)
  | oneOf {d fields f t j v} : c.s d = .inputObject true fields → f ∈ accessible fields → Reachable f.ty.wrapping t →
      (v = .null → c.r.oneOfNull) → ¬ Absent c j → Value c true f.ty.definition t j v →
      Value c false d .named (.obj [(f.name, j)]) (.obj [(f.name, v)])

/-! ## JSON values given for variables -/

/-- A JSON value with its numbers as `f64`. -/
inductive Rounded : Json → Json → Prop
  | null : Rounded .null .null
  | bool (b) : Rounded (.bool b) (.bool b)
  | str (s) : Rounded (.str s) (.str s)
  | num (n : Num) : Rounded (.num n) (.num (.float n.asF64))
  | arr {xs vs} : vs.length = xs.length → (∀ (i : Nat) x v, xs[i]? = some x → vs[i]? = some v → Rounded x v) → Rounded (.arr xs) (.arr vs)
  | obj {fs vs : List (Str × Json)} : vs.length = fs.length →
      (∀ (i : Nat) p v, fs[i]? = some p → vs[i]? = some v → p.1 = v.1) →
      (∀ (i : Nat) p v, fs[i]? = some p → vs[i]? = some v → Rounded p.2 v.2) → Rounded (.obj fs) (.obj vs)

/-- The values of scalars; see `Coercion.ScalarCoerced` for the rules for `Int`. -/
inductive ScalarGiven : ScalarType → Json → Json → Prop
  | string (s) : ScalarGiven .string (.str s) (.str s)
  | boolean (b) : ScalarGiven .boolean (.bool b) (.bool b)
  | float (n : Num) : ScalarGiven .float (.num n) (.num (.float n.asF64))
  | int {n : Num} {i : Int} {v} : n.value = (i : Rat) → -2147483648 ≤ i → i ≤ 2147483647 → JsonInt i v → ScalarGiven .int (.num n) v
  | intClamped {q : Rat} {i : Int} {v} : q = (i : Rat) → i < -2147483648 → JsonInt (-2147483648) v → ScalarGiven .int (.num (.float q)) v
  | custom {j v} : Rounded j v → ScalarGiven .unknown j v

/-- The entries of an input object, in the order of the declaration. -/
inductive FieldsGiven (dflt : Nat → Json) (R : Nat → GType → Json → Json → Prop) (fs : List (Str × Json)) : List InputField →
    List (Str × Json) → Prop
  | nil : FieldsGiven dflt R fs [] []
  | hidden {f rest out} : f.inaccessible = true → FieldsGiven dflt R fs rest out → FieldsGiven dflt R fs (f :: rest) out
  | given {f rest out j t v} : f.inaccessible = false → (f.name, j) ∈ fs → Reachable f.ty.wrapping t →
      R f.ty.definition t j v → FieldsGiven dflt R fs rest out → FieldsGiven dflt R fs (f :: rest) ((f.name, v) :: out)
  | default {f rest out dv} : f.inaccessible = false → f.name ∉ Coercion.keys fs → f.default = some dv → FieldsGiven dflt R fs rest out →
      FieldsGiven dflt R fs (f :: rest) ((f.name, dflt dv) :: out)
  | omitted {f rest out t} : f.inaccessible = false → f.name ∉ Coercion.keys fs → f.default = none → Reachable f.ty.wrapping t →
      t.required = false → FieldsGiven dflt R fs rest out → FieldsGiven dflt R fs (f :: rest) out

/-- `Given s dflt top d t j v`: the JSON value `j` given for a variable of the type `t` over `d` stands for `v`. -/
inductive Given (s : Schema) (dflt : Nat → Json) : Bool → Nat → GType → Json → Json → Prop
  | asIs {d t j v} : Given s dflt false d t j v → Given s dflt true d t j v
  | bare {d t j v} : t.isList = true → j.isArray = false → j.isNull = false → Given s dflt false d .named j v →
      Given s dflt true d t j (nestJ t.depth v)
  | null {d t} : t.required = false → Given s dflt false d t .null .null
  | nonNull {d t j v} : v ≠ .null → Given s dflt false d t j v → Given s dflt false d (.nonNull t) j v
  | list {d t xs vs} : vs.length = xs.length →
      (∀ (i : Nat) x v, xs[i]? = some x → vs[i]? = some v → Given s dflt false d t x v) → Given s dflt false d (.list t) (.arr xs) (.arr vs)
  | scalar {d k j v} : s d = .scalar k → ScalarGiven k j v → Given s dflt false d .named j v
  | enum {d vs e} : s d = .enum vs → e ∈ vs → e.inaccessible = false → Given s dflt false d .named (.str e.name) (.str e.name)
  | object {d fields fs out} (R : Nat → GType → Json → Json → Prop) : (∀ d t j v, R d t j v → Given s dflt true d t j v) →
      s d = .inputObject false fields → (∀ k ∈ Coercion.keys fs, ∃ f ∈ accessible fields, f.name = k) →
      FieldsGiven dflt R fs fields out → Given s dflt false d .named (.obj fs) (.obj out)
  | oneOf {d fields f t j v} : s d = .inputObject true fields → f ∈ accessible fields → Reachable f.ty.wrapping t →
      Given s dflt true f.ty.definition t j v → Given s dflt false d .named (.obj [(f.name, j)]) (.obj [(f.name, v)])

/-- `IsValue s r d t v`: the JSON value `v` is a value of the type `t` over the definition `d`. -/
inductive IsValue (s : Schema) (r : Rules) : Nat → GType → Json → Prop
  | null {d t} : t.required = false → IsValue s r d t .null
  | nonNull {d t v} : v ≠ .null → IsValue s r d t v → IsValue s r d (.nonNull t) v
  | list {d t vs} : (∀ v ∈ vs, IsValue s r d t v) → IsValue s r d (.list t) (.arr vs)
  | bare {d t v} : r.bare → t.isList = true → v ≠ .null → IsValue s r d .named v → IsValue s r d t v
  | string {d v} : s d = .scalar .string → IsValue s r d .named (.str v)
  | boolean {d v} : s d = .scalar .boolean → IsValue s r d .named (.bool v)
  | float {d n} : s d = .scalar .float → IsValue s r d .named (.num n)
  | int {d i v} : s d = .scalar .int → -2147483648 ≤ i → i ≤ 2147483647 → JsonInt i v → IsValue s r d .named v
  | custom {d v} : s d = .scalar .unknown → IsValue s r d .named v
  | enum {d vs e} : s d = .enum vs → e ∈ vs → e.inaccessible = false → IsValue s r d .named (.str e.name)
  | object {d fields fs} {oneOf : Bool} (R : Nat → GType → Json → Prop) : (∀ d t v, R d t v → IsValue s r d t v) →
      s d = .inputObject oneOf fields → (Coercion.keys fs).Nodup →
      (∀ p ∈ fs, ∃ f ∈ accessible fields, ∃ t, f.name = p.1 ∧ Reachable f.ty.wrapping t ∧ R f.ty.definition t p.2) →
      (oneOf = false → ∀ f ∈ accessible fields, f.default = none → ∀ t, Reachable f.ty.wrapping t → t.required = true →
        f.name ∈ Coercion.keys fs) →
      (oneOf = true → ∃ p, fs = [p] ∧ (p.2 = .null → r.oneOfNull)) → IsValue s r d .named (.obj fs)

/-- Without bare items for lists. -/
def Rules.tight (r : Rules) : Rules := { r with bare := False }

/-- The names known to the serializer are those of the schema and of the arguments. -/
structure NamesOk (s : Schema) (nm : Names) (args : List InputField) : Prop where
  fields : ∀ d o fields, s d = .inputObject o fields → ∀ f ∈ fields, nm.field f.id = f.name ∧ nm.fieldDefault f.id = f.default
  args : ∀ f ∈ args, nm.field f.id = f.name ∧ nm.fieldDefault f.id = f.default
  enums : ∀ d vs, s d = .enum vs → ∀ e ∈ vs, nm.enumValue e.id = e.name

/-- The default values of the schema are values of their types. -/
structure DefaultsOk (s : Schema) (r : Rules) (dflt : Nat → Json) (args : List InputField) : Prop where
  fields : ∀ d o fields, s d = .inputObject o fields → ∀ f ∈ fields, ∀ dv, f.default = some dv →
    ∀ t, Reachable f.ty.wrapping t → IsValue s r.tight f.ty.definition t (dflt dv)
  args : ∀ f ∈ args, ∀ dv, f.default = some dv → ∀ t, Reachable f.ty.wrapping t → IsValue s r.tight f.ty.definition t (dflt dv)

/-- Only nullable variables have no value. -/
def Defined (vars : Option (List VarDef)) (env : Nat → Option Json) : Prop :=
  ∀ vs (i : Nat) v T, vars = some vs → vs[i]? = some v → env i = none → Reachable v.ty.wrapping T → T.required = false

/-- What is known of the values of the variables: every one has a value of its type, and only nullable ones have none. -/
structure EnvOk (s : Schema) (r : Rules) (vars : Option (List VarDef)) (env : Nat → Option Json) : Prop where
  values : ∀ vs (i : Nat) v w T, vars = some vs → vs[i]? = some v → env i = some w → Reachable v.ty.wrapping T →
    IsValue s r.tight v.ty.definition T w
  defined : Defined vars env

end Verif.Literals
