import Verif.Coercion.Model
import Verif.Wrapping.Spec
/-!
# What it means for a variable value to be coerced

The reading of the GraphQL specification ("Input coercion" of the sections Scalars, Enums, Input Objects, List,
Non-Null) against which the code is checked. Types are `GType`s; `Reachable w t` (see `Verif.Wrapping.Spec`) says that
the packed wrapping `w` was built as the type `t`.
-/
namespace Verif.Coercion

open Verif.Common Verif.Wrapping

/-- The number a JSON number stands for. -/
def Num.value : Num → Rat
  | .pos n => ((n : Int) : Rat)
  | .neg i => (i : Rat)
  | .float q => q

mutual
/-- The value of a custom scalar: the JSON value itself, numbers as `f64`. -/
def jsonOut : Json → Out
  | .null => .null
  | .bool b => .bool b
  | .num n => .float n.asF64
  | .str s => .str s
  | .arr xs => .list (jsonOutItems xs)
  | .obj fs => .map (jsonOutFields fs)
def jsonOutItems : List Json → List Out
  | [] => []
  | x :: xs => jsonOut x :: jsonOutItems xs
def jsonOutFields : List (Str × Json) → List (Str × Out)
  | [] => []
  | (k, x) :: xs => (k, jsonOut x) :: jsonOutFields xs
end

/-- The values of the scalars. The rule for `Int` is the code's: it differs from the specification for numbers written
with a fraction or an exponent outside of `[-2^31, 2^31 - 2]`, see property C08. -/
inductive ScalarCoerced : ScalarType → Json → Out → Prop
  | string (s) : ScalarCoerced .string (.str s) (.str s)
  | boolean (b) : ScalarCoerced .boolean (.bool b) (.bool b)
  | float (n : Num) : ScalarCoerced .float (.num n) (.float n.asF64)
  | int (n : Num) (i : Int) : n.value = (i : Rat) → -2147483648 ≤ i → i ≤ 2147483647 → n ≠ .float 2147483647 →
      ScalarCoerced .int (.num n) (.int i)
  | intClamped (q : Rat) (i : Int) : q = (i : Rat) → i < -2147483648 → ScalarCoerced .int (.num (.float q)) (.int (-2147483648))
  | custom (j) : ScalarCoerced .unknown j (jsonOut j)

/-- `n` lists around a value. -/
def nest : Nat → Out → Out
  | 0, o => o
  | n + 1, o => .list [nest n o]

def keys (fs : List (Str × Json)) : List Str := fs.map (·.1)
def ids (xs : List (Nat × Out)) : List Nat := xs.map (·.1)
def accessible (fields : List InputField) : List InputField := fields.filter fun f => !f.inaccessible

/-- `Coerced s top d t j o`: the JSON value `j` is coerced to `o` at the type `t` over the definition `d`. `top` says
that `j` is the value of a variable or of an input field, where a bare item is taken for a list. -/
inductive Coerced (s : Schema) : Bool → Nat → GType → Json → Out → Prop
  | asIs {d t j o} : Coerced s false d t j o → Coerced s true d t j o
  | bare {d t j o} : t.isList = true → j.isArray = false → j.isNull = false → Coerced s false d .named j o →
      Coerced s true d t j (nest t.depth o)
  | null {d t} : t.required = false → Coerced s false d t .null .null
  | nonNull {d t j o} : o ≠ .null → Coerced s false d t j o → Coerced s false d (.nonNull t) j o
  | list {d t xs ys} : ys.length = xs.length →
      (∀ (i : Nat) x y, xs[i]? = some x → ys[i]? = some y → Coerced s false d t x y) → Coerced s false d (.list t) (.arr xs) (.list ys)
  | scalar {d k j o} : s d = .scalar k → ScalarCoerced k j o → Coerced s false d .named j o
  | enum {d vs e} : s d = .enum vs → e ∈ vs → e.inaccessible = false → Coerced s false d .named (.str e.name) (.enumValue e.id)
  /-- Every given field is declared; every declared field is given and coerced, or has a default, or is absent and
  nullable; the fields come in the order of the declaration. -/
  | object {d fields fs xs} (R : Nat → GType → Json → Out → Prop) : (∀ d t j o, R d t j o → Coerced s true d t j o) →
      s d = .inputObject false fields →
      (∀ k ∈ keys fs, ∃ f ∈ accessible fields, f.name = k) →
      (∀ f ∈ accessible fields,
        (∃ j o t, (f.name, j) ∈ fs ∧ (f.id, o) ∈ xs ∧ Reachable f.ty.wrapping t ∧ R f.ty.definition t j o) ∨
        (f.name ∉ keys fs ∧ ∃ dv, f.default = some dv ∧ (f.id, Out.default dv) ∈ xs) ∨
        (f.name ∉ keys fs ∧ f.default = none ∧ f.id ∉ ids xs ∧ ∃ t, Reachable f.ty.wrapping t ∧ t.required = false)) →
      (ids xs).Sublist ((accessible fields).map (·.id)) →
      Coerced s false d .named (.obj fs) (.object xs)
  /-- Exactly one field is given. (The specification also demands that it is not null.) -/
  | oneOf {d fields f t j o} : s d = .inputObject true fields → f ∈ accessible fields → Reachable f.ty.wrapping t →
      Coerced s true f.ty.definition t j o → Coerced s false d .named (.obj [(f.name, j)]) (.object [(f.id, o)])

/-- The values admitted at a position: those of its type, and a bare item for a list. -/
def AdmittedAt (t : GType) (v : Val) : Prop := t.Admits v ∨ (t.isList = true ∧ ∃ n, v = .leaf n)

/-- Values of custom scalars. -/
inductive IsJsonOut : Out → Prop
  | mk (j : Json) : IsJsonOut (jsonOut j)

/-- `Conforms s nul d t o`: the coerced value `o` is a value of the type `t` over the definition `d`. With `nul`, the
field of an input object with `@oneOf` may be null. -/
inductive Conforms (s : Schema) (nul : Prop) : Nat → GType → Out → Prop
  | null {d t} : t.required = false → Conforms s nul d t .null
  | nonNull {d t o} : o ≠ .null → Conforms s nul d t o → Conforms s nul d (.nonNull t) o
  | list {d t ys} : (∀ y ∈ ys, Conforms s nul d t y) → Conforms s nul d (.list t) (.list ys)
  | string {d v} : s d = .scalar .string → Conforms s nul d .named (.str v)
  | boolean {d v} : s d = .scalar .boolean → Conforms s nul d .named (.bool v)
  | float {d v} : s d = .scalar .float → Conforms s nul d .named (.float v)
  | int {d v} : s d = .scalar .int → -2147483648 ≤ v → v ≤ 2147483647 → Conforms s nul d .named (.int v)
  | custom {d o} : s d = .scalar .unknown → IsJsonOut o → Conforms s nul d .named o
  | enum {d vs e} : s d = .enum vs → e ∈ vs → e.inaccessible = false → Conforms s nul d .named (.enumValue e.id)
  | object {d fields xs} {isOneOf : Bool} (R : Nat → GType → Out → Prop) : (∀ d t o, R d t o → Conforms s nul d t o) →
      s d = .inputObject isOneOf fields →
      (ids xs).Nodup →
      (∀ p ∈ xs, ∃ f ∈ accessible fields, f.id = p.1 ∧
        ((isOneOf = false ∧ ∃ dv, f.default = some dv ∧ p.2 = .default dv) ∨ ∃ t, Reachable f.ty.wrapping t ∧ R f.ty.definition t p.2)) →
      (isOneOf = false → ∀ f ∈ accessible fields, f.default = none → ∀ t, Reachable f.ty.wrapping t → t.required = true →
        f.id ∈ ids xs) →
      (isOneOf = true → ∃ p, xs = [p] ∧ (nul ∨ p.2 ≠ .null)) →
      Conforms s nul d .named (.object xs)

/-- What the schema of an API guarantees: wrappings are built by the builder, fields and enum values have distinct names
and ids, the types of input fields are input types. -/
structure SchemaOk (s : Schema) : Prop where
  wrapped : ∀ d o fields, s d = .inputObject o fields → ∀ f ∈ fields, ∃ t, Reachable f.ty.wrapping t
  names : ∀ d o fields, s d = .inputObject o fields → (fields.map (·.name)).Nodup
  ids : ∀ d o fields, s d = .inputObject o fields → (fields.map (·.id)).Nodup
  enums : ∀ d vs, s d = .enum vs → (vs.map (·.name)).Nodup
  inputs : ∀ d o fields, s d = .inputObject o fields → ∀ f ∈ fields, s f.ty.definition ≠ .output

/-- The keys of objects are distinct, as in every `serde_json::Value`. -/
inductive JsonOk : Json → Prop
  | null : JsonOk .null
  | bool (b) : JsonOk (.bool b)
  | num (n) : JsonOk (.num n)
  | str (s) : JsonOk (.str s)
  | arr (xs) : (∀ x ∈ xs, JsonOk x) → JsonOk (.arr xs)
  | obj (fs) : (keys fs).Nodup → (∀ p ∈ fs, JsonOk p.2) → JsonOk (.obj fs)

/-- No member of an object is null, at any depth. -/
inductive NoNullMember : Json → Prop
  | null : NoNullMember .null
  | bool (b) : NoNullMember (.bool b)
  | num (n) : NoNullMember (.num n)
  | str (s) : NoNullMember (.str s)
  | arr (xs) : (∀ x ∈ xs, NoNullMember x) → NoNullMember (.arr xs)
  | obj (fs) : (∀ p ∈ fs, p.2.isNull = false) → (∀ p ∈ fs, NoNullMember p.2) → NoNullMember (.obj fs)

end Verif.Coercion
