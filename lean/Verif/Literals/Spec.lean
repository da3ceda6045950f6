import Verif.Literals.Model
import Verif.Coercion.Spec
/-!
# What it means for a value written in an operation to be coerced

The reading of the GraphQL specification ("Input Coercion", "All Variable Usages Are Allowed", "Coerce argument values")
against which the code is checked, in two steps as in the code: the value is checked when the operation is bound (`Bound`),
and gets its value when the variables are known (`Value`).
-/
namespace Verif.Literals

open Verif.Common Verif.Wrapping Verif.Coercion

/-- Where the code departs from the GraphQL specification: `bare`, a variable over an item may be used for a list;
`oneOfNull`, the field of a `@oneOf` input object may be null. -/
structure Rules where
  bare : Prop
  oneOfNull : Prop

def lax : Rules := ⟨True, True⟩
def strict : Rules := ⟨False, False⟩

/-- The values a position admits. -/
def Admitted (r : Rules) (t : GType) (v : Val) : Prop := t.Admits v ∨ (r.bare ∧ t.isList = true ∧ ∃ n, v = .leaf n)

/-- Values of custom scalars: no variable, no enum value. -/
inductive Plain : Lit → Prop
  | null : Plain .null
  | int (i) : Plain (.int i)
  | float (q) : Plain (.float q)
  | str (s) : Plain (.str s)
  | bool (b) : Plain (.bool b)
  | list (xs) : (∀ x ∈ xs, Plain x) → Plain (.list xs)
  | obj (fs) : (∀ p ∈ fs, Plain p.2) → Plain (.obj fs)

mutual
/-- A plain value as it is. -/
def plainQ : Lit → Q
  | .null => .null
  | .int i => .i64 i
  | .float q => .float q
  | .str s => .str s
  | .bool b => .bool b
  | .list xs => .list (plainQItems xs)
  | .obj fs => .map (plainQFields fs)
  | .enum s => .str s
  | .var _ => .null
def plainQItems : List Lit → List Q
  | [] => []
  | x :: xs => plainQ x :: plainQItems xs
def plainQFields : List (Str × Lit) → List (Str × Q)
  | [] => []
  | (k, x) :: xs => (k, plainQ x) :: plainQFields xs
end

/-- Literals of scalars. The last two rules for `Int` are the code's: the GraphQL specification rejects literals with a
fraction or an exponent. -/
inductive ScalarBound : ScalarType → Lit → Q → Prop
  | string (s) : ScalarBound .string (.str s) (.str s)
  | boolean (b) : ScalarBound .boolean (.bool b) (.bool b)
  | float (q) : ScalarBound .float (.float q) (.float q)
  | floatInt (i) : ScalarBound .float (.int i) (.float (intToF64 i))
  | int (i) : -2147483648 ≤ i → i ≤ 2147483647 → ScalarBound .int (.int i) (.int i)
  | custom (j) : Plain j → ScalarBound .unknown j (plainQ j)
  | intFloat (q : Rat) (i : Int) : q = (i : Rat) → -2147483648 ≤ i → i < 2147483647 → ScalarBound .int (.float q) (.int i)
  | intClamped (q : Rat) (i : Int) : q = (i : Rat) → i < -2147483648 → ScalarBound .int (.float q) (.int (-2147483648))

/-- `n` lists around a value. -/
def nest : Nat → Q → Q
  | 0, o => o
  | n + 1, o => .list [nest n o]

def keys (fs : List (Str × Lit)) : List Str := fs.map (·.1)
def ids (xs : List (Nat × Q)) : List Nat := xs.map (·.1)

/-- The variable `i` of the declared ones has the given name, and may be used at the type `t` over the definition `d`:
whatever value of its type it holds, the position admits it. -/
def Usable (r : Rules) (vars : Option (List VarDef)) (d : Nat) (t : GType) (name : Str) (i : Nat) : Prop :=
  ∃ vs v T, vars = some vs ∧ vs[i]? = some v ∧ v.name = name ∧ v.ty.definition = d ∧ Reachable v.ty.wrapping T ∧
    ∀ x, T.Admits x → Admitted r t x

/-- The fields of an input object, or the arguments of a field: every given one is declared; every declared one is given
and bound, or has a default, or is absent and nullable; they come in the order of the declaration. -/
structure FieldsBound (R : Nat → GType → Lit → Q → Prop) (fields : List InputField) (fs : List (Str × Lit))
    (xs : List (Nat × Q)) : Prop where
  declared : ∀ k ∈ keys fs, ∃ f ∈ accessible fields, f.name = k
  bound : ∀ f ∈ accessible fields,
    (∃ j o t, (f.name, j) ∈ fs ∧ (f.id, o) ∈ xs ∧ Reachable f.ty.wrapping t ∧ R f.ty.definition t j o) ∨
    (f.name ∉ keys fs ∧ ∃ dv, f.default = some dv ∧ (f.id, Q.default dv) ∈ xs) ∨
    (f.name ∉ keys fs ∧ f.default = none ∧ f.id ∉ ids xs ∧ ∃ t, Reachable f.ty.wrapping t ∧ t.required = false)
  ordered : (ids xs).Sublist ((accessible fields).map (·.id))

/-- `Bound s vars r top d t j o`: the literal `j` is accepted at the type `t` over the definition `d` and bound to `o`.
`top` says that `j` is the value of an argument or of an input field, where a bare item is taken for a list. -/
inductive Bound (s : Schema) (vars : Option (List VarDef)) (r : Rules) : Bool → Nat → GType → Lit → Q → Prop
  | asIs {d t j o} : Bound s vars r false d t j o → Bound s vars r true d t j o
  | bare {d t j o} : t.isList = true → j.isList = false → j.isNull = false → j.isVar = false →
      Bound s vars r false d .named j o → Bound s vars r true d t j (nest t.depth o)
  | var {d t name i} : Usable r vars d t name i → Bound s vars r false d t (.var name) (.variable i)
  | null {d t} : t.required = false → Bound s vars r false d t .null .null
  | nonNull {d t j o} : j.isVar = false → o ≠ .null → Bound s vars r false d t j o → Bound s vars r false d (.nonNull t) j o
  | list {d t xs ys} : ys.length = xs.length →
      (∀ (i : Nat) x y, xs[i]? = some x → ys[i]? = some y → Bound s vars r false d t x y) →
      Bound s vars r false d (.list t) (.list xs) (.list ys)
  | scalar {d k j o} : s d = .scalar k → ScalarBound k j o → Bound s vars r false d .named j o
  | enum {d vs e} : s d = .enum vs → e ∈ vs → e.inaccessible = false →
      Bound s vars r false d .named (.enum e.name) (.enumValue e.id)
  | object {d fields fs xs} (R : Nat → GType → Lit → Q → Prop) : (∀ d t j o, R d t j o → Bound s vars r true d t j o) →
      s d = .inputObject false fields → (keys fs).Nodup → FieldsBound R fields fs xs →
      Bound s vars r false d .named (.obj fs) (.object false xs)
  /-- Exactly one field is given, and it is not null. -/
  | oneOf {d fields f t j o} : s d = .inputObject true fields → f ∈ accessible fields → Reachable f.ty.wrapping t →
      (j.isNull = true → r.oneOfNull) → Bound s vars r true f.ty.definition t j o →
      Bound s vars r false d .named (.obj [(f.name, j)]) (.object true [(f.id, o)])

/-- What is known of the declared variables: distinct names, types built by the builder. -/
structure VarsOk (vars : List VarDef) : Prop where
  names : (vars.map (·.name)).Nodup
  wrapped : ∀ v ∈ vars, ∃ T, Reachable v.ty.wrapping T

end Verif.Literals
