import Verif.Bind.Model
import Verif.Literals.Spec

/-!
# What it means for an operation to be bound

`Means` is the reading of the validation rules of GraphQL for selections ("Field Selections", "Leaf Field Selections",
"Fragments", "Directives", and with C56 "Arguments" and "Variables"): what is written stands for a tree of fields of the
schema. `Reads` says which tree the vectors of a bound operation hold.
-/

namespace Verif.Bind

open Verif.Common
open Verif.Coercion (Str InputField Ty VarDef)
open Verif.Literals (Lit Q Bound FieldsBound lax)
open Verif.Wrapping (Reachable)

/-- A selection set of the schema: a field has its definition, response key, arguments, conditions and selections. -/
inductive Tree where
  | nil
  | typename (key : Str) (conds : List Cond) (rest : Tree)
  | field (definition : Nat) (key : Str) (args : List (Nat × Q)) (conds : List Cond) (sub rest : Tree)
  | group (cond : Option Comp) (conds : List Cond) (sub rest : Tree)

/-- How values are bound. -/
structure Values where
  args : List InputField → List (Str × Lit) → List (Nat × Q) → Prop
  cond : Lit → Q → Prop

/-- The values of C56. -/
def values (S : Schema) (vars : List VarDef) : Values where
  args defs given xs := (Verif.Literals.keys given).Nodup ∧ FieldsBound (Bound S.input (some vars) lax true) defs given xs
  cond v q := Bound S.input (some vars) lax true S.boolean (.nonNull .named) v q

/-- The name of the argument of `@skip` and `@include`. -/
def ifName : Str := ['i', 'f']

/-- The conditions of directives. `strict`: there are no other directives, and no other arguments. -/
inductive Conds (V : Values) (strict : Bool) : List Dir → List Cond → Prop
  | nil : Conds V strict [] []
  | other {d ds cs} : d.name ≠ skipName → d.name ≠ includeName → strict = false → Conds V strict ds cs →
      Conds V strict (d :: ds) cs
  | cond {d ds cs name v more q} : d.name = skipName ∨ d.name = includeName → d.args = (name, v) :: more →
      (strict = true → name = ifName ∧ more = []) → V.cond v q → Conds V strict ds cs →
      Conds V strict (d :: ds) ((decide (d.name = skipName), q) :: cs)

/-- The conditions: first those of `@include`, then those of `@skip`. `strict`: no directive is repeated. -/
def CondsOf (V : Values) (strict : Bool) (dirs : List Dir) (cs : List Cond) : Prop :=
  (strict = true → (dirs.map (·.name)).Nodup) ∧
  ∃ cs', Conds V strict dirs cs' ∧ cs = cs'.filter (fun c => !c.1) ++ cs'.filter (fun c => c.1)

/-- A type that clients see, with fields or members. -/
def Visible (S : Schema) (name : Str) (c : Comp) : Prop := S.types name = some ⟨.composite c, false⟩

/-- `Means S V frags strict parent sels t`: on the type `parent`, `sels` is valid and stands for `t`. -/
inductive Means (S : Schema) (V : Values) (frags : Frags) (strict : Bool) : Comp → Sels → Tree → Prop
  | nil {parent} : Means S V frags strict parent .nil .nil
  | typename {parent alias args dirs sub rest cs t} : CondsOf V strict dirs cs →
      (strict = true → args = [] ∧ sub = .nil) → Means S V frags strict parent rest t →
      Means S V frags strict parent (.field typenameName alias args dirs sub rest) (.typename (alias.getD typenameName) cs t)
  | leaf {parent name alias args dirs rest d xs cs t} : name ≠ typenameName → (∀ id, parent ≠ .union id) →
      S.fields parent name = some d → d.inaccessible = false → d.output = none → V.args d.args args xs →
      CondsOf V strict dirs cs → Means S V frags strict parent rest t →
      Means S V frags strict parent (.field name alias args dirs .nil rest) (.field d.id (alias.getD name) xs cs .nil t)
  | field {parent name alias args dirs sub rest d c xs cs s t} : name ≠ typenameName → (∀ id, parent ≠ .union id) →
      S.fields parent name = some d → d.inaccessible = false → d.output = some c → sub ≠ .nil → V.args d.args args xs →
      CondsOf V strict dirs cs → Means S V frags strict c sub s → Means S V frags strict parent rest t →
      Means S V frags strict parent (.field name alias args dirs sub rest) (.field d.id (alias.getD name) xs cs s t)
  | spread {parent name dirs rest f c cs s t} : frags.lookup name = some f → Visible S f.cond c →
      S.intersects parent c = true → CondsOf V strict dirs cs → Means S V frags strict c f.sels s →
      Means S V frags strict parent rest t →
      Means S V frags strict parent (.spread name dirs rest) (.group (some c) cs s t)
  | inline {parent dirs sub rest cs s t} : CondsOf V strict dirs cs → Means S V frags strict parent sub s →
      Means S V frags strict parent rest t →
      Means S V frags strict parent (.inline none dirs sub rest) (.group none cs s t)
  | inlineOn {parent name dirs sub rest c cs s t} : Visible S name c → S.intersects parent c = true →
      CondsOf V strict dirs cs → Means S V frags strict c sub s → Means S V frags strict parent rest t →
      Means S V frags strict parent (.inline (some name) dirs sub rest) (.group (some c) cs s t)

/-- `Reads st ids t`: the selections `ids` of the bound operation are `t`. -/
inductive Reads (st : St) : List SelId → Tree → Prop
  | nil : Reads st [] .nil
  | typename {i ids d key t} : st.typenames[i]? = some d → st.keys[d.key]? = some key → Reads st ids t →
      Reads st (.typename i :: ids) (.typename key d.dirs t)
  | data {i ids d key s t} : st.data[i]? = some d → st.keys[d.key]? = some key → d.args.2 ≤ st.arguments.length →
      d.sels.2 ≤ st.shared.length → Reads st (slice st.shared d.sels) s → Reads st ids t →
      Reads st (.data i :: ids) (.field d.definition key (slice st.arguments d.args) d.dirs s t)
  | spread {i ids d f s t} : st.spreads[i]? = some d → st.fragments[d.fragment]? = some f →
      f.sels.2 ≤ st.shared.length → Reads st (slice st.shared f.sels) s → Reads st ids t →
      Reads st (.spread i :: ids) (.group (some f.cond) d.dirs s t)
  | inline {i ids d s t} : st.inlines[i]? = some d → d.sels.2 ≤ st.shared.length →
      Reads st (slice st.shared d.sels) s → Reads st ids t → Reads st (.inline i :: ids) (.group d.cond d.dirs s t)

/-- The root object of an operation of a type. -/
def IsRoot (S : Schema) (ty : OpType) (root : Nat) : Prop :=
  match ty with
  | .query => root = S.query
  | .mutation => S.mutation = some root
  | .subscription => S.subscription = some root

mutual
/-- The variables in a value; those in the value of a custom scalar are not counted. -/
def mentions : Q → List Nat
  | .variable i => [i]
  | .object _ fields => mentionsFields fields
  | .list items => mentionsItems items
  | _ => []
def mentionsItems : List Q → List Nat
  | [] => []
  | x :: xs => mentions x ++ mentionsItems xs
def mentionsFields : List (Nat × Q) → List Nat
  | [] => []
  | (_, x) :: xs => mentions x ++ mentionsFields xs
end

namespace Tree

/-- The number of selections, with those of a fragment for each spread. -/
def size : Tree → Nat
  | nil => 0
  | typename _ _ t => 1 + size t
  | field _ _ _ _ s t => 1 + size s + size t
  | group _ _ s t => 1 + size s + size t

/-- The number of arguments. -/
def argCount : Tree → Nat
  | nil => 0
  | typename _ _ t => argCount t
  | field _ _ xs _ s t => xs.length + argCount s + argCount t
  | group _ _ s t => argCount s + argCount t

/-- The definitions of all fields. -/
def definitions : Tree → List Nat
  | nil => []
  | typename _ _ t => definitions t
  | field d _ _ _ s t => d :: definitions s ++ definitions t
  | group _ _ s t => definitions s ++ definitions t

/-- The definitions of the fields that are not in another one. -/
def roots : Tree → List Nat
  | nil => []
  | typename _ _ t => roots t
  | field d _ _ _ _ t => d :: roots t
  | group _ _ s t => roots s ++ roots t

/-- The variables in arguments and conditions. -/
def vars : Tree → List Nat
  | nil => []
  | typename _ cs t => cs.flatMap (fun c => mentions c.2) ++ vars t
  | field _ _ xs cs s t => mentionsFields xs ++ cs.flatMap (fun c => mentions c.2) ++ vars s ++ vars t
  | group _ cs s t => cs.flatMap (fun c => mentions c.2) ++ vars s ++ vars t

end Tree

/-- Nothing that the rules forbid and the code does not look at: arguments or selections of `__typename`, directives other
than `@skip` and `@include`, arguments of them other than `if`, and repeated directives. -/
def TidyDirs (dirs : List Dir) : Prop :=
  (dirs.map (·.name)).Nodup ∧ ∀ d ∈ dirs, (d.name = skipName ∨ d.name = includeName) ∧ ∀ name v more, d.args = (name, v) :: more →
    name = ifName ∧ more = []

def Tidy : Sels → Prop
  | .nil => True
  | .field name _ args dirs sub rest => TidyDirs dirs ∧ (name = typenameName → args = [] ∧ sub = .nil) ∧ Tidy sub ∧ Tidy rest
  | .spread _ dirs rest => TidyDirs dirs ∧ Tidy rest
  | .inline _ dirs sub rest => TidyDirs dirs ∧ Tidy sub ∧ Tidy rest

/-- The type that the code gives to a variable with a default value (C07: a list gets another level). -/
def WithDefault (t T : GType) (lit : Lit) : Prop :=
  (lit.isNull = true → T = t) ∧ (lit.isNull = false → t.isList = false → T = .nonNull .named) ∧
  (lit.isNull = false → t.isList = true → T = .nonNull (.list t))

/-- A variable as written, and as bound: its type is of an input, and its default value is one of that type. -/
def DeclaredAs (S : Schema) (defaults : List Q) (d : Decl) (v : VarDef) : Prop :=
  v.name = d.name ∧ (∃ td, S.types d.tyName = some td ∧ td.kind = .input v.ty.definition) ∧
  (d.default = none → v.default = none ∧ (d.ty.WF → Reachable v.ty.wrapping d.ty)) ∧
  ∀ lit, d.default = some lit → ∃ T id q, Reachable v.ty.wrapping T ∧ (d.ty.WF → WithDefault d.ty T lit) ∧
    v.default = some id ∧ defaults[id]? = some q ∧ Bound S.input none lax true v.ty.definition T lit q

/-- The variables as written, and as bound: their names are distinct. -/
def Declares (S : Schema) (decls : List Decl) (vars : List VarDef) (defaults : List Q) : Prop :=
  (decls.map (·.name)).Nodup ∧ vars.length = decls.length ∧
  ∀ (i : Nat) d v, decls[i]? = some d → vars[i]? = some v → DeclaredAs S defaults d v

end Verif.Bind
