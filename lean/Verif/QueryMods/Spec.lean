import Verif.QueryMods.Model
/-!
# What query modifications should do
-/
namespace Verif.QueryMods

/-! ## Skipping -/

/-- The directives let the field through: no `@include` is false, no `@skip` is true. -/
def Lets (vars : Nat → Bool) (ds : List Directive) : Prop :=
  (∀ c, Directive.include c ∈ ds → c.eval vars = true) ∧ ∀ c, Directive.skip c ∈ ds → c.eval vars = false

/-- All the directives of the modifiers that concern a field let it through. -/
def Kept (vars : Nat → Bool) (ms : List Modifier) (f : PField) : Prop :=
  ∀ m ∈ ms, ∀ ds, m.rule = .executable ds → f ∈ m.impacted → Lets vars ds

/-! ## Denials -/

/-- How many errors come with a decision. -/
def errorCount : Decisions → Nat
  | .grantAll => 0
  | .denyAll _ => 1
  | .denySome _ errs => errs.length

def errorsOf : Decisions → List Nat
  | .grantAll => []
  | .denyAll e => [e]
  | .denySome _ errs => errs

/-- The number of errors that came with the decisions. -/
def offset (ds : List (Nat × Nat × Decisions)) : Nat := (ds.map fun d => errorCount d.2.2).sum

/-- A decision about the records `start .. stop`, made when there were `off` errors, denies record `j`
with error `e`. -/
def Denies1 (off start stop : Nat) (j e : Nat) : Decisions → Prop
  | .grantAll => False
  | .denyAll _ => e = off ∧ start ≤ j ∧ j < stop
  | .denySome els _ => ∃ el er, (el, er) ∈ els ∧ j = start + el ∧ e = off + er

/-- The decisions deny record `j` with error `e`. -/
def Denies (ds : List (Nat × Nat × Decisions)) (off : Nat) (j e : Nat) : Prop :=
  ∃ before start stop d after, ds = before ++ (start, stop, d) :: after ∧
    Denies1 (off + offset before) start stop j e d

/-- The decisions deny the data field `f` with error `e`. -/
def DeniesField (recs : List Modifier) (ds : List (Nat × Nat × Decisions)) (off f e : Nat) : Prop :=
  ∃ j m, Denies ds off j e ∧ recs[j]? = some m ∧ PField.data f ∈ m.impacted

/-! ## Requests -/

/-- `r` is a set of fields some fetch, authorization or other required field needs. -/
inductive Req (p : Plan) (resp : Nat → Bool) : List Item → Prop where
  | field {i} : resp i = true → i < p.fields.length → Req p resp (p.field i).req
  | super {i} : resp i = true → i < p.fields.length → Req p resp (p.field i).reqSuper
  | partition {r} : r ∈ p.partitions → Req p resp r
  | sub {r it} : Req p resp r → it ∈ r → Req p resp it.sub
  | item {r it} : Req p resp r → it ∈ r → Req p resp (p.field it.field).req
  | source {i d} : resp i = true → i < p.fields.length → (p.field i).derive = some d → Req p resp (p.field d).req
  | sourceItem {r it d} : Req p resp r → it ∈ r → (p.field it.field).derive = some d →
      Req p resp (p.field d).req

/-- Why a data field is requested: it is shown and not denied, it is required, or a field that is shown
or required is derived from it. -/
inductive Needed (p : Plan) (resp : Nat → Bool) (denied : Nat → Prop) : Nat → Prop where
  | shown {i} : resp i = true → ¬ denied i → Needed p resp denied i
  | required {r it} : Req p resp r → it ∈ r → Needed p resp denied it.field
  | source {i d} : resp i = true → i < p.fields.length → (p.field i).derive = some d → Needed p resp denied d
  | sourceItem {r it d} : Req p resp r → it ∈ r → (p.field it.field).derive = some d →
      Needed p resp denied d

/-- A field occurs in a required field set, at any depth. -/
inductive Occurs : Nat → List Item → Prop where
  | top {it l} : it ∈ l → Occurs it.field l
  | deep {f it l} : it ∈ l → Occurs f it.sub → Occurs f l

/-- No field requires itself, directly or not: each required field has a smaller rank. -/
def Acyclic (p : Plan) : Prop :=
  ∃ rank : Nat → Nat, ∀ i f, Occurs f (p.field i).req → rank f < rank i

end Verif.QueryMods
