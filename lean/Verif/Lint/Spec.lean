import Verif.Lint.Model

/-!
# What a linter should report
-/
namespace Verif.Lint

/-- Names for which there is no convention: those that begin with an underscore, and those with a prefix of letters and two
underscores before the rest. -/
def Exempt (s : Str) : Prop :=
  (∃ r, s = '_' :: r) ∨
  ∃ p c r, p ≠ [] ∧ (∀ x ∈ p, ('a' ≤ x ∧ x ≤ 'z') ∨ ('A' ≤ x ∧ x ≤ 'Z')) ∧ s = p ++ '_' :: '_' :: c :: r

/-- A name which is not as it should be, and what it should be. -/
def Misnamed (h : Heck) (c : Case) (s fix : Str) : Prop := ¬ Exempt s ∧ fix = h c s ∧ fix ≠ s

/-- The type, given or extended, is in the document. -/
def Holds (doc : List Definition) (t : TypeDef) : Prop := .type t ∈ doc ∨ .typeExtension t ∈ doc

/-- Prefixes and suffixes that say again what a type is. -/
def kindWord : Kind → Option Str
  | .object => some "Type".toList
  | .interface => some "Interface".toList
  | .union => some "Union".toList
  | .enum => some "Enum".toList
  | .scalar => none
  | .input => none

/-- Prefixes of the fields of the types of operations. -/
def verbs (type : Str) : List String :=
  if type = "Query".toList then ["query", "get", "list"]
  else if type = "Mutation".toList then ["mutation", "put", "post", "patch"]
  else if type = "Subscription".toList then ["subscription"]
  else []

def HasFields (k : Kind) : Prop := k = .object ∨ k = .interface

/-- `@deprecated` without a reason among directives. -/
def Unexplained (ds : List DirectiveUse) : Prop := ∃ d ∈ ds, d.name = "deprecated".toList ∧ "reason".toList ∉ d.args

/-- What is reported of a document. -/
inductive Reported (h : Heck) (doc : List Definition) : Diag → Prop
  | type {t fix} : Holds doc t → t.kind = .object ∨ t.kind = .enum → Misnamed h .pascal t.name fix →
      Reported h doc (.rename (.type t.kind t.name) fix)
  | typePrefix {t w} : Holds doc t → kindWord t.kind = some w → (∃ r, t.name = w ++ r) →
      Reported h doc (.badPrefix (.type t.kind t.name) w)
  | typeSuffix {t w} : Holds doc t → kindWord t.kind = some w → (∃ r, t.name = r ++ w) →
      Reported h doc (.badSuffix (.type t.kind t.name) w)
  | typeReason {t} : Holds doc t → Unexplained t.directives → Reported h doc (.noReason (.type t.kind t.name))
  | field {t f fix} : Holds doc t → HasFields t.kind → f ∈ t.fields → Misnamed h .camel f.name fix →
      Reported h doc (.rename (.field t.kind t.name f.name) fix)
  | fieldPrefix {t f v r} : Holds doc t → HasFields t.kind → f ∈ t.fields → v ∈ verbs t.name → f.name = v.toList ++ r →
      Reported h doc (.badPrefix (.field t.kind t.name f.name) v.toList)
  | fieldSuffix {t f r} : Holds doc t → HasFields t.kind → f ∈ t.fields →
      t.name = "Query".toList ∨ t.name = "Mutation".toList ∨ t.name = "Subscription".toList →
      f.name = r ++ t.name → (¬ ∃ r, f.name = '_' :: '_' :: r) →
      Reported h doc (.badSuffix (.field t.kind t.name f.name) t.name)
  | fieldReason {t f} : Holds doc t → HasFields t.kind → f ∈ t.fields → Unexplained f.directives →
      Reported h doc (.noReason (.field t.kind t.name f.name))
  | argument {t f a fix} : Holds doc t → HasFields t.kind → f ∈ t.fields → a ∈ f.args → Misnamed h .camel a.name fix →
      Reported h doc (.rename (.argument t.kind t.name f.name a.name) fix)
  | enumValue {t v fix} : Holds doc t → t.kind = .enum → v ∈ t.values → Misnamed h .shouty v.name fix →
      Reported h doc (.rename (.enumValue t.name v.name) fix)
  | enumValueReason {t v} : Holds doc t → t.kind = .enum → v ∈ t.values → Unexplained v.directives →
      Reported h doc (.noReason (.enumValue t.name v.name))
  | inputValue {t v fix} : Holds doc t → t.kind = .input → v ∈ t.values → Misnamed h .camel v.name fix →
      Reported h doc (.rename (.inputValue t.name v.name) fix)
  | inputValueReason {t v} : Holds doc t → t.kind = .input → v ∈ t.values → Unexplained v.directives →
      Reported h doc (.noReason (.inputValue t.name v.name))
  | directive {n args fix} : .directive n args ∈ doc → Misnamed h .camel n fix → Reported h doc (.rename (.directive n) fix)
  | directiveArgument {n args a fix} : .directive n args ∈ doc → a ∈ args → Misnamed h .camel a.name fix →
      Reported h doc (.rename (.directiveArgument n a.name) fix)

end Verif.Lint
