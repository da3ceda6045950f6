import Verif.SchemaDiff.Model
/-!
# What a schema document contains
-/
namespace Verif.SchemaDiff

/-- The name and kind a definition declares. -/
def Def.types : Def → List (Nat × Kind)
  | .directive n => [(n, .directive)]
  | .scalar n => [(n, .scalar)]
  | .object n _ _ => [(n, .object)]
  | .interface n _ _ => [(n, .interface)]
  | .union n _ => [(n, .union)]
  | .enum n _ => [(n, .enum)]
  | .inputObject n _ => [(n, .inputObject)]
  | .schema .. | .schemaExt => []

/-- The members of a definition, with the type if there is one. -/
def Def.members : Def → List ((Nat × Nat) × Option Nat)
  | .object n _ fs | .interface n _ fs | .inputObject n fs => fs.map fun f => ((n, f.name), some f.ty)
  | .union n xs | .enum n xs => xs.map fun x => ((n, x), none)
  | _ => []

/-- The arguments of the fields of a definition. -/
def Def.args : Def → List ((Nat × Nat × Nat) × Arg)
  | .object n _ fs | .interface n _ fs => fs.flatMap fun f => f.args.map fun a => ((n, f.name, a.name), a)
  | _ => []

/-- The interfaces a definition implements. -/
def Def.impls : Def → List (Nat × List Nat)
  | .object n is _ | .interface n is _ => [(n, is)]
  | _ => []

/-- `d` declares `n` as a `k`. -/
def HasType (d : Doc) (n : Nat) (k : Kind) : Prop := ∃ x ∈ d, (n, k) ∈ x.types
/-- `d` has a member `f` of `n`, of type `t` if it has a type. -/
def HasMember (d : Doc) (n f : Nat) (t : Option Nat) : Prop := ∃ x ∈ d, ((n, f), t) ∈ x.members
/-- `d` has the argument `a` on `n.f`. -/
def HasArg (d : Doc) (n f : Nat) (a : Arg) : Prop := ∃ x ∈ d, ((n, f, a.name), a) ∈ x.args
/-- A definition in `d` says that `n` implements the interfaces `is`. -/
def HasImpls (d : Doc) (n : Nat) (is : List Nat) : Prop := ∃ x ∈ d, (n, is) ∈ x.impls

/-- What every valid schema satisfies, were it not for directives and types of the same name: a name has one
kind (an extension has the kind of the type it extends), a member one type, an argument one definition. -/
structure Coherent (d : Doc) : Prop where
  types : ∀ n j k, HasType d n j → HasType d n k → j = k
  members : ∀ n f t u, HasMember d n f t → HasMember d n f u → t = u
  args : ∀ n f a b, HasArg d n f a → HasArg d n f b → a.name = b.name → a = b

/-- The interfaces of a type are all given in one place. -/
def OneImplClause (d : Doc) : Prop := ∀ n is js, HasImpls d n is → HasImpls d n js → is = js

/-- The change that reports a new definition of a kind. -/
def addDef : Kind → CK
  | .directive => .addDirectiveDefinition
  | .enum => .addEnum
  | .inputObject => .addInputObject
  | .interface => .addInterface
  | .object => .addObjectType
  | .scalar => .addScalar
  | .union => .addUnion

/-- The change that reports a lost definition of a kind. -/
def removeDef : Kind → CK
  | .directive => .removeDirectiveDefinition
  | .enum => .removeEnum
  | .inputObject => .removeInputObject
  | .interface => .removeInterface
  | .object => .removeObjectType
  | .scalar => .removeScalar
  | .union => .removeUnion

/-- The change that reports a new member. -/
def addMember : Kind → CK
  | .enum => .addEnumValue
  | .union => .addUnionMember
  | _ => .addField

/-- The change that reports a lost member. -/
def removeMember : Kind → CK
  | .enum => .removeEnumValue
  | .union => .removeUnionMember
  | _ => .removeField

end Verif.SchemaDiff
