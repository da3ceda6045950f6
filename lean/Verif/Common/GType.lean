/-
Independent specification of GraphQL wrapping types, used by the properties C01, C02, C03, C04, C09.

Nothing in this file is transcribed from the code base: it is the reading of the GraphQL
specification (section "Wrapping Types") against which the packed representations are checked.
-/
namespace Verif.Common

/-- A GraphQL type reference over an anonymous named type: `T`, `[T]`, `T!`. -/
inductive GType where
  | named
  | list (t : GType)
  | nonNull (t : GType)
  deriving DecidableEq, Repr

/-- A response or input value, as far as wrappers can see: null, a value of the named type, a list. -/
inductive Val where
  | null
  | leaf (n : Nat)
  | list (vs : List Val)
  deriving Repr

namespace GType

/-- GraphQL forbids `T!!`. -/
def WF : GType → Prop
  | named => True
  | list t => WF t
  | nonNull (nonNull _) => False
  | nonNull t => WF t

/-- Number of list levels. -/
def depth : GType → Nat
  | named => 0
  | list t => depth t + 1
  | nonNull t => depth t

/-- Text of the type as written in GraphQL, for the named type `name`. -/
def render (name : String) : GType → String
  | named => name
  | list t => "[" ++ render name t ++ "]"
  | nonNull t => render name t ++ "!"

/-- `Admits t v`: the value `v` is a legal value of type `t` (result coercion / input value). -/
def Admits : GType → Val → Prop
  | named, v => v = .null ∨ ∃ n, v = .leaf n
  | list t, v => v = .null ∨ ∃ vs, v = .list vs ∧ ∀ x ∈ vs, Admits t x
  | nonNull t, v => v ≠ .null ∧ Admits t v

/-- Is the type non-null at the outside? -/
def required : GType → Bool
  | nonNull _ => true
  | _ => false

/-- Is the named type at the core wrapped in a non-null? -/
def innerRequired : GType → Bool
  | named => false
  | list t => innerRequired t
  | nonNull named => true
  | nonNull t => innerRequired t

/-- Is the type a list, possibly under a non-null? -/
def isList : GType → Bool
  | named => false
  | list _ => true
  | nonNull t => isList t

/-- Type of the items if the type is a (possibly non-null) list. -/
def item? : GType → Option GType
  | named => none
  | list t => some t
  | nonNull t => item? t

/-- The type without its outer non-null. -/
def nullable : GType → GType
  | nonNull t => t
  | t => t

end GType
end Verif.Common
