/-!
# Executable documents

The syntax trees of `cynic_parser` (read by the sanitiser) and of `graphql_parser` (read by the normaliser), which are the
same up to names. Positions, comments and the directives of variable definitions are left out: neither is read by the
sanitiser, and the normaliser does not touch them.
-/
namespace Verif.OpText

abbrev Str := List Char

/-- Literals and variables. Floats are the number they stand for. -/
inductive Value where
  | var (name : Str)
  | int (i : Int)
  | float (q : Rat)
  | str (s : Str)
  | bool (b : Bool)
  | null
  | enum (name : Str)
  | list (items : List Value)
  | obj (fields : List (Str × Value))

structure Directive where
  name : Str
  args : List (Str × Value)

inductive Sel where
  | field (alias : Option Str) (name : Str) (args : List (Str × Value)) (dirs : List Directive) (sels : List Sel)
  | spread (name : Str) (dirs : List Directive)
  | inline (cond : Option Str) (dirs : List Directive) (sels : List Sel)

inductive Ty where
  | named (name : Str)
  | list (t : Ty)
  | nonNull (t : Ty)

structure VarDef where
  name : Str
  ty : Ty
  default : Option Value

/-- `shorthand` is an operation without keyword: `OperationDefinition::SelectionSet` of `graphql_parser`, a nameless query
without variables and directives for `cynic_parser`. -/
inductive OpKind where
  | shorthand | query | mutation | subscription
  deriving DecidableEq

structure Operation where
  kind : OpKind
  name : Option Str
  vars : List VarDef
  dirs : List Directive
  sels : List Sel

structure Fragment where
  name : Str
  cond : Str
  dirs : List Directive
  sels : List Sel

inductive Def where
  | op (o : Operation)
  | frag (f : Fragment)

end Verif.OpText
