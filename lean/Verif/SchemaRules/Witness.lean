import Verif.SchemaRules.Cycles

/-!
# Documents
-/
namespace Verif.SchemaRules.Demo

open Verif.SchemaRules

def n (s : String) : Name := s.toList

def named (s : String) (nullable : Bool := true) : Ty := .named (n s) nullable

def field (s : String) (ty : Ty) (args : List Arg := []) : Field := { name := n s, args := args, ty := ty, directives := [] }

def arg (s : String) (ty : Ty) (hasDefault : Bool := false) : Arg :=
  { name := n s, ty := ty, hasDefault := hasDefault, directives := [] }

def value (s : String) : Value := { name := n s, directives := [] }

def define (s : String) (k : Kind) : Definition := .type { name := n s, extend := false, kind := k, directives := [] }

def extension (s : String) (k : Kind) : Definition := .type { name := n s, extend := true, kind := k, directives := [] }

def strict : Opts := { forbidUnknown := true, draft := true }

def lax : Opts := { forbidUnknown := false, draft := false }

/-- An object implements an interface with a narrower type, and an argument more. -/
def good : List Definition :=
  [ .schema { extend := false, directives := [], query := some (n "Q"), mutation := none, subscription := none },
    define "Q" (.object [n "I"] [field "self" (named "Q" false) [arg "x" (named "A"), arg "y" (named "Int")]]),
    define "I" (.interface [] [field "self" (named "I") [arg "x" (named "A")]]),
    define "A" (.input [arg "b" (named "B" false), arg "e" (named "E")]),
    define "B" (.input [arg "a" (named "A"), arg "l" (.list (named "A" false) false)]),
    define "E" (.enum [value "ONE"]),
    extension "E" (.enum [value "TWO"]),
    define "U" (.union [n "Q"]) ]

/-- Two extensions of an enum have the same value. -/
def panics : List Definition := [define "E" (.enum [value "ONE"]), extension "E" (.enum [value "TWO"]), extension "E" (.enum [value "TWO"])]

/-- An input object that holds itself. -/
def cyclic : List Definition :=
  [define "A" (.input [arg "b" (named "B" false)]), define "B" (.input [arg "x" (named "Int"), arg "a" (named "A" false)])]

/-- The fields of an input object are not unique, and one is for introspection. -/
def inputFieldsTwice : List Definition := [define "A" (.input [arg "__x" (named "Int"), arg "__x" (named "Int")])]

/-- The fields of an interface are not unique. -/
def interfaceTwice : List Definition := [define "I" (.interface [] [field "x" (named "Int"), field "x" (named "Int")])]

/-- An extension of an input object and one of an interface have fields of unknown types. -/
def extensionTypes : List Definition :=
  [define "A" (.input [arg "x" (named "Int")]), extension "A" (.input [arg "y" (named "Unknown")]),
   define "I" (.interface [] [field "x" (named "Int")]), extension "I" (.interface [] [field "y" (named "Unknown")])]

/-- The field an interface has in an extension is missing in the object. -/
def extendedInterface : List Definition :=
  [define "I" (.interface [] [field "x" (named "Int")]), extension "I" (.interface [] [field "y" (named "Int")]),
   define "O" (.object [n "I"] [field "x" (named "Int")])]

/-- An interface implements itself. -/
def selfInterface : List Definition := [define "I" (.interface [n "I"] [field "x" (named "Int")])]

/-- A directive is defined twice. -/
def directiveTwice : List Definition :=
  [.directive { name := n "d", args := [arg "__x" (named "Int")], repeatable := false, locations := [.object] },
   .directive { name := n "d", args := [], repeatable := true, locations := [.schema] }]

/-- The same root in the schema and in its extension. -/
def rootsApart : List Definition :=
  [.schema { extend := false, directives := [], query := some (n "Q"), mutation := none, subscription := none },
   .schema { extend := true, directives := [], query := none, mutation := some (n "Q"), subscription := none },
   define "Q" (.object [] [field "x" (named "Int")])]

/-- The narrower type implements the interface in an extension. -/
def narrowExtension : List Definition :=
  [define "I" (.interface [] [field "x" (named "I")]), define "O" (.object [] [field "x" (named "O")]),
   extension "O" (.object [n "I"] [])]

/-- A required argument more, with a default value. -/
def defaultArgument : List Definition :=
  [define "I" (.interface [] [field "x" (named "Int")]),
   define "O" (.object [n "I"] [field "x" (named "Int") [arg "a" (named "Int" false) true]])]

/-- The root for queries is called `Mutation`, and there is none for mutations. -/
def oddRoot : List Definition :=
  [.schema { extend := false, directives := [], query := some (n "Mutation"), mutation := none, subscription := none },
   define "Mutation" (.object [] [field "x" (named "Int")])]

/-- The fields of an interface are all in extensions. -/
def interfaceInExtension : List Definition :=
  [define "I" (.interface [] []), extension "I" (.interface [] [field "x" (named "Int")])]

end Verif.SchemaRules.Demo
