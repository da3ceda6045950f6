/-!
# The linter of schemas

* `crates/graphql-lint/src/lib.rs` (all of it but the tests)

Simplifications: texts are lists of characters; a diagnostic is what its message is made of, not the message; the crate `heck`
is a parameter (`Heck`), and its algorithm for ASCII (`heck`), which is not in the sandbox, is only used to show that a fix may
have to be fixed again; `.` in the second exception is any character, as names have no newlines.
-/
namespace Verif.Lint

abbrev Str := List Char

/-- A directive on an element: its name and the names of its arguments. -/
structure DirectiveUse where
  name : Str
  args : List Str
deriving DecidableEq, Repr

/-- Arguments, input fields and values of enums. -/
structure Value where
  name : Str
  directives : List DirectiveUse
deriving DecidableEq, Repr

structure Field where
  name : Str
  args : List Value
  directives : List DirectiveUse
deriving DecidableEq, Repr

/-- `type_definition_display` (lib.rs:193-202). -/
inductive Kind where
  | scalar
  | object
  | interface
  | union
  | enum
  | input
deriving DecidableEq, Repr

/-- `TypeDefinition`; which members are looked at depends on the kind. -/
structure TypeDef where
  kind : Kind
  name : Str
  directives : List DirectiveUse
  fields : List Field := []
  /-- values of an enum, or fields of an input object -/
  values : List Value := []
deriving DecidableEq, Repr

inductive Definition where
  | schema (query mutation subscription : Option Str)
  | schemaExtension (query mutation subscription : Option Str)
  | type (t : TypeDef)
  | typeExtension (t : TypeDef)
  | directive (name : Str) (args : List Value)
deriving DecidableEq, Repr

/-- Where something is. -/
inductive Loc where
  | type (k : Kind) (name : Str)
  | field (k : Kind) (type field : Str)
  | argument (k : Kind) (type field arg : Str)
  | directive (name : Str)
  | directiveArgument (directive arg : Str)
  | inputValue (type value : Str)
  | enumValue (type value : Str)
deriving DecidableEq, Repr

inductive Diag where
  | rename (l : Loc) (fix : Str)
  | badPrefix (l : Loc) (p : Str)
  | badSuffix (l : Loc) (s : Str)
  | noReason (l : Loc)
deriving DecidableEq, Repr

inductive Case where
  | pascal
  | shouty
  | camel
deriving DecidableEq, Repr

/-- The conversions of `heck`. -/
abbrev Heck := Case → Str → Str

def isLetter (c : Char) : Bool := (decide ('a' ≤ c) && decide (c ≤ 'z')) || (decide ('A' ≤ c) && decide (c ≤ 'Z'))

/-- `EXCEPTIONS` (129): `^_` and `^[a-zA-Z]+__.`. -/
def isException (s : Str) : Bool :=
  match s with
  | '_' :: _ => true
  | _ =>
    !(s.takeWhile isLetter).isEmpty &&
      match s.dropWhile isLetter with
      | '_' :: '_' :: _ :: _ => true
      | _ => false

/-- `case_check` (125-147): the fix if the name is not as it should be. -/
def caseCheck (heck : Heck) (s : Str) (c : Case) : Option Str :=
  if isException s then none
  else if heck c s = s then none
  else some (heck c s)

/-- The diagnostic for a name, if any. -/
def rename (heck : Heck) (l : Loc) (s : Str) (c : Case) : List Diag :=
  match caseCheck heck s c with
  | some fix => [.rename l fix]
  | none => []

/-- `starts_with`. -/
def startsWith (s p : Str) : Bool := p.isPrefixOf s

/-- `ends_with`. -/
def endsWith (s p : Str) : Bool := p.isSuffixOf s

/-- A loop over prefixes that stops at the first (223-231, 240-248). -/
def firstPrefix (l : Loc) (s : Str) : List Str → List Diag
  | [] => []
  | p :: ps => if startsWith s p then [.badPrefix l p] else firstPrefix l s ps

def suffix (l : Loc) (s p : Str) : List Diag := if endsWith s p then [.badSuffix l p] else []

/-- The `visit_directive_usage` functions (290-364). -/
def deprecated (l : Loc) (d : DirectiveUse) : List Diag :=
  if d.name = "deprecated".toList ∧ d.args.all (· != "reason".toList) = true then [.noReason l] else []

/-- `visit_field` (204-278). -/
def visitField (heck : Heck) (t : TypeDef) (f : Field) : List Diag :=
  let l := Loc.field t.kind t.name f.name
  if startsWith f.name ['_', '_'] then []
  else
    rename heck l f.name .camel ++
      if t.name = "Query".toList then
        firstPrefix l f.name ["query".toList, "get".toList, "list".toList] ++ suffix l f.name "Query".toList
      else if t.name = "Mutation".toList then
        firstPrefix l f.name ["mutation".toList, "put".toList, "post".toList, "patch".toList] ++ suffix l f.name "Mutation".toList
      else if t.name = "Subscription".toList then
        firstPrefix l f.name ["subscription".toList] ++ suffix l f.name "Subscription".toList
      else []

/-- A field with its arguments and directives (66-74, 82-90). -/
def visitFields (heck : Heck) (t : TypeDef) (f : Field) : List Diag :=
  visitField heck t f ++
    f.args.flatMap (fun a => rename heck (.argument t.kind t.name f.name a.name) a.name .camel) ++
    f.directives.flatMap (deprecated (.field t.kind t.name f.name))

/-- `visit_object`, `visit_interface`, `visit_union`, `visit_enum`, `visit_scalar` and `visit_input_object` (366-452). -/
def visitName (heck : Heck) (t : TypeDef) : List Diag :=
  let l := Loc.type t.kind t.name
  match t.kind with
  | .scalar => []
  | .input => []
  | .object => rename heck l t.name .pascal ++ firstPrefix l t.name ["Type".toList] ++ suffix l t.name "Type".toList
  | .enum => rename heck l t.name .pascal ++ firstPrefix l t.name ["Enum".toList] ++ suffix l t.name "Enum".toList
  | .interface => firstPrefix l t.name ["Interface".toList] ++ suffix l t.name "Interface".toList
  | .union => firstPrefix l t.name ["Union".toList] ++ suffix l t.name "Union".toList

/-- The members of a type (64-118). -/
def visitMembers (heck : Heck) (t : TypeDef) : List Diag :=
  match t.kind with
  | .scalar => []
  | .union => []
  | .object => t.fields.flatMap (visitFields heck t)
  | .interface => t.fields.flatMap (visitFields heck t)
  | .enum => t.values.flatMap (fun v =>
      rename heck (.enumValue t.name v.name) v.name .shouty ++ v.directives.flatMap (deprecated (.enumValue t.name v.name)))
  | .input => t.values.flatMap (fun v =>
      rename heck (.inputValue t.name v.name) v.name .camel ++ v.directives.flatMap (deprecated (.inputValue t.name v.name)))

def visitType (heck : Heck) (t : TypeDef) : List Diag :=
  visitName heck t ++ t.directives.flatMap (deprecated (.type t.kind t.name)) ++ visitMembers heck t

/-- One definition (48-124). -/
def visit (heck : Heck) : Definition → List Diag
  | .schema _ _ _ => []
  | .schemaExtension _ _ _ => []
  | .type t => visitType heck t
  | .typeExtension t => visitType heck t
  | .directive n args =>
    rename heck (.directive n) n .camel ++
      args.flatMap (fun a => rename heck (.directiveArgument n a.name) a.name .camel)

/-- `SchemaLinter::lint` (47-126). -/
def lint (heck : Heck) (doc : List Definition) : List Diag := doc.flatMap (visit heck)

/-! ## `heck` for ASCII -/

inductive Mode where
  | boundary
  | lower
  | upper
deriving DecidableEq, Repr

def nextMode (c : Char) (m : Mode) : Mode := if c.isLower then .lower else if c.isUpper then .upper else m

/-- The words in a piece without separators; `word` is the current word, reversed. -/
def splitWords (mode : Mode) (word : Str) : Str → List Str
  | [] => if word.isEmpty then [] else [word.reverse]
  | [c] => [(c :: word).reverse]
  | c :: n :: rest =>
    if nextMode c mode = .lower ∧ n.isUpper = true then (c :: word).reverse :: splitWords .boundary [] (n :: rest)
    else if mode = .upper ∧ c.isUpper = true ∧ n.isLower = true then word.reverse :: splitWords .boundary [c] (n :: rest)
    else splitWords (nextMode c mode) (c :: word) (n :: rest)

/-- The pieces between characters which are neither letters nor digits. -/
def pieces (piece : Str) : Str → List Str
  | [] => [piece.reverse]
  | c :: cs => if c.isAlphanum then pieces (c :: piece) cs else piece.reverse :: pieces [] cs

def words (s : Str) : List Str := (pieces [] s).flatMap (splitWords .boundary [])

def capitalize : Str → Str
  | [] => []
  | c :: cs => c.toUpper :: cs.map Char.toLower

def heck : Heck
  | .pascal, s => (words s).flatMap capitalize
  | .camel, s =>
    match words s with
    | [] => []
    | w :: ws => w.map Char.toLower ++ ws.flatMap capitalize
  | .shouty, s => List.intercalate ['_'] ((words s).map (·.map Char.toUpper))

end Verif.Lint
