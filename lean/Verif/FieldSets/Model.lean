/-!
# The selections in `@key`, `@requires` and `@provides`

How the composition checks them before it begins.

* `crates/graphql-composition/src/validate/selection.rs` (all of it)
* `crates/graphql-composition/src/subgraphs/fields.rs` lines 75 to 128 and 165 to 175, `definitions.rs` lines 45 to 47,
  `enums.rs` lines 23 to 34, `field_types.rs` lines 80 to 90: what is looked up
* `crates/graphql-composition/src/ingest_subgraph.rs` lines 55 to 127: the definitions of a subgraph are those in its document,
  so the built-in scalars are not among them

Simplifications: one subgraph, with an interned string the string itself; a lookup by binary search is the first match, the
names in a type being different; `StringId` of the name `__typename` is that name; floating point numbers are opaque. A
diagnostic keeps the names which are in its message, not the path of the directive. A panic is `none`.
-/
namespace Verif.FieldSets

abbrev Name := String

/-- `Value` (subgraphs/directives.rs:22-31). -/
inductive Value where
  | string (s : Name)
  | int (i : Int)
  | float (f : Nat)
  | boolean (b : Bool)
  | enum (n : Name)
  | object (fields : List (Name × Value))
  | list (items : List Value)
  | null

/-- A type with its wrapping. -/
inductive Ty where
  | named (n : Name) (nonNull : Bool)
  | list (item : Ty) (nonNull : Bool)
deriving DecidableEq, Repr

/-- `definition_name_id`. -/
def Ty.name : Ty → Name
  | .named n _ => n
  | .list t _ => t.name

/-- `is_list` (field_types.rs:80-82). -/
def Ty.isList : Ty → Bool
  | .named _ _ => false
  | .list _ _ => true

/-- `is_required` (field_types.rs:88-90). -/
def Ty.isRequired : Ty → Bool
  | .named _ r => r
  | .list _ r => r

/-- `ArgumentRecord`. -/
structure Arg where
  name : Name
  type : Ty
  hasDefault : Bool := false
deriving DecidableEq, Repr

/-- `FieldTuple`; of input objects too, which have no arguments. -/
structure Field where
  name : Name
  type : Ty
  args : List Arg := []
deriving DecidableEq, Repr

inductive Kind where
  | object | interface | union | enum | scalar | inputObject
deriving DecidableEq, Repr

structure Definition where
  name : Name
  kind : Kind := .object
  fields : List Field := []
  values : List Name := []
deriving DecidableEq, Repr

abbrev Schema := List Definition

/-- `definition_by_name_id` (definitions.rs:45-47). -/
def Schema.find (s : Schema) (n : Name) : Option Definition := s.find? (fun d => decide (d.name = n))

/-- `field_by_name` (fields.rs:165-175). -/
def Definition.field (d : Definition) (n : Name) : Option Field := d.fields.find? (fun f => decide (f.name = n))

/-- `argument_by_name` (fields.rs:116-128). -/
def Field.arg (f : Field) (n : Name) : Option Arg := f.args.find? (fun a => decide (a.name = n))

/-- `Selection` (subgraphs/keys.rs:166-182). -/
inductive Selection where
  | field (name : Name) (args : List (Name × Value)) (sub : List Selection) (directives : Bool)
  | fragment (on : Name) (sub : List Selection) (directives : Bool)

inductive Diag where
  /-- `__typename` with arguments (lines 157-162). -/
  | typenameArgs
  /-- `__typename` with a selection (lines 163-168). -/
  | typenameSub
  /-- (lines 172-179) -/
  | noField (type field : Name)
  /-- (lines 181-194) -/
  | missing (type field arg : Name)
  /-- (lines 198-206) -/
  | noArg (type field arg : Name)
  /-- (lines 208-216) -/
  | badArg (type field arg : Name)
  /-- (lines 122-130) -/
  | badCondition (type on : Name)
  /-- `@provides` on a field of such a type (lines 46-52). -/
  | noSelection (field : Name)
  /-- Directives in `@provides` (lines 76-84). -/
  | directives
deriving DecidableEq, Repr

/-! ## Arguments -/

mutual
/-- `argument_type_matches` (lines 241-289). -/
def matchesType (s : Schema) (t : Ty) : Value → Bool
  | .string _ => decide (t.name = "String")
  | .int _ => decide (t.name = "Int")
  | .float _ => decide (t.name = "Float")
  | .boolean _ => decide (t.name = "Boolean")
  | .enum v =>
    match s.find t.name with
    | none => false
    | some d => d.values.contains v
  | .object fields =>
    match s.find t.name with
    | none => false
    | some d => matchesFields s d fields
  | .list items => t.isList && matchesItems s t items
  | .null => false

def matchesFields (s : Schema) (d : Definition) : List (Name × Value) → Bool
  | [] => true
  | (n, v) :: fs =>
    (match d.field n with
      | none => false
      | some f => matchesType s f.type v) && matchesFields s d fs

def matchesItems (s : Schema) (t : Ty) : List Value → Bool
  | [] => true
  | v :: vs => matchesType s t v && matchesItems s t vs
end

/-- Required arguments which are not given (lines 181-195). -/
def missingArgs (t : Name) (f : Field) (args : List (Name × Value)) : List Diag :=
  ((f.args.filter (fun a => a.type.isRequired && !a.hasDefault)).filter
    (fun a => args.all (fun x => decide (x.1 ≠ a.name)))).map (fun a => .missing t f.name a.name)

/-- The first argument which is wrong (lines 197-217). -/
def wrongArg (s : Schema) (t : Name) (f : Field) : List (Name × Value) → Option Diag
  | [] => none
  | (n, v) :: args =>
    match f.arg n with
    | none => some (.noArg t f.name n)
    | some a => if matchesType s a.type v then wrongArg s t f args else some (.badArg t f.name n)

/-! ## Selections -/

/-- One after the other, until there is a panic. -/
def andThen (a b : Option (List Diag)) : Option (List Diag) :=
  match a with
  | none => none
  | some x => b.map (x ++ ·)

/-- The selection on `__typename` (lines 155-170). -/
def typename (args : List (Name × Value)) (sub : List Selection) : List Diag :=
  if args.isEmpty = false then [.typenameArgs] else if sub.isEmpty = false then [.typenameSub] else []

mutual
/-- `validate_selection` and `validate_field_selection` (lines 104-239). -/
def validate (s : Schema) (d : Definition) : Selection → Option (List Diag)
  | .field n args sub _ =>
    if n = "__typename" then some (typename args sub)
    else
      match d.field n with
      | none => some [.noField d.name n]
      | some f =>
        match wrongArg s d.name f args with
        | some x => some (missingArgs d.name f args ++ [x])
        | none =>
          if sub.isEmpty then some (missingArgs d.name f args)
          else
            match s.find f.type.name with
            | none => none
            | some t => andThen (some (missingArgs d.name f args)) (validateAll s t sub)
  | .fragment on sub _ =>
    match s.find on with
    | none => some [.badCondition d.name on]
    | some t => validateAll s t sub

def validateAll (s : Schema) (d : Definition) : List Selection → Option (List Diag)
  | [] => some []
  | x :: xs => andThen (validate s d x) (validateAll s d xs)
end

mutual
/-- `validate_selection_in_provides` (lines 61-102). -/
def provided : Selection → List Diag
  | .field _ _ sub dirs => if dirs then [.directives] else providedAll sub
  | .fragment _ sub dirs => if dirs then [.directives] else providedAll sub

def providedAll : List Selection → List Diag
  | [] => []
  | x :: xs => provided x ++ providedAll xs
end

/-- One selection of `@provides` (lines 35-58). -/
def validateProvided (s : Schema) (f : Field) (x : Selection) : Option (List Diag) :=
  match s.find f.type.name with
  | none => some [.noSelection f.name]
  | some t => andThen (some (provided x)) (validate s t x)

def validateProvidedAll (s : Schema) (f : Field) : List Selection → Option (List Diag)
  | [] => some []
  | x :: xs => andThen (validateProvided s f x) (validateProvidedAll s f xs)

/-- `validate_selections` (lines 5-59): the selections of `@requires` and `@provides` on a field. -/
def validateField (s : Schema) (d : Definition) (f : Field) (requires provides : List Selection) : Option (List Diag) :=
  andThen (validateAll s d requires) (validateProvidedAll s f provides)

/-- `validate_keys` (lines 291-306): the keys with their types. -/
def validateKeys (s : Schema) : List (Definition × List Selection) → Option (List Diag)
  | [] => some []
  | k :: ks => andThen (validateAll s k.1 k.2) (validateKeys s ks)

end Verif.FieldSets
