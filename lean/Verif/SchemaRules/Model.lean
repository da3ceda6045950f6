/-!
# Validation of a schema document

Model of the crate `crates/graphql-schema-validation` (all of `src/validate.rs`, `src/validate/*.rs` and
`src/context.rs`), after parsing.

Simplifications:
* The document is what the parser makes of it; positions are dropped, an error is its kind and the names in
  its message.
* Of the application of a directive its name is kept, of a default value whether there is one.
* A `HashMap` is an association list without repeated keys. `args.into_values()` (`interface_implementers.rs` 127) yields
  its values in some order: here that of the list.
* `references_input_object_rec` has fuel, which is enough (`references_none`).
-/
namespace Verif.SchemaRules

abbrev Name := List Char

inductive Ty where
  | named (n : Name) (nullable : Bool)
  | list (inner : Ty) (nullable : Bool)
  deriving DecidableEq

def Ty.nullable : Ty → Bool
  | .named _ b => b
  | .list _ b => b

def Ty.isList : Ty → Bool
  | .named _ _ => false
  | .list _ _ => true

/-- `extract_type_name` (`validate.rs` 53-58). -/
def Ty.base : Ty → Name
  | .named n _ => n
  | .list t _ => t.base

/-- `ast::DirectiveLocation`, those of type systems. -/
inductive Loc where
  | schema | scalar | object | fieldDefinition | argumentDefinition | interface | union | enum | enumValue
  | inputObject | inputFieldDefinition | executable
  deriving DecidableEq

/-- `ast::InputValueDefinition`. -/
structure Arg where
  name : Name
  ty : Ty
  hasDefault : Bool
  directives : List Name
  deriving DecidableEq

/-- `ast::FieldDefinition`. -/
structure Field where
  name : Name
  args : List Arg
  ty : Ty
  directives : List Name

/-- `ast::EnumValueDefinition`. -/
structure Value where
  name : Name
  directives : List Name

/-- `ast::TypeKind`. -/
inductive Kind where
  | scalar
  | object (implements : List Name) (fields : List Field)
  | interface (implements : List Name) (fields : List Field)
  | union (members : List Name)
  | enum (values : List Value)
  | input (fields : List Arg)

structure TypeDef where
  name : Name
  extend : Bool
  kind : Kind
  directives : List Name

structure DirDef where
  name : Name
  args : List Arg
  repeatable : Bool
  locations : List Loc

structure SchemaDef where
  extend : Bool
  directives : List Name
  query : Option Name
  mutation : Option Name
  subscription : Option Name

inductive Definition where
  | schema (s : SchemaDef)
  | type (t : TypeDef)
  | directive (d : DirDef)

/-- `Options` (`lib.rs` 42-53). -/
structure Opts where
  forbidUnknown : Bool
  draft : Bool

inductive Err where
  | reserved (n : Name)
  | builtin (n : Name)
  | duplicateType (n : Name)
  | directiveName (n : Name)
  | duplicateSchema
  | rootTwice (n : Name)
  | rootUnknown (n : Name)
  | rootKind (n : Name)
  | notRepeatable (n : Name)
  | location (n : Name) (l : Loc)
  | duplicateImplements (t i : Name)
  | unknownInterface (t i : Name)
  | notAnInterface (t i : Name)
  | notTransitive (t i j : Name)
  | missingField (t i f : Name)
  | fieldType (t i f : Name)
  | argType (t i f a : Name)
  | argRequired (t i f a : Name)
  | argMissing (t i f a : Name)
  | empty (t : Name)
  | unknownType (n : Name)
  | notOutput (n : Name)
  | notInput (n : Name)
  | duplicateField (t f : Name)
  | duplicateArg (t f a : Name)
  | argName (a : Name)
  | deprecated (t f a : Name)
  | memberUnknown (t m : Name)
  | memberKind (t m : Name)
  | duplicateMember (t m : Name)
  | duplicateValue (t v : Name)
  | cycle (t : Name) (chain : List Name)
  | extendUnknown (t : Name)
  deriving DecidableEq

/-- `HashMap::get`. -/
def get {β : Type} (m : List (Name × β)) (k : Name) : Option β :=
  match m with
  | [] => none
  | (j, v) :: rest => if j = k then some v else get rest k

/-- `HashMap::insert`. -/
def put {β : Type} (m : List (Name × β)) (k : Name) (v : β) : List (Name × β) :=
  match m with
  | [] => [(k, v)]
  | (j, w) :: rest => if j = k then (j, v) :: rest else (j, w) :: put rest k v

/-- `entry(k).or_default().extend(vs)`. -/
def push {β : Type} (m : List (Name × List β)) (k : Name) (vs : List β) : List (Name × List β) :=
  put m k ((get m k).getD [] ++ vs)

/-- `Context` (`context.rs` 8-39). The extended fields, unions and enums are kept flat: they are only
iterated. -/
structure Ctx where
  opts : Opts
  defs : List (Name × TypeDef) := []
  exts : List (Name × List TypeDef) := []
  dirs : List (Name × DirDef) := []
  extFields : List (Name × List Field) := []
  extUnions : List (Name × List Name) := []
  extImpls : List (Name × List Name) := []
  extEnums : List (Name × List Value) := []

/-- `find_duplicates` (`context.rs` 156-167): the calls of the handler. -/
def dupsFrom (i : Nat) (buf : List (Name × Nat)) : List Name → List (Nat × Nat)
  | [] => []
  | n :: rest =>
    match get buf n with
    | some p => (p, i) :: dupsFrom (i + 1) (put buf n i) rest
    | none => dupsFrom (i + 1) (put buf n i) rest

def dups (names : List Name) : List (Nat × Nat) := dupsFrom 0 [] names

def reservedName (n : Name) : Bool := ['_', '_'].isPrefixOf n

/-- `is_builtin_scalar` (`scalars.rs` 21-23). -/
def isBuiltin (n : Name) : Bool :=
  ["String".toList, "ID".toList, "Float".toList, "Boolean".toList, "Int".toList].contains n

/-- The name at an index, in a message. -/
def nameAt (names : List Name) (i : Nat) : Name := names[i]?.getD []

/-- `validate_directives` (`directive_definitions.rs` 18-48). -/
def validateDirectives (c : Ctx) (ds : List Name) (l : Loc) : List Err :=
  (dups ds).flatMap (fun p =>
    match get c.dirs (nameAt ds p.1) with
    | some d => if d.repeatable then [] else [.notRepeatable (nameAt ds p.1)]
    | none => []) ++
  ds.flatMap (fun n =>
    match get c.dirs n with
    | some d => if d.locations.contains l then [] else [.location n l]
    | none => [])

/-- `validate_type_definition` (`type_definition.rs` 4-74), the first pass. -/
def firstType (c : Ctx) (t : TypeDef) : Ctx × List Err :=
  let e1 := if !t.extend && isBuiltin t.name && !(match t.kind with | .scalar => true | _ => false) then [Err.builtin t.name] else []
  let e2 := if reservedName t.name then [Err.reserved t.name] else []
  if t.extend then
    let c :=
      match t.kind with
      | .object is fs => { c with extFields := push c.extFields t.name fs, extImpls := push c.extImpls t.name is }
      | .interface is fs => { c with extFields := push c.extFields t.name fs, extImpls := push c.extImpls t.name is }
      | .enum vs => { c with extEnums := push c.extEnums t.name vs }
      | .union ms => { c with extUnions := push c.extUnions t.name ms }
      | _ => c
    ({ c with exts := push c.exts t.name [t] }, e1 ++ e2)
  else
    let e3 := if (get c.defs t.name).isSome then [Err.duplicateType t.name] else []
    ({ c with defs := put c.defs t.name t }, e1 ++ e2 ++ e3)

/-- `validate_directive_definition` (`directive_definitions.rs` 3-16). -/
def firstDirective (c : Ctx) (d : DirDef) : Ctx × List Err :=
  ({ c with dirs := put c.dirs d.name d }, if reservedName d.name then [.directiveName d.name] else [])

/-- The loop of `validate` (`validate.rs` 26-41). -/
def firstPass (c : Ctx) : List Definition → Ctx × List Err
  | [] => (c, [])
  | .schema _ :: ds => firstPass c ds
  | .type t :: ds =>
    let r := firstPass (firstType c t).1 ds
    (r.1, (firstType c t).2 ++ r.2)
  | .directive d :: ds =>
    let r := firstPass (firstDirective c d).1 ds
    (r.1, (firstDirective c d).2 ++ r.2)

def queryName : Name := "Query".toList
def mutationName : Name := "Mutation".toList
def subscriptionName : Name := "Subscription".toList

def isObject : Kind → Bool
  | .object _ _ => true
  | _ => false

/-- The check of a root (`schema_definition.rs` 53-79). -/
def rootReference (c : Ctx) : Option Name → List Err
  | none => []
  | some n =>
    match get c.defs n with
    | none => [.rootUnknown n]
    | some t => if isObject t.kind then [] else [.rootKind n]

/-- `validate_schema_definition_references` (`schema_definition.rs` 34-80). -/
def schemaReferences (c : Ctx) (s : SchemaDef) : List Err :=
  let q := s.query.getD queryName
  let m := s.mutation.getD mutationName
  let u := s.subscription.getD subscriptionName
  (if q = m then [.rootTwice q] else []) ++ (if q = u then [.rootTwice q] else []) ++
  (if m = u then [.rootTwice m] else []) ++
  [s.query, s.mutation, s.subscription].flatMap (rootReference c)

/-- `validate_schema_definitions` (`schema_definition.rs` 4-32). -/
def schemaDefinitions (c : Ctx) (first : Bool) : List SchemaDef → List Err
  | [] => []
  | s :: ss =>
    validateDirectives c s.directives .schema ++ schemaReferences c s ++
    (if s.extend then schemaDefinitions c first ss
     else if first then .duplicateSchema :: schemaDefinitions c true ss
     else schemaDefinitions c true ss)

/-- `validate_root_types` (`schema_definition.rs` 82-91). -/
def rootTypes (c : Ctx) : List Err :=
  [queryName, mutationName, subscriptionName].flatMap (fun n =>
    match get c.defs n with
    | some t => if isObject t.kind then [] else [.rootKind n]
    | none => [])

/-- `validate_input_type` (`input_types.rs` 11-24). -/
def inputType (c : Ctx) (n : Name) : List Err :=
  if isBuiltin n then []
  else
    match get c.defs n with
    | none => [.unknownType n]
    | some t =>
      match t.kind with
      | .scalar => []
      | .enum _ => []
      | .input _ => []
      | _ => [.notInput n]

/-- The definition of a type, or with unknown types allowed its first extension (`output_types.rs` 16-24,
`interface_implementers.rs` 22-41). -/
def findType (c : Ctx) (n : Name) : Option TypeDef :=
  match get c.defs n with
  | some t => some t
  | none => if c.opts.forbidUnknown then none else ((get c.exts n).getD []).head?

/-- `validate_output_type` (`output_types.rs` 11-32). -/
def outputType (c : Ctx) (n : Name) : List Err :=
  if isBuiltin n then []
  else
    match findType c n with
    | none => [.unknownType n]
    | some t =>
      match t.kind with
      | .input _ => [.notOutput n]
      | _ => []

def deprecatedName : Name := "deprecated".toList

/-- `validate_arguments` (`arguments.rs` 3-55). -/
def validateArguments (c : Ctx) (ty field : Name) (args : List Arg) : List Err :=
  (dups (args.map (·.name))).map (fun p => .duplicateArg ty field (nameAt (args.map (·.name)) p.2)) ++
  args.flatMap (fun a =>
    (if reservedName a.name then [.argName a.name] else []) ++
    inputType c a.ty.base ++
    (if c.opts.draft then
      if !a.ty.nullable && !a.hasDefault && a.directives.contains deprecatedName then [.deprecated ty field a.name] else []
     else []) ++
    validateDirectives c a.directives .argumentDefinition)

/-- `validate_object_field` (`object_field.rs` 3-26). -/
def validateObjectField (c : Ctx) (ty : Name) (f : Field) : List Err :=
  validateDirectives c f.directives .fieldDefinition ++
  (if reservedName f.name then [.reserved f.name] else []) ++
  validateArguments c ty f.name f.args

/-- `validate_implementer_wrapper_types` (`interface_implementers.rs` 233-247); the first type is the candidate. -/
def wrappersOk : Ty → Ty → Bool
  | .named _ cn, .named _ tn => if !tn && cn then false else true
  | .list c cn, .list t tn => if !tn && cn then false else wrappersOk c t
  | _, _ => false

/-- `validate_implementer_inner_type` (`interface_implementers.rs` 183-231). -/
def innerOk (c : Ctx) (candidate iface : Name) : Bool :=
  if candidate = iface then true
  else
    match (get c.defs iface).map TypeDef.kind with
    | some (.union members) => members.contains candidate
    | some (.interface _ _) =>
      match (get c.defs candidate).map TypeDef.kind with
      | some (.object is _) => is.contains iface
      | some (.interface is _) => is.contains iface
      | _ => false
    | _ => false

/-- The map of the arguments of both fields (`interface_implementers.rs` 116-125). -/
def argMap (candidate iface : List Arg) : List (Name × (Option Arg × Option Arg)) :=
  iface.foldl (fun m a => put m a.name (((get m a.name).getD (none, none)).1, some a))
    (candidate.foldl (fun m a => put m a.name (some a, none)) [])

/-- `validate_field_arguments_implement_interface_field` (`interface_implementers.rs` 107-154). -/
def argumentsOk (t i f : Name) (candidate iface : List Arg) : List Err :=
  (argMap candidate iface).flatMap (fun e =>
    match e.2 with
    | (some ca, some ia) => if ca.ty = ia.ty then [] else [.argType t i f ca.name]
    | (some ca, none) => if ca.ty.nullable then [] else [.argRequired t i f ca.name]
    | (none, some ia) => [.argMissing t i f ia.name]
    | (none, none) => [])

/-- `with_fields` (`context.rs` 108-123). -/
def allFields (c : Ctx) (n : Name) (fs : List Field) : List Field := fs ++ (get c.extFields n).getD []

/-- `validate_fields_implement_interface` (`interface_implementers.rs` 63-105); the missing fields come last. -/
def fieldsImplement (c : Ctx) (t : Name) (fs : List Field) (i : Name) (ifs : List Field) : List Err :=
  ifs.flatMap (fun f =>
    match (allFields c t fs).find? (fun g => decide (g.name = f.name)) with
    | some g =>
      (if wrappersOk g.ty f.ty && innerOk c g.ty.base f.ty.base then [] else [.fieldType t i f.name]) ++
      argumentsOk t i f.name g.args f.args
    | none => []) ++
  ifs.flatMap (fun f =>
    match (allFields c t fs).find? (fun g => decide (g.name = f.name)) with
    | some _ => []
    | none => [.missingField t i f.name])

/-- `validate_implements_list` (`interface_implementers.rs` 7-61). -/
def implementsList (c : Ctx) (t : Name) (impls : List Name) (fs : List Field) : List Err :=
  (dups impls).map (fun p => .duplicateImplements t (nameAt impls p.1)) ++
  impls.flatMap (fun i =>
    match findType c i with
    | none => [.unknownInterface t i]
    | some d =>
      match d.kind with
      | .interface is ifs =>
        is.flatMap (fun j => if impls.contains j then [] else [.notTransitive t i j]) ++ fieldsImplement c t fs i ifs
      | _ => [.notAnInterface t i])

/-- `validate_object` (`objects.rs` 3-45). -/
def validateObject (c : Ctx) (t : TypeDef) (is : List Name) (fs : List Field) : List Err :=
  let all := allFields c t.name fs
  validateDirectives c t.directives .object ++
  implementsList c t.name (is ++ (get c.extImpls t.name).getD []) fs ++
  (if all.isEmpty then [.empty t.name] else []) ++
  all.flatMap (fun f => validateObjectField c t.name f ++ outputType c f.ty.base) ++
  (dups (all.map (·.name))).map (fun p => .duplicateField t.name (nameAt (all.map (·.name)) p.2))

/-- `validate_interface` (`interfaces.rs` 3-33). -/
def validateInterface (c : Ctx) (t : TypeDef) (is : List Name) (fs : List Field) : List Err :=
  validateDirectives c t.directives .interface ++
  implementsList c t.name (is ++ (get c.extImpls t.name).getD []) fs ++
  (if fs.isEmpty then [.empty t.name] else []) ++
  fs.flatMap (fun f => validateObjectField c t.name f ++ outputType c f.ty.base)

/-- `validate_union_members` (`unions.rs` 20-53). -/
def validateUnion (c : Ctx) (t : TypeDef) (ms : List Name) : List Err :=
  let all := ms ++ (get c.extUnions t.name).getD []
  validateDirectives c t.directives .union ++
  all.flatMap (fun m =>
    match get c.defs m with
    | some d => if isObject d.kind then [] else [.memberKind t.name m]
    | none => [.memberUnknown t.name m]) ++
  (dups all).map (fun p => .duplicateMember t.name (nameAt all p.1))

/-- A panic: `enm.values[idx]` (`enums.rs` 14) is out of bounds. -/
inductive Panic where
  | enumValue (t : Name) (i : Nat)
  deriving DecidableEq

/-- The handler of `find_duplicates` in `validate_enum_members` (`enums.rs` 13-16). -/
def enumDups (t : Name) (vs : List Value) : List (Nat × Nat) → Except Panic (List Err)
  | [] => .ok []
  | p :: ps =>
    match vs[p.1]? with
    | none => .error (.enumValue t p.1)
    | some v =>
      match enumDups t vs ps with
      | .ok es => .ok (.duplicateValue t v.name :: es)
      | .error e => .error e

/-- `validate_enum_members` (`enums.rs` 3-22). -/
def validateEnum (c : Ctx) (t : TypeDef) (vs : List Value) : Except Panic (List Err) :=
  let all := vs ++ (get c.extEnums t.name).getD []
  match enumDups t.name vs (dups (all.map (·.name))) with
  | .error e => .error e
  | .ok es =>
    .ok (validateDirectives c t.directives .enum ++ es ++
      all.flatMap (fun v => validateDirectives c v.directives .enumValue))

/-- The fields of an input object, in `definition_names`. -/
def inputFields (c : Ctx) (n : Name) : Option (List Arg) :=
  match (get c.defs n).map TypeDef.kind with
  | some (.input fs) => some fs
  | _ => none

/-- The loop of `references_input_object_rec` (`input_object_cycles.rs` 20-54), given the recursive call: the chain, innermost
field first, and the types visited. -/
def referencesIn (c : Ctx) (name : Name) (call : List Arg → List Name → Option (List Name) × List Name) :
    List Arg → List Name → Option (List Name) × List Name
  | [], visited => (none, visited)
  | f :: rest, visited =>
    if f.ty.nullable || f.ty.isList then referencesIn c name call rest visited
    else if f.ty.base = name then (some [f.name], visited)
    else if visited.contains f.ty.base then referencesIn c name call rest visited
    else
      match inputFields c f.ty.base with
      | some fs =>
        match call fs (f.ty.base :: visited) with
        | (some chain, visited) => (some (chain ++ [f.name]), visited)
        | (none, visited) => referencesIn c name call rest visited
      | none => referencesIn c name call rest visited

/-- `references_input_object_rec`. -/
def references (c : Ctx) (name : Name) : Nat → List Arg → List Name → Option (List Name) × List Name
  | 0, _, visited => (none, visited)
  | fuel + 1, fields, visited => referencesIn c name (references c name fuel) fields visited

/-- `input_object_cycles` (`input_object_cycles.rs` 6-18). -/
def inputCycles (c : Ctx) (name : Name) (fields : List Arg) : List Err :=
  match (references c name (c.defs.length + 1) fields []).1 with
  | some chain => [.cycle name chain.reverse]
  | none => []

/-- `validate_input_object` (`input_objects.rs` 3-39). -/
def validateInput (c : Ctx) (t : TypeDef) (fs : List Arg) : List Err :=
  validateDirectives c t.directives .inputObject ++
  (if fs.isEmpty then [.empty t.name] else []) ++
  fs.flatMap (fun f => validateDirectives c f.directives .inputFieldDefinition ++ inputType c f.ty.base) ++
  inputCycles c t.name fs

/-- The kinds of an extension and of its definition are the same (`validate_*_extension`). -/
def sameKind : Kind → Kind → Bool
  | .scalar, .scalar => true
  | .object _ _, .object _ _ => true
  | .interface _ _, .interface _ _ => true
  | .union _, .union _ => true
  | .enum _, .enum _ => true
  | .input _, .input _ => true
  | _, _ => false

def kindLoc : Kind → Loc
  | .scalar => .scalar
  | .object _ _ => .object
  | .interface _ _ => .interface
  | .union _ => .union
  | .enum _ => .enum
  | .input _ => .inputObject

/-- `validate_object_extension` and those of the other kinds: they are the same but for the kind, and for
builtin scalars (`objects.rs` 47-62, `interfaces.rs` 35-51, `unions.rs` 3-18, `enums.rs` 24-39,
`input_objects.rs` 41-60, `scalars.rs` 3-19). -/
def validateExtension (c : Ctx) (t : TypeDef) : List Err :=
  validateDirectives c t.directives (kindLoc t.kind) ++
  (if c.opts.forbidUnknown && !(sameKind t.kind .scalar && isBuiltin t.name) &&
      !(match get c.defs t.name with | some d => sameKind t.kind d.kind | none => false) then [.extendUnknown t.name] else [])

/-- The second pass on a type (`type_definition.rs` 84-119). -/
def secondType (c : Ctx) (t : TypeDef) : Except Panic (List Err) :=
  if t.extend then .ok (validateExtension c t)
  else
    match t.kind with
    | .object is fs => .ok (validateObject c t is fs)
    | .interface is fs => .ok (validateInterface c t is fs)
    | .input fs => .ok (validateInput c t fs)
    | .union ms => .ok (validateUnion c t ms)
    | .enum vs => validateEnum c t vs
    | .scalar => .ok []

/-- `validate_definitions_second_pass` (`type_definition.rs` 76-141). -/
def secondPass (c : Ctx) : List Definition → Except Panic (List Err)
  | [] => .ok []
  | .schema _ :: ds => secondPass c ds
  | .directive d :: ds =>
    match secondPass c ds with
    | .ok es => .ok (d.args.flatMap (fun a => inputType c a.ty.base) ++ es)
    | .error e => .error e
  | .type t :: ds =>
    match secondType c t with
    | .error e => .error e
    | .ok es =>
      match secondPass c ds with
      | .ok rest => .ok (es ++ rest)
      | .error e => .error e

def schemaDefs (ds : List Definition) : List SchemaDef :=
  ds.filterMap (fun d => match d with | .schema s => some s | _ => none)

/-- `validate` (`validate.rs` 23-51). -/
def validate (o : Opts) (ds : List Definition) : Except Panic (List Err) :=
  let r := firstPass { opts := o } ds
  let schemas := schemaDefs ds
  match secondPass r.1 ds with
  | .error e => .error e
  | .ok es =>
    .ok (r.2 ++ schemaDefinitions r.1 false schemas ++ (if schemas.isEmpty then rootTypes r.1 else []) ++ es)

end Verif.SchemaRules
