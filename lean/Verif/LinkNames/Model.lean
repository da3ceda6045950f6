/-!
# Which directive a name stands for

The names of directives in a subgraph depend on its `@link` directives. This is the code which reads the links of the
subgraphs, finds the directive a name stands for and decides what becomes of it in the composed schema.

* `crates/graphql-composition/src/ingest_subgraph/directives/match_name.rs` (all of it)
* `crates/graphql-composition/src/ingest_subgraph/schema_definitions/link.rs` (all of it)
* `crates/graphql-composition/src/ingest_subgraph/schema_definitions.rs` lines 5 to 76, the first two passes
* `crates/graphql-composition/src/subgraphs/directives/link.rs`, `linked_schemas.rs`, `extensions.rs`, `top.rs` lines 18 to 125
* `crates/graphql-composition/src/ingest_subgraph/directives.rs` lines 12 to 76 and 272 to 286
* `crates/graphql-composition/src/compose/context.rs` lines 18 to 35, `compose/directives.rs` lines 69 to 104

Simplifications: an interned string is the string itself; a `HashMap` is the list of its insertions, the latest first; the
parsed form of a URL is a parameter (`parse`, what `url::Url::parse` answers); a `@link` is read from its arguments beforehand
(`none` when its arguments are not those of a `@link`); of the directives on the schema only the links and `@composeDirective`
are ingested; an index out of bounds is `Match.crash`.
-/
namespace Verif.LinkNames

abbrev Text := List Char

/-- `FederationSpec` (top.rs:83-88). -/
inductive Fed where
  | v1 | v2 | composite
deriving DecidableEq, Repr

/-- The order of the variants, for `max`. -/
def Fed.rank : Fed → Nat
  | .v1 => 0
  | .v2 => 1
  | .composite => 2

/-- `Ord::max`. -/
def Fed.max (a b : Fed) : Fed := if a.rank ≤ b.rank then b else a

/-- `LinkedSchemaType` (linked_schemas.rs:27-31). -/
inductive SchemaType where
  | fed (f : Fed)
  | other
deriving DecidableEq, Repr

/-- What is used of a `url::Url`: `none` for the segments when the URL cannot be a base. -/
structure Url where
  scheme : Text
  host : Option Text
  segments : Option (List Text)
deriving DecidableEq, Repr

/-- `Import` (federated_graph/directives/link.rs:95-99). -/
inductive Import where
  | string (name : Text)
  | qualified (name : Text) (as : Option Text)
deriving DecidableEq, Repr

/-- `LinkDirectiveDeserialize`. -/
structure Link where
  url : Text
  as : Option Text
  imports : List Import
deriving DecidableEq, Repr

/-- `LinkedSchemaRecord` (linked_schemas.rs:14-25). -/
structure Schema where
  sg : Nat
  type : SchemaType
  url : Text
  nameFromUrl : Option Text
  as : Option Text
deriving DecidableEq, Repr

/-- `LinkedSchemaRecord::namespace` (linked_schemas.rs:35-37). -/
def Schema.namespace (s : Schema) : Option Text := s.as.or s.nameFromUrl

/-- `LinkedDefinitionRecord` (linked_schemas.rs:41-45). -/
structure Def where
  schema : Nat
  original : Text
  importedAs : Option Text
deriving DecidableEq, Repr

/-- `LinkedDefinitionRecord::final_name` (linked_schemas.rs:48-50). -/
def Def.finalName (d : Def) : Text := d.importedAs.getD d.original

/-- `Subgraph`: whether it has no URL, and the specification it uses. -/
structure Subgraph where
  virtual : Bool
  spec : Fed
deriving DecidableEq, Repr

/-- `ExtensionRecord` (extensions.rs:5-9); `url` and `link_url` are the same for the ones ingested here. -/
structure Ext where
  linkUrl : Text
  name : Text
deriving DecidableEq, Repr

inductive Diag where
  /-- An error: the arguments of a link are bad. -/
  | badLink
  /-- An error: a directive is imported under a name without `@`. -/
  | missingAt
  /-- An error: something else is imported under a name with `@`. -/
  | extraAt
  /-- An error: the name given to `@composeDirective` is no string, or has no `@`. -/
  | badCompose
  /-- A warning: two schemas are linked under the same namespace. -/
  | collision
deriving DecidableEq, Repr

/-- The part of `Subgraphs` used. -/
structure St where
  sgs : List Subgraph := []
  schemas : List Schema := []
  namespaces : List ((Nat × Text) × Nat) := []
  defs : List Def := []
  imported : List ((Nat × Text) × Nat) := []
  dirDefs : List (Nat × Text) := []
  composed : List (Nat × Text) := []
  exts : List Ext := []
  diags : List (Nat × Diag) := []
deriving Repr

/-! ## URLs -/

def digit (c : Char) : Bool := decide ('0'.toNat ≤ c.toNat) && decide (c.toNat ≤ '9'.toNat)

def letter (c : Char) : Bool :=
  (decide ('a'.toNat ≤ c.toNat) && decide (c.toNat ≤ 'z'.toNat)) || (decide ('A'.toNat ≤ c.toNat) && decide (c.toNat ≤ 'Z'.toNat))

/-- `is_valid_version` (subgraphs/directives/link.rs:65-77). -/
def validVersion (s : Text) : Bool :=
  match s with
  | 'v' :: d :: rest => digit d && rest.all (fun c => digit c || c == '.')
  | _ => false

/-- `is_valid_graphql_name` (subgraphs/directives/link.rs:79-97). -/
def validName (s : Text) : Bool :=
  match s with
  | [] => false
  | c :: rest => (letter c || c == '_') && rest.all (fun c => letter c || digit c || c == '_')

/-- Name and version are at the end of the path: the segments are in reverse (subgraphs/directives/link.rs:38-62). -/
def nameAndVersion (last : Text) (rest : List Text) : Option Text :=
  if validVersion last then
    match rest with
    | [] => none
    | n :: _ => if validName n then some n else none
  else if validName last then some last
  else none

/-- The name `parse_link_url` finds (subgraphs/directives/link.rs:10-63). -/
def linkName (u : Url) : Option Text :=
  match u.segments with
  | none => none
  | some segments =>
    match segments.reverse with
    | [] => none
    | last :: rest =>
      if u.scheme = "file".toList ∧ last = "build".toList then
        match rest with
        | [] => none
        | next :: rest => nameAndVersion next rest
      else nameAndVersion last rest

/-- Whether one text is in another, `str::contains`. -/
def contains (needle : Text) : Text → Bool
  | [] => needle.isPrefixOf []
  | c :: rest => needle.isPrefixOf (c :: rest) || contains needle rest

/-- `FederationSpec::from_url` (top.rs:90-100). -/
def fedOfUrl (url : Text) : Option Fed :=
  if contains "dev/federation/v2".toList url then some .v2
  else if url = "https://specs.grafbase.com/composite-schemas/v1".toList then some .composite
  else none

/-- `url.path()`: of the segments. -/
def path (segments : List Text) : Text := segments.flatMap (fun s => '/' :: s)

/-- `is_grafbase_extension_registry_url` (schema_definitions/link.rs:5-20). -/
def registryUrl (u : Url) : Bool :=
  u.scheme == "https".toList &&
    (u.host == some "extensions.grafbase.com".toList ||
      (u.host == some "grafbase.com".toList && "/extensions".toList.isPrefixOf (path (u.segments.getD []))))

/-- The segment before, if the one given looks like a version (schema_definitions/link.rs:136-146 and 167-177). -/
def skipVersion (name : Text) (rest : List Text) : Option Text :=
  match name with
  | 'v' :: c :: _ => if digit c then rest.head? else some name
  | c :: _ => if digit c then rest.head? else some name
  | [] => rest.head?

/-- The name of an extension at a file URL (schema_definitions/link.rs:126-147). -/
def fileExtName (u : Url) : Option Text :=
  match u.segments with
  | none => none
  | some segments =>
    match segments.reverse with
    | [] => none
    | last :: next :: rest => if last = "build".toList then skipVersion next rest else skipVersion last (next :: rest)
    | [last] => skipVersion last []

/-- The name of an extension of the registry (schema_definitions/link.rs:161-178). -/
def registryExtName (u : Url) : Option Text :=
  match u.segments with
  | none => none
  | some segments =>
    match segments.reverse with
    | [] => none
    | last :: rest => skipVersion last rest

/-- `ingest_grafbase_extension_from_link` (schema_definitions/link.rs:119-188). -/
def extOfLink (l : Link) (u : Url) : List Ext :=
  (if u.scheme = "file".toList then
    match l.as.or (fileExtName u) with
    | some n => [⟨l.url, n⟩]
    | none => []
  else []) ++
  (if registryUrl u then
    match l.as.or (registryExtName u) with
    | some n => [⟨l.url, n⟩]
    | none => []
  else [])

/-! ## Links -/

/-- `HashMap::get`. -/
def get (m : List ((Nat × Text) × Nat)) (k : Nat × Text) : Option Nat := (m.find? (fun e => decide (e.1 = k))).map (·.2)

/-- `push_linked_schema` (linked_schemas.rs:94-124). -/
def pushSchema (st : St) (s : Schema) : St :=
  let id := st.schemas.length
  let st :=
    match s.namespace with
    | none => st
    | some ns =>
      { st with
        namespaces := ((s.sg, ns), id) :: st.namespaces
        diags := if (get st.namespaces (s.sg, ns)).isSome then st.diags ++ [(s.sg, Diag.collision)] else st.diags }
  let st :=
    match fedOfUrl s.url with
    | none => st
    | some f => { st with sgs := st.sgs.modify s.sg (fun g => { g with spec := g.spec.max f }) }
  { st with schemas := st.schemas ++ [s] }

/-- `push_linked_definition` (linked_schemas.rs:78-92). -/
def pushDef (st : St) (sg : Nat) (d : Def) : St :=
  { st with imported := ((sg, d.finalName), st.defs.length) :: st.imported, defs := st.defs ++ [d] }

/-- `trim_start_matches("@")`. -/
def trimAt (s : Text) : Text := s.dropWhile (fun c => c == '@')

/-- One import (schema_definitions/link.rs:65-115). -/
def ingestImport (sg schema : Nat) (st : St) (i : Import) : St :=
  match i with
  | .string name => pushDef st sg ⟨schema, trimAt name, none⟩
  | .qualified name none => pushDef st sg ⟨schema, trimAt name, none⟩
  | .qualified name (some as) =>
    let isDirective := name.head? == some '@'
    let st :=
      if (as.head? == some '@') != isDirective then
        { st with diags := st.diags ++ [(sg, if isDirective then Diag.missingAt else Diag.extraAt)] }
      else st
    pushDef st sg ⟨schema, trimAt name, some (trimAt as)⟩

/-- `ingest_link_directive` (schema_definitions/link.rs:22-117). -/
def ingestLink (parse : Text → Option Url) (sg : Nat) (st : St) (l : Option Link) : St :=
  match l with
  | none => { st with diags := st.diags ++ [(sg, .badLink)] }
  | some l =>
    let url := (parse l.url).filter (fun u => u.segments.isSome)
    let st := { st with exts := st.exts ++ (match url with | some u => extOfLink l u | none => []) }
    let type : SchemaType := match fedOfUrl l.url with | some f => .fed f | none => .other
    let id := st.schemas.length
    let st := pushSchema st ⟨sg, type, l.url, url.bind linkName, l.as⟩
    l.imports.foldl (ingestImport sg id) st

/-! ## Names -/

/-- `split_once("__")`. -/
def splitOnce : Text → Option (Text × Text)
  | [] => none
  | [_] => none
  | a :: b :: rest =>
    if a = '_' ∧ b = '_' then some ([], rest) else (splitOnce (b :: rest)).map (fun x => (a :: x.1, x.2))

/-- The directives known, `DirectiveNameMatch` from `Deprecated` on (match_name.rs:174-207). -/
inductive Builtin where
  | deprecated | specifiedBy
  | lookup | derive | require | is | keyFromComposite | internal
  | authenticated | composeDirective | cost | extends | external | inaccessible | oneOf | interfaceObject | key | link
  | listSize | override | policy | provides | requires | requiresScopes | shareable | tag
deriving DecidableEq, Repr

/-- `DirectiveNameMatch` (match_name.rs:160-207). -/
inductive Match where
  | noMatch
  | qualified (schema : Nat) (name : Text)
  | imported (d : Nat)
  | locally (d : Nat)
  | builtin (b : Builtin)
  | crash
deriving DecidableEq, Repr

/-- `match_composite_schemas_directive_by_original_name` (match_name.rs:125-140). -/
def compositeByName (n : Text) : Match :=
  if n = "lookup".toList then .builtin .lookup
  else if n = "key".toList then .builtin .keyFromComposite
  else if n = "require".toList then .builtin .require
  else if n = "shareable".toList then .builtin .shareable
  else if n = "is".toList then .builtin .is
  else if n = "derive".toList then .builtin .derive
  else if n = "external".toList then .builtin .external
  else if n = "override".toList then .builtin .override
  else if n = "provides".toList then .builtin .provides
  else if n = "inaccessible".toList then .builtin .inaccessible
  else if n = "internal".toList then .builtin .internal
  else .noMatch

/-- `match_federation_directive_by_original_name` (match_name.rs:142-160). -/
def federationByName (n : Text) : Match :=
  if n = "authenticated".toList then .builtin .authenticated
  else if n = "composeDirective".toList then .builtin .composeDirective
  else if n = "extends".toList then .builtin .extends
  else if n = "external".toList then .builtin .external
  else if n = "inaccessible".toList then .builtin .inaccessible
  else if n = "interfaceObject".toList then .builtin .interfaceObject
  else if n = "key".toList then .builtin .key
  else if n = "override".toList then .builtin .override
  else if n = "policy".toList then .builtin .policy
  else if n = "provides".toList then .builtin .provides
  else if n = "requires".toList then .builtin .requires
  else if n = "requiresScopes".toList then .builtin .requiresScopes
  else if n = "shareable".toList then .builtin .shareable
  else if n = "tag".toList then .builtin .tag
  else .noMatch

/-- The directives every document has (match_name.rs:107-116). -/
def builtinByName (n : Text) : Option Builtin :=
  if n = "link".toList then some .link
  else if n = "deprecated".toList then some .deprecated
  else if n = "specifiedBy".toList then some .specifiedBy
  else if n = "oneOf".toList then some .oneOf
  else if n = "cost".toList then some .cost
  else if n = "listSize".toList then some .listSize
  else none

/-- Of a linked schema (match_name.rs:62-79). -/
def matchQualified (st : St) (schema : Nat) (n : Text) : Match :=
  match st.schemas[schema]? with
  | none => .crash
  | some s =>
    match s.type with
    | .fed .v2 => federationByName n
    | .fed .composite => compositeByName n
    | .fed .v1 => .qualified schema n
    | .other => .qualified schema n

/-- Of an import (match_name.rs:86-104). -/
def matchImported (st : St) (id : Nat) : Match :=
  match st.defs[id]? with
  | none => .crash
  | some d =>
    match st.schemas[d.schema]? with
    | none => .crash
    | some s =>
      match s.type with
      | .fed .v2 => federationByName d.original
      | .fed .v1 => federationByName d.original
      | .fed .composite => compositeByName d.original
      | .other => .imported id

/-- Of neither (match_name.rs:107-122). -/
def matchBare (st : St) (sg : Nat) (n : Text) : Match :=
  match builtinByName n with
  | some b => .builtin b
  | none =>
    match st.sgs[sg]? with
    | none => .crash
    | some g => if g.spec ≠ .v2 ∧ g.virtual = false then federationByName n else .noMatch

/-- `match_directive_name_inner` (match_name.rs:56-123). -/
def matchInner (st : St) (sg : Nat) (n : Text) (schema : Option Nat) : Match :=
  match schema with
  | some s => matchQualified st s n
  | none =>
    match get st.imported (sg, n) with
    | some d => matchImported st d
    | none => matchBare st sg n

/-- The directive definitions of a subgraph come one after the other (subgraphs/directives.rs:336-353). -/
def localDef (st : St) (sg : Nat) (n : Text) : Option Nat :=
  let start := (st.dirDefs.takeWhile (fun d => decide (d.1 < sg))).length
  (((st.dirDefs.drop start).takeWhile (fun d => d.1 == sg)).findIdx? (fun d => d.2 == n)).map (start + ·)

/-- Namespace and name (match_name.rs:25-31). -/
def splitName (n : Text) : Option Text × Text :=
  match splitOnce n with
  | some (p, m) => (some p, m)
  | none => (none, n)

/-- `match_directive_name` (match_name.rs:21-54). -/
def matchName (st : St) (sg : Nat) (n : Text) : Text × Match :=
  let schema := (splitName n).1.bind (fun p => get st.namespaces (sg, p))
  let m := (splitName n).2
  match matchInner st sg m schema with
  | .noMatch =>
    match localDef st sg m with
    | some d => (m, .locally d)
    | none => (m, .noMatch)
  | other => (m, other)

/-! ## Documents -/

/-- A directive on the schema: its arguments as strings, and the link it is. -/
structure SchemaDir where
  name : Text
  link : Option Link := none
  args : List (Text × Option Text) := []
deriving DecidableEq, Repr

/-- A subgraph: whether it has no URL, the directives it defines, those on its schema. -/
structure Doc where
  virtual : Bool := false
  defs : List Text := []
  directives : List SchemaDir := []
deriving DecidableEq, Repr

/-- `push_subgraph` (top.rs:18-37). -/
def pushSubgraph (st : St) (virtual : Bool) : St :=
  { st with sgs := st.sgs ++ [⟨virtual, if virtual then .composite else .v1⟩] }

/-- An argument of `@composeDirective` (schema_definitions.rs:47-71). -/
def composeArg (sg : Nat) (st : St) (a : Text × Option Text) : St :=
  if a.1 = "name".toList then
    match a.2 with
    | none => { st with diags := st.diags ++ [(sg, .badCompose)] }
    | some name =>
      if name.head? = some '@' then { st with composed := (sg, (matchName st sg (trimAt name)).1) :: st.composed }
      else { st with diags := st.diags ++ [(sg, .badCompose)] }
  else st

/-- The second pass (schema_definitions.rs:43-75). -/
def composeDir (sg : Nat) (st : St) (d : SchemaDir) : St :=
  match (matchName st sg d.name).2 with
  | .builtin .composeDirective => d.args.foldl (composeArg sg) st
  | _ => st

/-- The first pass (schema_definitions.rs:28-32). -/
def linkDir (parse : Text → Option Url) (sg : Nat) (st : St) (d : SchemaDir) : St :=
  if d.name = "link".toList then ingestLink parse sg st d.link else st

/-- `ingest_subgraph`, the directive definitions and the schema (ingest_subgraph.rs:34-49). -/
def ingest (parse : Text → Option Url) (st : St) (d : Doc) : St :=
  let sg := st.sgs.length
  let st := pushSubgraph st d.virtual
  let st := { st with dirDefs := st.dirDefs ++ d.defs.map (fun n => (sg, n)) }
  let st := d.directives.foldl (linkDir parse sg) st
  d.directives.foldl (composeDir sg) st

/-- All the subgraphs, with the extensions loaded beforehand. -/
def ingestAll (parse : Text → Option Url) (loaded : List Ext) (ds : List Doc) : St :=
  ds.foldl (ingest parse) { exts := loaded }

/-! ## What becomes of a directive -/

inductive Outcome where
  /-- One of the known directives, with its own treatment. -/
  | builtin (b : Builtin)
  /-- In the composed schema as a directive of an extension. -/
  | extension (url : Text) (name : Text)
  /-- In the composed schema as such. -/
  | composed (url : Option Text) (name : Text)
  /-- Left out. -/
  | dropped
  /-- Left out with a warning. -/
  | unknown
  /-- The composition fails. -/
  | fatal
  | crash
deriving DecidableEq, Repr

/-- `is_composed_directive`. -/
def isComposed (st : St) (sg : Nat) (n : Text) : Bool := st.composed.contains (sg, n)

/-- `linked_schema_to_extension` (compose/context.rs:21-35). -/
def hasExt (st : St) (url : Text) : Bool := st.exts.any (fun e => e.linkUrl == url)

/-- `DirectiveProvenance::Linked` (compose/directives.rs:75-99). -/
def linked (st : St) (schema : Nat) (n : Text) (composed : Bool) : Outcome :=
  match st.schemas[schema]? with
  | none => .crash
  | some s =>
    match hasExt st s.url, composed with
    | true, true => .fatal
    | true, false => .extension s.url n
    | false, true => .composed (some s.url) n
    | false, false => .dropped

/-- A directive in the document (ingest_subgraph/directives.rs:18-76 and 272-286), and what is composed of it. -/
def outcome (st : St) (sg : Nat) (n : Text) : Outcome :=
  let r := matchName st sg n
  let composed := isComposed st sg r.1
  match r.2 with
  | .noMatch => if composed then .composed none r.1 else .unknown
  | .imported d =>
    match st.defs[d]? with
    | none => .crash
    | some d => linked st d.schema d.original composed
  | .qualified s m => linked st s m composed
  | .locally _ => .dropped
  | .builtin b => .builtin b
  | .crash => .crash

end Verif.LinkNames
