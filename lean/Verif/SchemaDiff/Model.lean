/-!
# The schema differ

Model of `crates/graphql-schema-diff/src/traverse_schemas.rs` and `state.rs`.  Names, types and default
values are numbers; only their equality matters.  Spans, and the final sort of the changes, are left out:
the theorems are about which changes are reported.
-/
namespace Verif.SchemaDiff

/-- `DefinitionKind`, state.rs:20-28. -/
inductive Kind where
  | directive | enum | inputObject | interface | object | scalar | union
  deriving DecidableEq, Repr

structure Arg where
  name : Nat
  ty : Nat
  default : Option Nat
  deriving DecidableEq, Repr

/-- A field, input field (both with a type), enum value or union member (both without). -/
structure Field where
  name : Nat
  ty : Nat
  args : List Arg
  deriving DecidableEq, Repr

/-- `ast::Definition`.  A type extension is treated like a type by the differ. -/
inductive Def where
  | schemaExt
  | schema (query mutation subscription : Option Nat)
  | directive (name : Nat)
  | scalar (name : Nat)
  | object (name : Nat) (impls : List Nat) (fields : List Field)
  | interface (name : Nat) (impls : List Nat) (fields : List Field)
  | union (name : Nat) (members : List Nat)
  | enum (name : Nat) (values : List Nat)
  | inputObject (name : Nat) (fields : List Field)
  deriving DecidableEq, Repr

abbrev Doc := List Def

/-- `DiffMap`, state.rs:6: a hash map from keys to a source and a target value.  Keys occur once. -/
abbrev DiffMap (K V : Type) := List (K × (Option V × Option V))

section
variable {K V : Type} [DecidableEq K]

def lookup (m : DiffMap K V) (k : K) : Option (Option V × Option V) := (m.find? fun e => e.1 = k).map (·.2)

/-- `HashMap::insert`. -/
def set (m : DiffMap K V) (k : K) (e : Option V × Option V) : DiffMap K V :=
  m.filter (fun x => ¬ x.1 = k) ++ [(k, e)]

/-- `insert_source`, traverse_schemas.rs:243-245. -/
def insertSource (m : DiffMap K V) (k : K) (v : V) : DiffMap K V := set m k (some v, none)

/-- `merge_target`, traverse_schemas.rs:247-249. -/
def mergeTarget (m : DiffMap K V) (k : K) (v : V) : DiffMap K V := set m k (((lookup m k).getD (none, none)).1, some v)

end

/-- `DiffState`, state.rs:9-16; of a definition only its kind is used. -/
structure State where
  schemaDef : Option (Option Nat × Option Nat × Option Nat) × Option (Option Nat × Option Nat × Option Nat) := (none, none)
  /-- whether the n-th schema extension occurs in source and target -/
  schemaExts : List (Bool × Bool) := []
  types : DiffMap Nat Kind := []
  fields : DiffMap (Nat × Nat) (Option Nat) := []
  impls : DiffMap Nat (List Nat) := []
  args : DiffMap (Nat × Nat × Nat) Arg := []
  deriving Repr

/-- `fill_args_src`, traverse_schemas.rs:220-229. -/
def fillArgsSrc (m : DiffMap (Nat × Nat × Nat) Arg) (parent field : Nat) (args : List Arg) :
    DiffMap (Nat × Nat × Nat) Arg :=
  args.foldl (fun m a => insertSource m (parent, field, a.name) a) m

/-- `args_target`, traverse_schemas.rs:232-241. -/
def argsTarget (m : DiffMap (Nat × Nat × Nat) Arg) (parent field : Nat) (args : List Arg) :
    DiffMap (Nat × Nat × Nat) Arg :=
  args.foldl (fun m a => mergeTarget m (parent, field, a.name) a) m

/-- The field loop of object and interface types, traverse_schemas.rs:49-60, 70-80. -/
def srcFields (s : State) (n : Nat) (fields : List Field) : State :=
  fields.foldl (fun s f =>
    { s with fields := insertSource s.fields (n, f.name) (some f.ty), args := fillArgsSrc s.args n f.name f.args }) s

/-- traverse_schemas.rs:155-163, 172-181. -/
def tgtFields (s : State) (n : Nat) (fields : List Field) : State :=
  fields.foldl (fun s f =>
    { s with fields := mergeTarget s.fields (n, f.name) (some f.ty), args := argsTarget s.args n f.name f.args }) s

/-- One definition in `traverse_source`, traverse_schemas.rs:24-121. -/
def traverseSource (s : State) : Def → State
  | .schemaExt => { s with schemaExts := s.schemaExts ++ [(true, false)] }
  | .schema q m u => { s with schemaDef := (some (q, m, u), s.schemaDef.2) }
  | .directive n => { s with types := insertSource s.types n .directive }
  | .scalar n => { s with types := insertSource s.types n .scalar }
  | .object n impls fs =>
    srcFields { s with types := insertSource s.types n .object, impls := insertSource s.impls n impls } n fs
  | .interface n impls fs =>
    srcFields { s with types := insertSource s.types n .interface, impls := insertSource s.impls n impls } n fs
  | .union n ms =>
    let s := { s with types := insertSource s.types n .union }
    { s with fields := ms.foldl (fun m x => insertSource m (n, x) none) s.fields }
  | .enum n vs =>
    let s := { s with types := insertSource s.types n .enum }
    { s with fields := vs.foldl (fun m x => insertSource m (n, x) none) s.fields }
  | .inputObject n fs =>
    let s := { s with types := insertSource s.types n .inputObject }
    { s with fields := fs.foldl (fun m f => insertSource m (n, f.name) (some f.ty)) s.fields }

/-- One definition in `traverse_target`, traverse_schemas.rs:123-217; `count` is `schema_extensions_count`. -/
def traverseTarget (sc : State × Nat) : Def → State × Nat
  | .schemaExt =>
    let (s, count) := sc
    if s.schemaExts.length = count then ({ s with schemaExts := s.schemaExts ++ [(false, true)] }, count + 1)
    else ({ s with schemaExts := s.schemaExts.set count ((s.schemaExts[count]?.getD (false, false)).1, true) }, count + 1)
  | .schema q m u => ({ sc.1 with schemaDef := (sc.1.schemaDef.1, some (q, m, u)) }, sc.2)
  | .directive n => ({ sc.1 with types := mergeTarget sc.1.types n .directive }, sc.2)
  | .scalar n => ({ sc.1 with types := mergeTarget sc.1.types n .scalar }, sc.2)
  | .object n impls fs =>
    (tgtFields { sc.1 with types := mergeTarget sc.1.types n .object, impls := mergeTarget sc.1.impls n impls } n fs, sc.2)
  | .interface n impls fs =>
    (tgtFields { sc.1 with types := mergeTarget sc.1.types n .interface, impls := mergeTarget sc.1.impls n impls } n fs, sc.2)
  | .union n ms =>
    let s := { sc.1 with types := mergeTarget sc.1.types n .union }
    ({ s with fields := ms.foldl (fun m x => mergeTarget m (n, x) none) s.fields }, sc.2)
  | .enum n vs =>
    let s := { sc.1 with types := mergeTarget sc.1.types n .enum }
    ({ s with fields := vs.foldl (fun m x => mergeTarget m (n, x) none) s.fields }, sc.2)
  | .inputObject n fs =>
    let s := { sc.1 with types := mergeTarget sc.1.types n .inputObject }
    ({ s with fields := fs.foldl (fun m f => mergeTarget m (n, f.name) (some f.ty)) s.fields }, sc.2)

/-- `traverse_schemas`, traverse_schemas.rs:5-22. -/
def traverse (source target : Doc) : State :=
  (target.foldl traverseTarget (source.foldl traverseSource {}, 0)).1

/-- The kinds of changes, change.rs:35-73. -/
inductive CK where
  | changeQueryType | changeMutationType | changeSubscriptionType
  | removeObjectType | addObjectType | addInterfaceImplementation | removeInterfaceImplementation
  | changeFieldType | removeField | addField | addUnion | removeUnion | addUnionMember | removeUnionMember
  | addEnum | removeEnum | addEnumValue | removeEnumValue | addScalar | removeScalar | addInterface | removeInterface
  | addDirectiveDefinition | removeDirectiveDefinition | addSchemaDefinition | removeSchemaDefinition
  | addSchemaExtension | removeSchemaExtension | addInputObject | removeInputObject
  | addFieldArgument | removeFieldArgument | addFieldArgumentDefault | removeFieldArgumentDefault
  | changeFieldArgumentDefault | changeFieldArgumentType
  deriving DecidableEq, Repr

/-- The paths the differ makes. -/
inductive Path where
  | schema
  | schemaExt (i : Nat)
  | type (n : Nat)
  | field (n f : Nat)
  | arg (n f a : Nat)
  | impl (n i : Nat)
  deriving DecidableEq, Repr

abbrev Change := Path × CK

/-- Running a function that can panic (`none`) over all entries. -/
def collect {α : Type} (f : α → Option (List Change)) : List α → Option (List Change)
  | [] => some []
  | x :: t => (f x).bind fun a => (collect f t).map (a ++ ·)

/-- `push_schema_extension_changes`, state.rs:83-103: the path is always that of the first extension. -/
def schemaExtChanges (exts : List (Bool × Bool)) : List Change :=
  exts.flatMap fun
    | (false, true) => [(.schemaExt 0, .addSchemaExtension)]
    | (true, false) => [(.schemaExt 0, .removeSchemaExtension)]
    | _ => []

/-- `push_interface_implementer_changes`, state.rs:105-132. -/
def implChanges (impls : DiffMap Nat (List Nat)) : List Change :=
  impls.flatMap fun
    | (n, (some src, some target)) =>
      ((src.filter fun i => ¬ i ∈ target).map fun i => (.impl n i, .removeInterfaceImplementation)) ++
      ((target.filter fun i => ¬ i ∈ src).map fun i => (.impl n i, .addInterfaceImplementation))
    | _ => []

/-- The part of `push_argument_changes` for an argument in both schemas, state.rs:163-188. -/
def argDiff (path : Path) (src target : Arg) : List Change :=
  (if src.ty ≠ target.ty then [(path, .changeFieldArgumentType)] else []) ++
  match src.default, target.default with
  | none, some _ => [(path, .addFieldArgumentDefault)]
  | some _, none => [(path, .removeFieldArgumentDefault)]
  | some a, some b => if a ≠ b then [(path, .changeFieldArgumentDefault)] else []
  | none, none => []

/-- The body of the loop in `push_argument_changes`, state.rs:134-191. -/
def argChanges (fields : DiffMap (Nat × Nat) (Option Nat)) :
    (Nat × Nat × Nat) × (Option Arg × Option Arg) → Option (List Change)
  | ((n, f, a), (src, target)) =>
    match lookup fields (n, f) with
    | none => none
    | some (none, some _) => some []
    | some parent =>
      let gone := parent.1.isSome ∧ parent.2.isNone
      match src, target with
      | none, none => none
      | none, some _ => some [(.arg n f a, .addFieldArgument)]
      | some _, none => if ¬ gone then some [(.arg n f a, .removeFieldArgument)] else some []
      | some s, some t => some (argDiff (.arg n f a) s t)

/-- The body of the loop in `push_field_changes`, state.rs:193-250. -/
def fieldChanges (types : DiffMap Nat Kind) :
    (Nat × Nat) × (Option (Option Nat) × Option (Option Nat)) → Option (List Change)
  | ((n, f), (src, target)) =>
    match lookup types n with
    | none => none
    | some (none, none) => none
    | some (some _, none) => some []
    | some (none, some _) => some []
    | some (some a, some b) =>
      if a ≠ b then some []
      else
        if a = .scalar ∨ a = .directive then none
        else match src, target with
          | none, none => none
          | none, some _ =>
            if a = .enum then some [(.field n f, .addEnumValue)]
            else if a = .union then some [(.field n f, .addUnionMember)]
            else some [(.field n f, .addField)]
          | some _, none =>
            if a = .enum then some [(.field n f, .removeEnumValue)]
            else if a = .union then some [(.field n f, .removeUnionMember)]
            else some [(.field n f, .removeField)]
          | some ta, some tb =>
            if (a = .object ∨ a = .inputObject ∨ a = .interface) ∧ ta ≠ tb then
              match tb with
              | none => none
              | some _ => some [(.field n f, .changeFieldType)]
            else some []

/-- `push_added_type`, state.rs:270-290. -/
def addedKind : Kind → CK
  | .directive => .addDirectiveDefinition
  | .enum => .addEnum
  | .inputObject => .addInputObject
  | .interface => .addInterface
  | .object => .addObjectType
  | .scalar => .addScalar
  | .union => .addUnion

/-- `push_removed_type`, state.rs:292-308. -/
def removedKind : Kind → CK
  | .directive => .removeDirectiveDefinition
  | .enum => .removeEnum
  | .inputObject => .removeInputObject
  | .interface => .removeInterface
  | .object => .removeObjectType
  | .scalar => .removeScalar
  | .union => .removeUnion

/-- The body of the loop in `push_definition_changes`, state.rs:252-268.  A directive's path is that of a
type of its name. -/
def defChanges : Nat × (Option Kind × Option Kind) → Option (List Change)
  | (n, e) =>
    match e with
    | (none, none) => none
    | (none, some b) => some [(.type n, addedKind b)]
    | (some a, none) => some [(.type n, removedKind a)]
    | (some a, some b) => if a ≠ b then some [(.type n, removedKind a), (.type n, addedKind b)] else some []

/-- `push_schema_definition_changes`, state.rs:310-364. -/
def schemaChanges : Option (Option Nat × Option Nat × Option Nat) × Option (Option Nat × Option Nat × Option Nat) →
    List Change
  | (none, none) => []
  | (some a, some b) =>
    (if a.1 ≠ b.1 then [(.schema, .changeQueryType)] else []) ++
    (if a.2.1 ≠ b.2.1 then [(.schema, .changeMutationType)] else []) ++
    (if a.2.2 ≠ b.2.2 then [(.schema, .changeSubscriptionType)] else [])
  | (none, some _) => [(.schema, .addSchemaDefinition)]
  | (some _, none) => [(.schema, .removeSchemaDefinition)]

/-- `diff_asts` (lib.rs:21-30) with `into_changes` (state.rs:48-79), before sorting. -/
def diff (source target : Doc) : Option (List Change) :=
  let s := traverse source target
  (collect defChanges s.types).bind fun d =>
  (collect (fieldChanges s.types) s.fields).bind fun f =>
  (collect (argChanges s.fields) s.args).map fun a =>
    schemaChanges s.schemaDef ++ schemaExtChanges s.schemaExts ++ implChanges s.impls ++ d ++ f ++ a

end Verif.SchemaDiff
