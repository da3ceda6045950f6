import Verif.CheckTypes.Model
import Verif.PatchPaths.Model
/-!
# Operation checks: the schema tables and the field usage counts

Model of `crates/operation-checks/src/{schema.rs, schema/async_graphql.rs, operation.rs,
operation/async_graphql.rs, aggregate_field_usage.rs}`.

A name is a number: the code only compares names, so names are numbered in their order.  A dotted path
is the tuple of its names (a GraphQL name has no dot).  A `u64` count is a number below `2 ^ 64`; the
additions wrap, as in a release build.
-/
namespace Verif.OpChecks
open Verif.CheckTypes (AType WrappingTypes extractType)
open Verif.PatchPaths (binarySearchBy partitionPoint)

abbrev Name := Nat

/-! ## The schema document (`ServiceDocument` of the parser) -/

structure ArgDef where
  name : Name
  base : Name
  ty : AType
  hasDefault : Bool
  deriving DecidableEq, Repr

structure FieldDef where
  name : Name
  base : Name
  ty : AType
  args : List ArgDef
  deriving DecidableEq, Repr

/-- `TypeKind`; enums, unions and scalars are `other`. -/
inductive Kind where
  | object
  | interface
  | inputObject
  | other
  deriving DecidableEq, Repr

structure TypeDef where
  name : Name
  kind : Kind
  implements : List Name
  fields : List FieldDef
  deriving DecidableEq, Repr

/-- The definitions of the document, and the names of the root types (with the defaults of
async_graphql.rs:111-113 already applied). -/
structure SDoc where
  types : List TypeDef
  query : Name
  mutation : Name
  subscription : Name
  deriving DecidableEq, Repr

/-! ## The schema tables -/

/-- `SchemaField`, schema.rs:105-112. -/
structure Field where
  ty : Name
  name : Name
  base : Name
  wrappers : WrappingTypes
  deriving DecidableEq, Repr

/-- `FieldArgument`, schema.rs:138-147. -/
structure Arg where
  ty : Name
  field : Name
  name : Name
  base : Name
  wrappers : WrappingTypes
  hasDefault : Bool
  deriving DecidableEq, Repr

/-- `FieldArgument::is_required`, schema.rs:154-156. -/
def Arg.isRequired (a : Arg) : Bool := a.wrappers.isNonnull

/-- `is_required_without_default_value`, schema.rs:158-160. -/
def Arg.isRequiredWithoutDefault (a : Arg) : Bool := a.isRequired && !a.hasDefault

/-- `SchemaField::is_required`, schema.rs:119-121. -/
def Field.isRequired (f : Field) : Bool := f.wrappers.isNonnull

/-- `Schema`, schema.rs:15-32. -/
structure Schema where
  fields : List Field
  args : List Arg
  impls : List (Name × Name)
  inputObjects : List Name
  query : Name
  mutation : Name
  subscription : Name
  deriving DecidableEq, Repr

/-- Comparison of pairs of names. -/
def cmp2 (a b : Name × Name) : Ordering := (compare a.1 b.1).then (compare a.2 b.2)

/-- Comparison of triples of names. -/
def cmp3 (a b : Name × Name × Name) : Ordering :=
  (compare a.1 b.1).then ((compare a.2.1 b.2.1).then (compare a.2.2 b.2.2))

def Field.key (f : Field) : Name × Name := (f.ty, f.name)

/-- `sort_key`, schema.rs:150-152. -/
def Arg.key (a : Arg) : Name × Name × Name := (a.ty, a.field, a.name)

/-- The fields pushed for one type, async_graphql.rs:47-55, 80-88, 93-101. -/
def typeFields (t : TypeDef) : List Field :=
  match t.kind with
  | .object | .interface | .inputObject =>
    t.fields.map fun f => ⟨t.name, f.name, f.base, extractType f.ty⟩
  | .other => []

/-- The arguments pushed for one type, async_graphql.rs:57-67: only those of object types. -/
def typeArgs (t : TypeDef) : List Arg :=
  match t.kind with
  | .object => t.fields.flatMap fun f => f.args.map fun a =>
      ⟨t.name, f.name, a.name, a.base, extractType a.ty, a.hasDefault⟩
  | _ => []

/-- async_graphql.rs:41-44, 74-77. -/
def typeImpls (t : TypeDef) : List (Name × Name) :=
  match t.kind with
  | .object | .interface => t.implements.map fun i => (t.name, i)
  | _ => []

/-- async_graphql.rs:91. -/
def typeInput (t : TypeDef) : List Name :=
  match t.kind with
  | .inputObject => [t.name]
  | _ => []

/-- Insert before the first element that is not smaller. -/
def insertBy {α : Type} (le : α → α → Bool) (x : α) : List α → List α
  | [] => [x]
  | y :: t => if le x y then x :: y :: t else y :: insertBy le x t

/-- `slice::sort` and `slice::sort_by_key`: a stable sort (any stable sort gives the same list). -/
def sortBy {α : Type} (le : α → α → Bool) (l : List α) : List α := l.foldr (insertBy le) []

/-- `From<ServiceDocument> for Schema`, async_graphql.rs:6-117. -/
def Schema.ofDoc (d : SDoc) : Schema :=
  { fields := sortBy (fun a b => (cmp2 a.key b.key).isLE) (d.types.flatMap typeFields)
    args := sortBy (fun a b => (cmp3 a.key b.key).isLE) (d.types.flatMap typeArgs)
    impls := sortBy (fun a b => (cmp2 a b).isLE) (d.types.flatMap typeImpls)
    inputObjects := d.types.flatMap typeInput
    query := d.query
    mutation := d.mutation
    subscription := d.subscription }

/-- `Schema::find_field`, schema.rs:35-45. -/
def Schema.findField (s : Schema) (ty name : Name) : Option Nat :=
  let r := binarySearchBy (fun f : Field => cmp2 f.key (ty, name)) s.fields
  if r.1 then some r.2 else none

/-- `Schema::find_argument`, schema.rs:48-56. -/
def Schema.findArgument (s : Schema) (path : Name × Name × Name) : Option Nat :=
  let r := binarySearchBy (fun a : Arg => cmp3 a.key path) s.args
  if r.1 then some r.2 else none

/-- `Schema::iter_fields`, schema.rs:58-69. -/
def Schema.iterFields (s : Schema) (ty : Name) : List Field :=
  let start := partitionPoint (fun f : Field => decide (f.ty < ty)) s.fields
  (s.fields.drop start).takeWhile fun f => decide (ty = f.ty)

/-- `Schema::iter_field_arguments`, schema.rs:71-88; `field` is `self[field_id]`. -/
def Schema.iterFieldArguments (s : Schema) (field : Field) : List (Nat × Arg) :=
  let start := partitionPoint (fun a : Arg => decide (a.ty < field.ty) && decide (a.field < field.name)) s.args
  ((s.args.drop start).takeWhile fun a => decide (a.ty = field.ty) && decide (a.field = field.name)).mapIdx
    fun idx a => (idx + start, a)

/-- `Schema::iter_interface_implementations`, schema.rs:90-103. -/
def Schema.iterInterfaceImplementations (s : Schema) (ty : Name) : List Name :=
  let start := partitionPoint (fun p : Name × Name => decide (p.1 < ty)) s.impls
  ((s.impls.drop start).takeWhile fun p => decide (p.1 = ty)).map (·.2)

/-! ## The operation document (`ExecutableDocument` of the parser) -/

/-- A literal: an enum value, a list of enum values, or anything else. -/
inductive Literal where
  | enum (v : Name)
  | enumList (vs : List Name)
  | other
  deriving DecidableEq, Repr

structure ArgLit where
  name : Name
  value : Literal
  deriving DecidableEq, Repr

/-- The items of a selection set. -/
inductive Items where
  | nil
  | field (name : Name) (args : List ArgLit) (sub rest : Items)
  | spread (fragment : Name) (rest : Items)
  | inline (on : Option Name) (sub rest : Items)
  deriving DecidableEq, Repr

inductive OpType where
  | query
  | mutation
  | subscription
  deriving DecidableEq, Repr

/-- The fragments in the iteration order of the parser's hash map, and the first operation
(async_graphql.rs:33).  A variable is the base of its type and its default value. -/
structure Doc where
  fragments : List (Name × Name × Items)
  opType : OpType
  variables : List (Name × Option Literal)
  items : Items
  deriving DecidableEq, Repr

/-! ## The operation tables, operation.rs -/

/-- `Argument`, operation.rs:38-42. -/
structure OArg where
  name : Name
  enumValue : Option Name
  deriving DecidableEq, Repr

/-- `Selection`, operation.rs:45-58. -/
inductive Selection where
  | field (name : Name) (args : List OArg) (sub : Option Nat)
  | spread (fragment : Name)
  | inline (on : Option Name) (selection : Nat)
  deriving DecidableEq, Repr

/-- `Operation`, operation.rs:10-22; a fragment is its type condition and its selection. -/
structure Operation where
  fragments : List (Name × Name × Nat)
  opType : OpType
  root : Nat
  selections : List (Nat × Selection)
  enumDefaults : List (Name × Name)
  deriving DecidableEq, Repr

/-- `selection_id_counter` and `selections`. -/
structure Ingest where
  counter : Nat
  out : List (Nat × Selection)
  deriving DecidableEq, Repr

/-- async_graphql.rs:100-110. -/
def ingestArg (a : ArgLit) : OArg :=
  ⟨a.name, match a.value with | .enum v => some v | _ => none⟩

/-- A loop `for item in items { selections.push((id, ingest_selection(item))) }` together with
`ingest_selection`, operation/async_graphql.rs:19-22, 54-57 and 69-133. -/
def ingestItems (id : Nat) : Items → Ingest → Ingest
  | .nil, st => st
  | .field name args .nil rest, st =>
    ingestItems id rest { st with out := st.out ++ [(id, .field name (args.map ingestArg) none)] }
  | .field name args sub rest, st =>
    let sid := st.counter
    let st := ingestItems sid sub { st with counter := st.counter + 1 }
    ingestItems id rest { st with out := st.out ++ [(id, .field name (args.map ingestArg) (some sid))] }
  | .spread fragment rest, st =>
    ingestItems id rest { st with out := st.out ++ [(id, .spread fragment)] }
  | .inline on sub rest, st =>
    let sid := st.counter
    let st := ingestItems sid sub { st with counter := st.counter + 1 }
    ingestItems id rest { st with out := st.out ++ [(id, .inline on sid)] }

/-- The loop over the fragments, operation/async_graphql.rs:15-31. -/
def ingestFragments : List (Name × Name × Items) → Ingest → Ingest × List (Name × Name × Nat)
  | [], st => (st, [])
  | (name, cond, items) :: rest, st =>
    let sid := st.counter
    let st := ingestItems sid items { st with counter := st.counter + 1 }
    let (st, frags) := ingestFragments rest st
    (st, (name, cond, sid) :: frags)

/-- operation/async_graphql.rs:44-52. -/
def enumDefault : Name × Option Literal → Option (Name × Name)
  | (base, some (.enum v)) => some (base, v)
  | _ => none

/-- `From<ExecutableDocument> for Operation`, operation/async_graphql.rs:5-68. -/
def Operation.ofDoc (d : Doc) : Operation :=
  let (st, fragments) := ingestFragments d.fragments ⟨0, []⟩
  let root := st.counter
  let st := ingestItems root d.items { st with counter := st.counter + 1 }
  { fragments
    opType := d.opType
    root
    selections := sortBy (fun a b => decide (a.1 ≤ b.1)) st.out
    enumDefaults := d.variables.filterMap enumDefault }

/-! ## The usage counts -/

/-- A `HashMap<K, u64>`. -/
abbrev Counts (K : Type) := List (K × Nat)

/-- `HashMap::get`. -/
def Counts.get {K : Type} [DecidableEq K] (m : Counts K) (k : K) : Option Nat :=
  (m.find? fun e => decide (e.1 = k)).map (·.2)

/-- Two's complement addition of `u64`. -/
def addWrap (a b : Nat) : Nat := (a + b) % 2 ^ 64

/-- The registrations, aggregate_field_usage.rs:142-167: add to the entry, or insert one. -/
def Counts.bump {K : Type} [DecidableEq K] (m : Counts K) (k : K) (inc : Nat) : Counts K :=
  match m with
  | [] => [(k, inc)]
  | e :: rest => if e.1 = k then (k, addWrap e.2 inc) :: rest else e :: Counts.bump rest k inc

/-- `HashMap::retain` of apply_request_count_threshold, aggregate_field_usage.rs:132-139. -/
def Counts.retain {K : Type} (m : Counts K) (threshold : Nat) : Counts K :=
  m.filter fun e => decide (threshold ≤ e.2)

/-- `FieldUsage`, aggregate_field_usage.rs:31-46. -/
structure Usage where
  increment : Nat
  fields : Counts Nat
  args : Counts Nat
  enums : Counts (Name × Name)
  leftOut : Counts Nat
  conds : Counts (Name × Name)
  deriving DecidableEq, Repr

/-- `Default`, aggregate_field_usage.rs:110-121. -/
def Usage.init : Usage := ⟨1, [], [], [], [], []⟩

def Usage.setIncrement (u : Usage) (inc : Nat) : Usage := { u with increment := inc }

/-- `apply_request_count_threshold`, aggregate_field_usage.rs:132-139. -/
def Usage.threshold (u : Usage) (t : Nat) : Usage :=
  { u with fields := u.fields.retain t, args := u.args.retain t, conds := u.conds.retain t,
           enums := u.enums.retain t, leftOut := u.leftOut.retain t }

/-- `register_field_usage` (142-148). -/
def Usage.regField (u : Usage) (id : Nat) : Usage := { u with fields := u.fields.bump id u.increment }
/-- `register_argument_usage` (150-156). -/
def Usage.regArg (u : Usage) (id : Nat) : Usage := { u with args := u.args.bump id u.increment }
/-- `register_enum_value_usage` (158-160). -/
def Usage.regEnum (u : Usage) (k : Name × Name) : Usage := { u with enums := u.enums.bump k u.increment }
/-- `register_argument_with_default_left_out` (162-167). -/
def Usage.regLeftOut (u : Usage) (id : Nat) : Usage := { u with leftOut := u.leftOut.bump id u.increment }
/-- aggregate_field_usage.rs:254-257. -/
def Usage.regCond (u : Usage) (k : Name × Name) : Usage := { u with conds := u.conds.bump k 1 }

/-- The loop over the arguments of a selected field, aggregate_field_usage.rs:210-225. -/
def aggArgs (s : Schema) (parent field : Name) : List OArg → Usage → Usage
  | [], u => u
  | a :: rest, u =>
    match s.findArgument (parent, field, a.name) with
    | none => aggArgs s parent field rest u
    | some id =>
      let u := u.regArg id
      let u := match a.enumValue, s.args[id]? with
        | some v, some arg => u.regEnum (arg.base, v)
        | _, _ => u
      aggArgs s parent field rest u

/-- The loop over the schema arguments, aggregate_field_usage.rs:232-239. -/
def aggLeftOut (s : Schema) (field : Field) (args : List OArg) (u : Usage) : Usage :=
  (((s.iterFieldArguments field).filter fun p => args.all fun a => decide (a.name ≠ p.2.name)).filter
    fun p => p.2.isRequired && p.2.hasDefault).foldl (fun u p => u.regLeftOut p.1) u

/-- `selection_set`, aggregate_field_usage.rs:192-195. -/
def Operation.selectionSet (op : Operation) (id : Nat) : List Selection :=
  let start := partitionPoint (fun e : Nat × Selection => decide (e.1 < id)) op.selections
  ((op.selections.drop start).takeWhile fun e => decide (e.1 = id)).map (·.2)

/-- The sub-selection of a field, aggregate_field_usage.rs:227-230. -/
def aggSub (inner : Nat → Name → Usage → Option Usage) (base : Name) (sub : Option Nat) (u : Usage) : Option Usage :=
  match sub with
  | none => some u
  | some sid => inner sid base u

/-- The loop over a selection set, aggregate_field_usage.rs:197-267; `inner` is the recursive call. -/
def aggItems (inner : Nat → Name → Usage → Option Usage) (op : Operation) (s : Schema) (parent : Name) :
    List Selection → Usage → Option Usage
  | [], u => some u
  | .field name args sub :: rest, u =>
    match s.findField parent name with
    | none => aggItems inner op s parent rest u
    | some fieldId =>
      match s.fields[fieldId]? with
      | none => none
      | some field =>
        let u := aggArgs s parent name args (u.regField fieldId)
        match aggSub inner field.base sub u with
        | none => none
        | some u => aggItems inner op s parent rest (aggLeftOut s field args u)
  | .spread fragment :: rest, u =>
    match op.fragments.find? fun f => decide (f.1 = fragment) with
    | none => aggItems inner op s parent rest u
    | some (_, cond, sid) =>
      match inner sid cond u with
      | none => none
      | some u => aggItems inner op s parent rest u
  | .inline on sid :: rest, u =>
    let (u, ty) := match on with
      | some on => (u.regCond (parent, on), on)
      | none => (u, parent)
    match inner sid ty u with
    | none => none
    | some u => aggItems inner op s parent rest u

/-- `aggregate_field_usage_inner`, aggregate_field_usage.rs:185-268.  `none` means that the recursion is
deeper than the fuel (or, for an id from `find_field` that is out of range, a panic; `findField_range`
shows that there is none). -/
def aggInner (op : Operation) (s : Schema) : Nat → Nat → Name → Usage → Option Usage
  | 0, _, _, _ => none
  | fuel + 1, sid, parent, u => aggItems (aggInner op s fuel) op s parent (op.selectionSet sid) u

def Schema.rootType (s : Schema) : OpType → Name
  | .query => s.query
  | .mutation => s.mutation
  | .subscription => s.subscription

/-- `aggregate_field_usage`, aggregate_field_usage.rs:171-183. -/
def aggregate (fuel : Nat) (op : Operation) (s : Schema) (u : Usage) : Option Usage :=
  aggInner op s fuel op.root (s.rootType op.opType) (op.enumDefaults.foldl Usage.regEnum u)

/-- The caller: each recorded operation is aggregated with its number of executions. -/
def aggregateAll (fuel : Nat) (s : Schema) : List (Nat × Doc) → Usage → Option Usage
  | [], u => some u
  | (inc, d) :: rest, u =>
    match aggregate fuel (Operation.ofDoc d) s (u.setIncrement inc) with
    | none => none
    | some u => aggregateAll fuel s rest u

end Verif.OpChecks
