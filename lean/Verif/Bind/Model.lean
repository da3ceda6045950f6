import Verif.Literals.Model
import Verif.Common.GType

/-!
# How an operation is bound to the schema (C75)

Model of `bind/operation.rs`, `bind/mod.rs` 22-116, `model/selection_set.rs` and `validation/after_binding.rs` in
`crates/engine/operation/src`. The document is the tree that cynic_parser returns; the bound operation is a number
of vectors whose elements refer to each other, as in the code.

Simplifications: values are trees, as for C56, whose functions are used for arguments, conditions and defaults; the
pool of buffers is left out (a buffer is empty when it is taken); errors are kinds; the first wrong argument of a field
is the error of all of them (any error rejects the operation); spans and locations are left out. The recursion through
fragments is by fuel: without it, `overflow` (the stack; `validation/after_parsing.rs` refuses cycles before, C05).
-/

namespace Verif.Bind

open Verif.Common
open Verif.Coercion (Str InputField Ty VarDef variableType)
open Verif.Literals (Lit Q bindArguments coerceQueryValue)
open Verif.Wrapping (Wrapping)

/-! ## The document -/

/-- A directive as written. -/
structure Dir where
  name : Str
  args : List (Str × Lit)

/-- A selection set as written: the list and its items in one type. -/
inductive Sels where
  | nil
  | field (name : Str) (alias : Option Str) (args : List (Str × Lit)) (dirs : List Dir) (sub rest : Sels)
  | spread (name : Str) (dirs : List Dir) (rest : Sels)
  | inline (cond : Option Str) (dirs : List Dir) (sub rest : Sels)

namespace Sels

/-- `selection_set().len() == 0`. -/
def isNil : Sels → Bool
  | nil => true
  | _ => false

end Sels

/-- A fragment definition. -/
structure Frag where
  cond : Str
  sels : Sels

abbrev Frags := List (Str × Frag)

/-- A variable definition: its type has a name and wrappers. -/
structure Decl where
  name : Str
  tyName : Str
  ty : GType
  default : Option Lit

inductive OpType where
  | query | mutation | subscription
  deriving DecidableEq

/-- The operation that is executed, and the fragments of its document. -/
structure Doc where
  ty : OpType
  decls : List Decl
  sels : Sels
  frags : Frags

/-! ## The schema -/

/-- `CompositeType`. -/
inductive Comp where
  | object (id : Nat)
  | interface (id : Nat)
  | union (id : Nat)
  deriving DecidableEq

/-- `TypeDefinition`: objects, interfaces and unions, or enums, scalars and input objects. -/
inductive Kind where
  | composite (c : Comp)
  | input (id : Nat)

structure TypeDef where
  kind : Kind
  inaccessible : Bool

/-- What is used of a `FieldDefinition`. -/
structure FieldDef where
  id : Nat
  inaccessible : Bool
  output : Option Comp
  args : List InputField

/-- What is used of the schema. -/
structure Schema where
  /-- `type_definition_by_name` -/
  types : Str → Option TypeDef
  /-- `find_field_by_name` -/
  fields : Comp → Str → Option FieldDef
  /-- `has_non_empty_intersection_with` -/
  intersects : Comp → Comp → Bool
  query : Nat
  mutation : Option Nat
  subscription : Option Nat
  input : Verif.Coercion.Schema
  /-- `Boolean` -/
  boolean : Nat
  /-- `subgraphs.introspection.meta_fields` -/
  introspection : List Nat
  disableIntrospection : Bool
  /-- `operation_limits.height` -/
  maxHeight : Option Nat

/-! ## The bound operation -/

/-- `BindError`. -/
inductive BindErr where
  | unionFields | unknownField | leaf | selection | argument | unknownFragment | unknownType | conditionType | disjoint
  | directiveArgument | value | duplicateVariable | variableType | unusedVariable | noMutation | noSubscription
  deriving DecidableEq

/-- `SelectionId`. -/
inductive SelId where
  | data (i : Nat)
  | typename (i : Nat)
  | spread (i : Nat)
  | inline (i : Nat)
  deriving DecidableEq

/-- `ExecutableDirectiveId`: whether it is `@skip`, and the condition. -/
abbrev Cond := Bool × Q

structure DataField where
  definition : Nat
  dirs : List Cond
  key : Nat
  args : Nat × Nat
  sels : Nat × Nat

structure TypenameField where
  key : Nat
  dirs : List Cond

structure Spread where
  fragment : Nat
  dirs : List Cond

structure Inline where
  cond : Option Comp
  dirs : List Cond
  sels : Nat × Nat

structure Fragment where
  cond : Comp
  sels : Nat × Nat

/-- `OperationBinder` (`bind/mod.rs` 22-44). `used` are the variables in use. -/
structure St where
  used : List Nat
  names : List (Str × Nat)
  keys : List Str
  data : List DataField
  typenames : List TypenameField
  arguments : List (Nat × Q)
  inlines : List Inline
  spreads : List Spread
  fragments : List Fragment
  shared : List SelId
  errors : List BindErr

/-- `bind/mod.rs` 50-69. -/
def St.init : St := ⟨[], [], [], [], [], [], [], [], [], [], []⟩

/-- A result, a panic, or a recursion without end. -/
inductive Res (α : Type) where
  | ok (a : α)
  | panic
  | overflow

namespace Res

def bind {α β : Type} (r : Res α) (f : α → Res β) : Res β :=
  match r with
  | ok a => f a
  | panic => panic
  | overflow => overflow

def map {α β : Type} (f : α → β) (r : Res α) : Res β := r.bind fun a => ok (f a)

end Res

namespace St

/-- `self.errors.push(..)`. -/
def error (st : St) (e : BindErr) : St := { st with errors := st.errors ++ [e] }

/-- The ids of the records are `NonZero<u16>`: the last is 65534. -/
def idLimit : Nat := 65535

/-- `get_or_intern` (`model/response_key.rs` 117-119): a key is a `NonZero<u16>`. -/
def intern (st : St) (s : Str) : Res (Nat × St) :=
  match st.keys.findIdx? (fun k => decide (k = s)) with
  | some i => .ok (i, st)
  | none => if st.keys.length < idLimit then .ok (st.keys.length, { st with keys := st.keys ++ [s] }) else .panic

/-- The end of `bind_selection_set` (`operation.rs` 86-89): the ids are `u16`. -/
def pushSels (st : St) (ids : List SelId) : Res ((Nat × Nat) × St) :=
  if st.shared.length + ids.length ≤ 65535 then
    .ok ((st.shared.length, st.shared.length + ids.length), { st with shared := st.shared ++ ids })
  else .panic

/-- The range of `bind_field_arguments_sorted` (`operation.rs` 225-229): the ids are `NonZero<u16>`. -/
def pushArgs (st : St) (args : List (Nat × Q)) : Res ((Nat × Nat) × St) :=
  if st.arguments.length + args.length < idLimit then
    .ok ((st.arguments.length, st.arguments.length + args.length), { st with arguments := st.arguments ++ args })
  else .panic

def pushData (st : St) (d : DataField) : Res (Nat × St) :=
  if st.data.length < idLimit then .ok (st.data.length, { st with data := st.data ++ [d] }) else .panic

def pushTypename (st : St) (d : TypenameField) : Res (Nat × St) :=
  if st.typenames.length < idLimit then .ok (st.typenames.length, { st with typenames := st.typenames ++ [d] }) else .panic

def pushSpread (st : St) (d : Spread) : Res (Nat × St) :=
  if st.spreads.length < idLimit then .ok (st.spreads.length, { st with spreads := st.spreads ++ [d] }) else .panic

def pushInline (st : St) (d : Inline) : Res (Nat × St) :=
  if st.inlines.length < idLimit then .ok (st.inlines.length, { st with inlines := st.inlines ++ [d] }) else .panic

/-- `self.fragments.push(..)` and `fragment_name_to_id.insert(..)` (`operation.rs` 276-280, 303-309). -/
def pushFragment (st : St) (name : Str) (d : Fragment) : Res (Nat × St) :=
  if st.fragments.length < idLimit then
    .ok (st.fragments.length,
      { st with fragments := st.fragments ++ [d], names := (name, st.fragments.length) :: st.names })
  else .panic

end St

/-! ## Directives and arguments -/

mutual
/-- The variables that `variable_ref` marks (`coercion/query.rs` 120) for a value. -/
def varsIn : Q → List Nat
  | .variable i => [i]
  | .object _ fields => varsInFields fields
  | .list items => varsInItems items
  | _ => []
def varsInItems : List Q → List Nat
  | [] => []
  | x :: xs => varsIn x ++ varsInItems xs
def varsInFields : List (Nat × Q) → List Nat
  | [] => []
  | (_, x) :: xs => varsIn x ++ varsInFields xs
end

def skipName : Str := ['s', 'k', 'i', 'p']
def includeName : Str := ['i', 'n', 'c', 'l', 'u', 'd', 'e']
def typenameName : Str := ['_', '_', 't', 'y', 'p', 'e', 'n', 'a', 'm', 'e']

/-- The type `Boolean!` (`operation.rs` 376-380). -/
def booleanTy (S : Schema) : Ty := ⟨S.boolean, Wrapping.new.nonNull⟩

/-- The loop of `bind_executable_directive` (`operation.rs` 346-389). -/
def bindConds (S : Schema) (vars : List VarDef) : List Dir → St → St × List Cond
  | [], st => (st, [])
  | d :: ds, st =>
    if d.name = skipName ∨ d.name = includeName then
      match d.args with
      | [] => bindConds S vars ds (st.error .directiveArgument)
      | (_, v) :: _ =>
        match coerceQueryValue S.input (some vars) (booleanTy S) v with
        | .ok q =>
          let r := bindConds S vars ds { st with used := st.used ++ varsIn q }
          (r.1, (decide (d.name = skipName), q) :: r.2)
        | .error _ =>
          let r := bindConds S vars ds (st.error .value)
          (r.1, (decide (d.name = skipName), .null) :: r.2)
    else bindConds S vars ds st

/-- `sort_unstable`: `Include` is before `Skip`, then by id, and those are in order. -/
def sortConds (l : List Cond) : List Cond := l.filter (fun c => !c.1) ++ l.filter (fun c => c.1)

/-- `bind_executable_directive` (`operation.rs` 346-362). -/
def bindDirectives (S : Schema) (vars : List VarDef) (dirs : List Dir) (st : St) : St × List Cond :=
  let r := bindConds S vars dirs st
  (r.1, sortConds r.2)

/-- `bind_field_arguments_sorted` (`operation.rs` 175-230). -/
def bindArgs (S : Schema) (vars : List VarDef) (d : FieldDef) (args : List (Str × Lit)) (st : St) : Res ((Nat × Nat) × St) :=
  match bindArguments S.input vars d.args args with
  | .ok bound => ({ st with used := st.used ++ varsInFields bound } : St).pushArgs bound
  | .error _ => (st.error .argument).pushArgs []

/-! ## Selections -/

/-- `bind_type_condition` (`operation.rs` 312-344). -/
def typeCondition (S : Schema) (parent : Comp) (name : Str) : Except BindErr Comp :=
  match (S.types name).filter (fun d => !d.inaccessible) with
  | none => .error .unknownType
  | some d =>
    match d.kind with
    | .input _ => .error .conditionType
    | .composite c => if S.intersects parent c then .ok c else .error .disjoint

/-- The definition of a field (`operation.rs` 109-128). -/
def fieldDef (S : Schema) (parent : Comp) (name : Str) : Except BindErr FieldDef :=
  match parent with
  | .union _ => .error .unionFields
  | parent =>
    match (S.fields parent name).filter (fun d => !d.inaccessible) with
    | some d => .ok d
    | none => .error .unknownField

/-- `bind_typename_field` (`operation.rs` 93-102). -/
def bindTypename (S : Schema) (vars : List VarDef) (name : Str) (alias : Option Str) (dirs : List Dir) (st : St) :
    Res (Nat × St) :=
  let r := bindDirectives S vars dirs st
  (r.1.intern (alias.getD name)).bind fun k => k.2.pushTypename ⟨k.1, r.2⟩

/-- The selection set of a field (`operation.rs` 130-157): `none` is an error. `bound` binds what is written. -/
def bindSub (d : FieldDef) (written : Bool) (bound : Comp → St → Res (List SelId × St)) (st : St) :
    Res (Option (Nat × Nat) × St) :=
  match d.output with
  | some c =>
    (bound c st).bind fun r =>
      (r.2.pushSels r.1).map fun p =>
        if p.1.1 = p.1.2 ∧ st.errors.length = p.2.errors.length then (none, p.2.error .leaf) else (some p.1, p.2)
  | none => if written then .ok (none, st.error .selection) else .ok (some (0, 0), st)

/-- The arguments, directives and response key of a field (`operation.rs` 159-172). -/
def finishField (S : Schema) (vars : List VarDef) (d : FieldDef) (name : Str) (alias : Option Str)
    (args : List (Str × Lit)) (dirs : List Dir) (sels : Nat × Nat) (st : St) : Res (Nat × St) :=
  (bindArgs S vars d args st).bind fun a =>
    let r := bindDirectives S vars dirs a.2
    (r.1.intern (alias.getD name)).bind fun k => k.2.pushData ⟨d.id, r.2, k.1, a.1, sels⟩

/-- The fragment of a spread (`operation.rs` 260-283, 292-310): `none` is an error. -/
def bindFragment (S : Schema) (frags : Frags) (enter : Sels → Comp → St → Res (List SelId × St)) (parent : Comp)
    (name : Str) (st : St) : Res (Option Nat × St) :=
  match st.names.lookup name with
  | some id =>
    match st.fragments[id]? with
    | none => .panic
    | some f => if S.intersects parent f.cond then .ok (some id, st) else .ok (none, st.error .disjoint)
  | none =>
    match frags.lookup name with
    | none => .ok (none, st.error .unknownFragment)
    | some f =>
      match typeCondition S parent f.cond with
      | .error e => .ok (none, st.error e)
      | .ok c =>
        (enter f.sels c st).bind fun r =>
          (r.2.pushSels r.1).bind fun p => (p.2.pushFragment name ⟨c, p.1⟩).map fun i => (some i.1, i.2)

/-- The type of an inline fragment (`operation.rs` 237-242). -/
def inlineCondition (S : Schema) (parent : Comp) : Option Str → Except BindErr (Option Comp)
  | none => .ok none
  | some name => (typeCondition S parent name).map some

/-- `bind_selection_set`, `bind_field`, `bind_inline_fragment` and `bind_fragment_spread` (`operation.rs` 44-291) up to
the list of the selections. `enter` binds the selections of a fragment. -/
def bindWith (S : Schema) (vars : List VarDef) (frags : Frags) (enter : Sels → Comp → St → Res (List SelId × St)) :
    Sels → Comp → St → Res (List SelId × St)
  | .nil, _, st => .ok ([], st)
  | .field name alias args dirs sub rest, parent, st =>
    if name = typenameName then
      (bindTypename S vars name alias dirs st).bind fun i =>
        (bindWith S vars frags enter rest parent i.2).map fun r => (.typename i.1 :: r.1, r.2)
    else
      match fieldDef S parent name with
      | .error e => bindWith S vars frags enter rest parent (st.error e)
      | .ok d =>
        (bindSub d (!sub.isNil) (fun c st => bindWith S vars frags enter sub c st) st).bind fun s =>
          match s.1 with
          | none => bindWith S vars frags enter rest parent s.2
          | some sels =>
            (finishField S vars d name alias args dirs sels s.2).bind fun i =>
              (bindWith S vars frags enter rest parent i.2).map fun r => (.data i.1 :: r.1, r.2)
  | .spread name dirs rest, parent, st =>
    (bindFragment S frags enter parent name st).bind fun f =>
      match f.1 with
      | none => bindWith S vars frags enter rest parent f.2
      | some id =>
        let d := bindDirectives S vars dirs f.2
        (d.1.pushSpread ⟨id, d.2⟩).bind fun i =>
          (bindWith S vars frags enter rest parent i.2).map fun r => (.spread i.1 :: r.1, r.2)
  | .inline cond dirs sub rest, parent, st =>
    match inlineCondition S parent cond with
    | .error e => bindWith S vars frags enter rest parent (st.error e)
    | .ok c =>
      (bindWith S vars frags enter sub (c.getD parent) st).bind fun s =>
        (s.2.pushSels s.1).bind fun p =>
          let d := bindDirectives S vars dirs p.2
          (d.1.pushInline ⟨c, d.2, p.1⟩).bind fun i =>
            (bindWith S vars frags enter rest parent i.2).map fun r => (.inline i.1 :: r.1, r.2)

/-- The recursion through fragments. -/
def bindSels (S : Schema) (vars : List VarDef) (frags : Frags) : Nat → Sels → Comp → St → Res (List SelId × St)
  | 0 => bindWith S vars frags fun _ _ _ => .overflow
  | n + 1 => bindWith S vars frags (bindSels S vars frags n)

/-! ## The operation -/

/-- The wrapping of `convert_type` (`operation.rs` 486-497), from the inside: `none` is the assertion of `Wrapping::list`. -/
def convert : GType → Option Wrapping
  | .named => some .new
  | .list t => (convert t).bind Wrapping.list
  | .nonNull t => (convert t).map Wrapping.nonNull

/-- The definition in `convert_type` (`operation.rs` 464-484). -/
def inputType (S : Schema) (name : Str) : Except BindErr Nat :=
  match S.types name with
  | none => .error .unknownType
  | some d =>
    match d.kind with
    | .input id => .ok id
    | .composite _ => .error .variableType

/-- The variables: their definitions, default values and errors. -/
structure Vars where
  defs : List VarDef
  defaults : List Q
  errors : List BindErr

/-- A variable and its default value (`operation.rs` 417-441). -/
def Vars.push (v : Vars) (name : Str) (ty : Ty) (dflt : Option Q) : Vars :=
  { v with
    defs := v.defs ++ [⟨name, ty, dflt.map fun _ => v.defaults.length, false⟩],
    defaults := v.defaults ++ dflt.toList }

def Vars.error (v : Vars) (e : BindErr) : Vars := { v with errors := v.errors ++ [e] }

/-- One variable whose type has been converted (`operation.rs` 417-441). -/
def bindDefault (S : Schema) (d : Decl) (ty : Ty) (v : Vars) : Res Vars :=
  match d.default with
  | none => .ok (v.push d.name ty none)
  | some lit =>
    match variableType ty (!lit.isNull) with
    | none => .panic
    | some ty =>
      match coerceQueryValue S.input none ty lit with
      | .ok q => .ok (v.push d.name ty (some q))
      | .error _ => .ok ((v.error .value).push d.name ty (some .null))

/-- `bind_variable_definitions` (`operation.rs` 391-445). `none` is the error that ends it. -/
def bindDecls (S : Schema) : List Str → List Decl → Vars → Res (Option Vars)
  | _, [], v => .ok (some v)
  | seen, d :: ds, v =>
    if seen.contains d.name then .ok none
    else
      match inputType S d.tyName with
      | .error e => bindDecls S (d.name :: seen) ds (v.error e)
      | .ok id =>
        match convert d.ty with
        | none => .panic
        | some w => (bindDefault S d ⟨id, w⟩ v).bind fun v => bindDecls S (d.name :: seen) ds v

/-- `Operation`: the variables, the vectors and the root. -/
structure Operation where
  ty : OpType
  root : Nat
  vars : Vars
  st : St
  sels : Nat × Nat

/-- The root object (`operation.rs` 23-28). -/
def rootObject (S : Schema) : OpType → Except BindErr Nat
  | .query => .ok S.query
  | .mutation => match S.mutation with
    | some id => .ok id
    | none => .error .noMutation
  | .subscription => match S.subscription with
    | some id => .ok id
    | none => .error .noSubscription

/-- `validate_all_variables_used` (`operation.rs` 447-459). -/
def allUsed (v : Vars) (st : St) : Bool := (List.range v.defs.length).all fun i => st.used.contains i

/-- `bind_operation` and `bind_root` (`bind/mod.rs` 46-116, `operation.rs` 21-42). -/
def bindOperation (S : Schema) (fuel : Nat) (doc : Doc) : Res (Except (List BindErr) Operation) :=
  match rootObject S doc.ty with
  | .error e => .ok (.error [e])
  | .ok root =>
    (bindDecls S [] doc.decls ⟨[], [], []⟩).bind fun
      | none => .ok (.error [.duplicateVariable])
      | some v =>
        (bindSels S v.defs doc.frags fuel doc.sels (.object root) { St.init with errors := v.errors }).bind fun r =>
          (r.2.pushSels r.1).map fun p =>
            if p.2.errors.isEmpty then
              if allUsed v p.2 then .ok ⟨doc.ty, root, v, p.2, p.1⟩ else .error [.unusedVariable]
            else .error p.2.errors

/-! ## After binding -/

/-- The elements of a range. -/
def slice {α : Type} (l : List α) (r : Nat × Nat) : List α := (l.take r.2).drop r.1

/-- `FieldsIterator` (`model/selection_set.rs` 81-112): the data fields. `none` is out of fuel, or an index out of
bounds. -/
def fieldsFrom (st : St) : Nat → List (List SelId) → Option (List DataField)
  | 0, _ => none
  | _ + 1, [] => some []
  | n + 1, [] :: stack => fieldsFrom st n stack
  | n + 1, (.data i :: ids) :: stack => (st.data[i]?).bind fun d => (fieldsFrom st n (ids :: stack)).map (d :: ·)
  | n + 1, (.typename _ :: ids) :: stack => fieldsFrom st n (ids :: stack)
  | n + 1, (.spread i :: ids) :: stack =>
    (st.spreads[i]?).bind fun s => (st.fragments[s.fragment]?).bind fun f =>
      fieldsFrom st n (slice st.shared f.sels :: ids :: stack)
  | n + 1, (.inline i :: ids) :: stack =>
    (st.inlines[i]?).bind fun s => fieldsFrom st n (slice st.shared s.sels :: ids :: stack)

/-- The sum in `height` (`after_binding.rs` 73-81), in `u16`. -/
def heightSum (height : Nat × Nat → List Nat → Option (Nat × List Nat)) : List DataField → List Nat → Option (Nat × List Nat)
  | [], seen => some (0, seen)
  | d :: ds, seen =>
    (height d.sels (if seen.contains d.definition then seen else d.definition :: seen)).bind fun h =>
      (heightSum height ds h.2).map fun r =>
        (((if seen.contains d.definition then 0 else 1) + h.1 + r.1) % 65536, r.2)

/-- `height` (`after_binding.rs` 72-82). -/
def height (st : St) : Nat → Nat × Nat → List Nat → Option (Nat × List Nat)
  | 0, _, _ => none
  | n + 1, sels, seen => (fieldsFrom st n [slice st.shared sels]).bind fun fs => heightSum (height st n) fs seen

/-- `enforce_operation_limits` (`after_binding.rs` 57-70). -/
def withinHeight (S : Schema) (fuel : Nat) (op : Operation) : Res Bool :=
  match S.maxHeight with
  | none => .ok true
  | some max =>
    match height op.st fuel op.sels [] with
    | none => .overflow
    | some h => .ok (decide (h.1 ≤ max))

/-- `ensure_introspection_is_accepted` (`after_binding.rs` 37-55). -/
def introspectionAccepted (S : Schema) (fuel : Nat) (op : Operation) : Res Bool :=
  if op.ty = .query ∧ S.disableIntrospection = true then
    match fieldsFrom op.st fuel [slice op.st.shared op.sels] with
    | none => .overflow
    | some fs => .ok (fs.all fun d => !S.introspection.contains d.definition)
  else .ok true

/-- The end of `Operation::parse` (`lib.rs` 36-62). -/
def parse (S : Schema) (fuel : Nat) (doc : Doc) : Res (Option Operation) :=
  (bindOperation S fuel doc).bind fun
    | .error _ => .ok none
    | .ok op =>
      (withinHeight S fuel op).bind fun a =>
        (introspectionAccepted S fuel op).map fun b => if a && b then some op else none

end Verif.Bind
