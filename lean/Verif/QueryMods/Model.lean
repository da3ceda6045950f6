import Verif.OpChecks.Model
/-!
# Query modifications

Model of `crates/engine/src/prepare/operation_plan/query_modifications.rs` (what is shown, denied and
requested once the directives and the authorization extensions were evaluated), of the assignment of
field shapes to data fields in `crates/engine/src/prepare/cached/builder/shapes/mod.rs:64-112` and of
`handle_shape_errors` in `crates/engine/src/response/write/deserialize/object/fields.rs:436-469`.

Simplifications:
* A bit set is a function to `Bool`; the ids used are in range of the vectors they index.
* The conditions of directives are booleans or boolean variables: their types were checked.
* The decisions of the extensions are a parameter: the calls are in `Verif.ModifierGroups`.
* A loop takes a number of rounds it may run; `none` is "not finished yet" for those loops and a panic
  elsewhere.
* `sort_unstable_by_key` is a stable sort: the order of two errors of one field shape is not specified.
* `partition_point` on a sorted list is `dropWhile`.
-/
namespace Verif.QueryMods

open Verif.OpChecks (sortBy)

/-- `RequredFieldRecord`, `query_plan/required_field_set.rs`: a field and what is required below it. -/
inductive Item where
  | mk (field : Nat) (sub : List Item)
  deriving Repr

def Item.field : Item → Nat
  | .mk f _ => f

def Item.sub : Item → List Item
  | .mk _ s => s

/-- What is used of a `DataFieldRecord`. `derive` is the source of `Derive::From` or the batch field of
`Derive::Root`. -/
structure Field where
  req : List Item
  reqSuper : List Item
  derive : Option Nat
  deriving Repr

def Field.empty : Field := ⟨[], [], none⟩

/-- A condition of `@skip` or `@include`. -/
inductive Cond where
  | lit (b : Bool)
  | var (v : Nat)
  deriving DecidableEq, Repr

/-- `bool::deserialize(directive.condition.walk(..))`, 247-253. -/
def Cond.eval (vars : Nat → Bool) : Cond → Bool
  | .lit b => b
  | .var v => vars v

/-- `ExecutableDirectiveId`. -/
inductive Directive where
  | include (c : Cond)
  | skip (c : Cond)
  deriving DecidableEq, Repr

/-- `PartitionFieldId`. -/
inductive PField where
  | data (id : Nat)
  | typename (id : Nat)
  | lookup (id : Nat)
  deriving DecidableEq, Repr

/-- `QueryModifierRule`; what an extension rule is about does not matter here. -/
inductive Rule where
  | executable (ds : List Directive)
  | extension
  deriving DecidableEq, Repr

/-- `QueryModifierRecord`. -/
structure Modifier where
  rule : Rule
  root : Bool
  impacted : List PField
  deriving DecidableEq, Repr

/-- `AuthorizationDecisions`, `runtime/src/extension/authorization.rs`. -/
inductive Decisions where
  | grantAll
  | denyAll (e : Nat)
  | denySome (elements : List (Nat × Nat)) (errors : List Nat)
  deriving DecidableEq, Repr

/-- The fields of `QueryModifications` and `Builder` filled before `finalize`. -/
structure Builder where
  data : Nat → Bool
  typenames : Nat → Bool
  errors : List Nat
  root : List Nat
  denied : List (Nat × Nat)

/-- `BitSet::set`. -/
def put (s : Nat → Bool) (i : Nat) (b : Bool) : Nat → Bool := fun j => if j = i then b else s j

/-! ## Directives -/

/-- A directive asks to skip, 246-255. -/
def Directive.skips (vars : Nat → Bool) : Directive → Bool
  | .include c => !c.eval vars
  | .skip c => c.eval vars

/-- `skip_field`, 390-407. -/
def skipField (b : Builder) : List PField → Option Builder
  | [] => some b
  | .typename i :: t => skipField { b with typenames := put b.typenames i false } t
  | .data i :: t => skipField { b with data := put b.data i false } t
  | .lookup _ :: _ => none

/-- The body of the loop of `handle_native_modifiers`, 241-261. -/
def native1 (vars : Nat → Bool) (b : Builder) (m : Modifier) : Option Builder :=
  match m.rule with
  | .executable ds => if ds.any (Directive.skips vars) then skipField b m.impacted else some b
  | .extension => none

/-- `handle_native_modifiers`, 240-265. -/
def handleNative (vars : Nat → Bool) (b : Builder) : List Modifier → Option Builder
  | [] => some b
  | m :: t => (native1 vars b m).bind fun b => handleNative vars b t

/-! ## Authorization -/

/-- `QueryErrorId::from(usize)`: a `NonZero<u16>` holding the index plus one. -/
def errId (n : Nat) : Option Nat := if n < 65535 then some n else none

/-- The loop of `deny_field`, 380-385. -/
def denyFields (b : Builder) (e : Nat) : List PField → Option Builder
  | [] => some b
  | .data i :: t => denyFields { b with denied := b.denied ++ [(i, e)] } e t
  | _ :: _ => none

/-- `deny_field`, 376-386. -/
def deny (b : Builder) (m : Modifier) (e : Nat) : Option Builder :=
  denyFields (if m.root then { b with root := b.root ++ [e] } else b) e m.impacted

/-- The loop over the modifiers of `DenyAll`, 221-223. -/
def denyEach (b : Builder) (e : Nat) : List Modifier → Option Builder
  | [] => some b
  | m :: t => (deny b m e).bind fun b => denyEach b e t

/-- The loop of `DenySome`, 231-234: `offset` errors came before. `IdRange::get` is `None` past the
end of the range. -/
def denySome (recs : List Modifier) (start stop offset : Nat) (b : Builder) :
    List (Nat × Nat) → Option Builder
  | [] => some b
  | (el, er) :: t =>
    if start + el < stop then
      (recs[start + el]?).bind fun m =>
        (errId (offset + er)).bind fun e =>
          (deny b m e).bind fun b => denySome recs start stop offset b t
    else none

/-- `handle_extension_decisions`, 212-237. -/
def decide1 (recs : List Modifier) (b : Builder) (start stop : Nat) : Decisions → Option Builder
  | .grantAll => some b
  | .denyAll err =>
    (errId b.errors.length).bind fun e =>
      denyEach { b with errors := b.errors ++ [err] } e ((recs.take stop).drop start)
  | .denySome els errs =>
    denySome recs start stop b.errors.length { b with errors := b.errors ++ errs } els

/-- The loop over the decisions, 200-207. -/
def decideAll (recs : List Modifier) (b : Builder) : List (Nat × Nat × Decisions) → Option Builder
  | [] => some b
  | (start, stop, d) :: t => (decide1 recs b start stop d).bind fun b => decideAll recs b t

/-! ## What is requested from subgraphs, 267-345 -/

/-- What is used of a `CachedOperation`. -/
structure Plan where
  fields : List Field
  partitions : List (List Item)

def Plan.field (p : Plan) (i : Nat) : Field := (p.fields[i]?).getD .empty

/-- `included_subgraph_request_data_fields` and the two stacks; the heads are the tops. -/
structure St where
  bits : Nat → Bool
  reqs : List (List Item)
  der : List Nat

/-- `if !record.is_empty() { requires_stack.push(..) }`. -/
def pushReq (r : List Item) (s : List (List Item)) : List (List Item) :=
  if r.isEmpty then s else r :: s

def pushDer (d : Option Nat) (s : List Nat) : List Nat :=
  match d with
  | some i => i :: s
  | none => s

/-- The loop over `included_response_data_fields.ones()`, 292-307. -/
def initField (p : Plan) (resp : Nat → Bool) (s : St) (i : Nat) : St :=
  if resp i then
    let f := p.field i
    { s with reqs := pushReq f.reqSuper (pushReq f.req s.reqs), der := pushDer f.derive s.der }
  else s

/-- Clearing the denied fields, 275-282. -/
def clearDenied (bits : Nat → Bool) : List (Nat × Nat) → Nat → Bool
  | [] => bits
  | (i, _) :: t => clearDenied (put bits i false) t

/-- Up to the closure loop, 273-312. -/
def initial (p : Plan) (resp : Nat → Bool) (denied : List (Nat × Nat)) : St :=
  let s : St := ⟨clearDenied resp denied, [], []⟩
  let s := (List.range p.fields.length).foldl (initField p resp) s
  p.partitions.foldl (fun s r => { s with reqs := r :: s.reqs }) s

/-- The loop over `derive_stack.drain(..)`, 315-325. -/
def drain (p : Plan) (resp : Nat → Bool) (bits : Nat → Bool) (reqs : List (List Item)) : List Nat → St
  | [] => ⟨bits, reqs, []⟩
  | i :: t =>
    if bits i then drain p resp bits reqs t
    else drain p resp (put bits i true) (if resp i then reqs else pushReq (p.field i).req reqs) t

/-- The body of the loop over the items of a required field set, 327-342. -/
def visit (p : Plan) (s : St) (it : Item) : St :=
  let f := p.field it.field
  { bits := put s.bits it.field true
    reqs := pushReq f.req (it.sub :: s.reqs)
    der := pushDer f.derive s.der }

/-- `while let Some(required_fields) = requires_stack.pop()`, 326-343. -/
def popLoop (p : Plan) (fuel : Nat) (s : St) : Option St :=
  match s.reqs, fuel with
  | [], _ => some s
  | _ :: _, 0 => none
  | r :: t, fuel + 1 => popLoop p fuel (r.foldl (visit p) { s with reqs := t })

/-- The closure loop, 314-344. -/
def closure (p : Plan) (resp : Nat → Bool) (fuel : Nat) (s : St) : Option (Nat → Bool) :=
  if s.reqs.isEmpty && s.der.isEmpty then some s.bits
  else match fuel with
    | 0 => none
    | fuel + 1 =>
      (popLoop p fuel (drain p resp s.bits s.reqs s.der.reverse)).bind (closure p resp fuel)

/-- The data fields requested from subgraphs. -/
def requested (p : Plan) (resp : Nat → Bool) (denied : List (Nat × Nat)) (fuel : Nat) :
    Option (Nat → Bool) :=
  closure p resp fuel (initial p resp denied)

/-! ## Field shapes, `shapes/mod.rs` -/

/-- A field shape with the data fields it stands for (none for a lookup field): the shape keeps the
first, 349-389 and 424-455. -/
structure FShape where
  group : List Nat
  deriving DecidableEq, Repr

/-- `field_shape.id`. -/
def FShape.id (s : FShape) : Option Nat := s.group.head?

/-- The shapes in the order they are pushed: the field shapes of a shape are appended just before the
shape itself, and those it contains come before (`create_concrete_shape` 393-437, `create_derived_entity`
560-620).  `concrete` is false for a derived entity. -/
structure Block where
  concrete : Bool
  shapes : List FShape
  deriving DecidableEq, Repr

/-- `shapes.fields`. -/
def allShapes (bs : List Block) : List FShape := bs.flatMap (·.shapes)

/-- `data_fields_shape_count`: every field of every group, 359 and 368. -/
def shapeCount (bs : List Block) (f : Nat) : Nat := ((allShapes bs).flatMap (·.group)).count f

/-- `shapes.concrete`: the ranges `field_shape_ids`; `n` field shapes came before. -/
def ranges (n : Nat) : List Block → List (Nat × Nat)
  | [] => []
  | b :: t =>
    if b.concrete then (n, n + b.shapes.length) :: ranges (n + b.shapes.length) t
    else ranges (n + b.shapes.length) t

/-- The starts of the ranges of references, 86-96: `k` fields, `len` references before. -/
def refStarts (count : Nat → Nat) (len f : Nat) : Nat → List (Nat × Nat)
  | 0 => []
  | k + 1 => (len, len) :: refStarts count (len + count f) (f + 1) k

/-- The ranges of references of each field and the references, 97-109. -/
structure Refs where
  ranges : List (Nat × Nat)
  refs : List Nat
  deriving DecidableEq, Repr

/-- The body of the loop 98-106. -/
def fillOne (r : Refs) (i : Nat) (s : FShape) : Option Refs :=
  match s.id with
  | none => some r
  | some f =>
    (r.ranges[f]?).bind fun (start, pos) =>
      if pos < r.refs.length then
        some ⟨r.ranges.set f (start, pos + 1), r.refs.set pos i⟩
      else none

/-- The loop 98-106. -/
def fill (r : Refs) (i : Nat) : List FShape → Option Refs
  | [] => some r
  | s :: t => (fillOne r i s).bind fun r => fill r (i + 1) t

/-- Lines 86-110 for `n` data fields. -/
def buildRefs (n : Nat) (bs : List Block) : Option Refs :=
  let count := shapeCount bs
  fill ⟨refStarts count 0 0 n, List.replicate ((List.range n).map count).sum 0⟩ 0 (allShapes bs)

/-- `DataField::shape_ids`: the slice of references of the field. -/
def Refs.shapeIds (r : Refs) (f : Nat) : List Nat :=
  match r.ranges[f]? with
  | some (a, b) => (r.refs.take b).drop a
  | none => []

/-! ## Errors of field shapes, 275-284 and 347-371 -/

/-- `field_shape_id_to_error_ids`, 275-283. -/
def shapeErrors (r : Refs) (denied : List (Nat × Nat)) : List (Nat × Nat) :=
  sortBy (fun a b => decide (a.1 ≤ b.1)) (denied.flatMap fun (f, e) => (r.shapeIds f).map (·, e))

/-- `IdToMany::find_all`, `id-newtypes/src/many.rs:44-73`. -/
def findAll (l : List (Nat × Nat)) (id : Nat) : List Nat :=
  ((l.dropWhile fun p => decide (p.1 < id)).takeWhile fun p => decide (p.1 = id)).map (·.2)

/-- `Itertools::dedup`: consecutive equal elements become one. -/
def dedup : List Nat → List Nat
  | [] => []
  | [a] => [a]
  | a :: b :: t => if a = b then dedup (b :: t) else a :: dedup (b :: t)

/-- `IdToMany::ids`, many.rs:36-41. -/
def errorShapes (l : List (Nat × Nat)) : List Nat := dedup (l.map (·.1))

/-- The inner loop, 352-367, for the ids `i .. stop`: is there an error and what is left of the ids
with errors (`none`: the outer loop is left). -/
def scan (i stop cur : Nat) (rest : List Nat) : Bool × Option (Nat × List Nat) :=
  if i < stop then
    if i < cur then scan (i + 1) stop cur rest
    else if i = cur then (true, some (cur, rest))
    else
      match rest with
      | [] => (false, none)
      | n :: t => scan i stop n t
  else (false, some (cur, rest))
termination_by (stop - i) + rest.length

/-- The outer loop, 349-369: the bit of each concrete shape. -/
def markLoop (cur : Nat) (rest : List Nat) : List (Nat × Nat) → List Bool
  | [] => []
  | (a, b) :: t =>
    if cur < b then
      match scan a b cur rest with
      | (found, none) => found :: t.map fun _ => false
      | (found, some (cur, rest)) => found :: markLoop cur rest t
    else false :: markLoop cur rest t

/-- `concrete_shape_has_error`, 347-371. -/
def hasError (ids : List Nat) (rs : List (Nat × Nat)) : List Bool :=
  match ids with
  | [] => rs.map fun _ => false
  | cur :: rest => markLoop cur rest rs

/-! ## Errors in an object, `fields.rs:436-469` -/

/-- A value of the response: inaccessible values are kept for other plans but not shown. -/
inductive Val where
  | null
  | data (n : Nat)
  | inaccessible (n : Nat)
  deriving DecidableEq, Repr

/-- `push_inaccessible_value`; a null hides a null. -/
def Val.hide : Val → Val
  | .null => .null
  | .data n => .inaccessible n
  | .inaccessible n => .inaccessible n

/-- `response_fields`: keys with their positions are numbers. -/
abbrev Obj := List (Nat × Val)

/-- Lines 455-466: hide the first value with the key, or add a null. -/
def hideKey (k : Nat) : Obj → Obj
  | [] => [(k, .null)]
  | (k', v) :: t => if k' = k then (k', v.hide) :: t else (k', v) :: hideKey k t

/-- What is used of a field shape of the object: its id, key and whether it is required. -/
structure OShape where
  id : Nat
  key : Nat
  nonNull : Bool
  deriving DecidableEq, Repr

/-- The object, the keys at which errors were pushed with the error and whether a null was propagated. -/
structure ObjSt where
  fields : Obj
  errors : List (Nat × Nat)
  propagated : Bool
  deriving DecidableEq, Repr

/-- The body of the loop, 441-467. -/
def shapeError1 (errs : List (Nat × Nat)) (s : ObjSt) (f : OShape) : ObjSt :=
  let es := findAll errs f.id
  if es.isEmpty then s
  else
    { fields := hideKey f.key s.fields
      errors := s.errors ++ es.map (f.key, ·)
      propagated := s.propagated || f.nonNull }

/-- `handle_shape_errors`, 436-469. -/
def handleShapeErrors (has : Bool) (errs : List (Nat × Nat)) (shapes : List OShape) (fields : Obj) : ObjSt :=
  if has then shapes.foldl (shapeError1 errs) ⟨fields, [], false⟩ else ⟨fields, [], false⟩

end Verif.QueryMods
