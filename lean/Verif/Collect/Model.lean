/-!
# Collecting the fields of an operation

Model of `crates/engine/query-solver/src/solution_space/builder/operation_fields.rs` (which query
fields exist, which position they get), of the grouping by response key in
`crates/engine/src/prepare/cached/builder/shapes/mod.rs`, of the evaluation of `@skip` and `@include`
in `crates/engine/src/prepare/operation_plan/query_modifications.rs` and of the order in which
`crates/engine/src/response/read/ser/data.rs` writes the fields of an object.

Simplifications:
* A selection set is a list of fields and (inlined) fragments.  A fragment spread and an inline
  fragment with a type condition run the same code (lines 142-172 and 174-201).
* Types are numbers; `poss` gives the object types of a composite type.
* An `ExecutableDirectiveId` is the directive (`@skip` or `@include`) and the id of its condition.  A
  variable assignment gives a value to each of those ids.  Lists of directives are sorted and
  deduplicated through a hash map (lines 414-440), so two of them get the same id iff they are equal
  up to order; we compare them up to order.
* A node of the graph is named by its level and its index in the level.  The nodes of a level only
  have parents in the level above and `next_query_position` restarts at each level (96-99), so each
  level is processed on its own.
* `usize::BITS` is 64, so that the bit of a response key is `key % 63` (line 248).
* Requirements of extension directives (335-397) only create work for other parts of the solver.
* Only one query partition is considered: all the fields of an object come from one subgraph.
-/
namespace Verif.Collect

/-- `ExecutableDirectiveId`, `operation/src/model/generated/directive.rs:21-24`. -/
structure Dir where
  skip : Bool
  cond : Nat
  deriving DecidableEq, Repr

/-- What matters of a selected field: the type of which it is a field (`none` for `__typename`), its
definition, its arguments and its output type if that is a composite type. -/
structure Info where
  ty : Option Nat
  defn : Nat
  args : Nat
  out : Option Nat
  deriving DecidableEq, Repr

/-- A selection set. -/
inductive Sels where
  | nil
  | field (key : Nat) (info : Info) (dirs : List Dir) (sub rest : Sels)
  | frag (cond : Option Nat) (dirs : List Dir) (sub rest : Sels)
  deriving DecidableEq, Repr

/-- A call of `add_operation_field` made by `rec_ingest_selection_set`, with the value of
`parent_type_conditions` and of all the directives in force. -/
structure Occ where
  key : Nat
  info : Info
  conds : List Nat
  dirs : List Dir
  sub : Sels
  deriving DecidableEq, Repr

/-- `can_be_present`, lines 219-227. -/
def canBePresent (poss : Nat → List Nat) (parentTy ty : Nat) : Bool :=
  parentTy == ty || (poss parentTy).any fun o => (poss ty).contains o

/-- `rec_ingest_selection_set`, lines 122-217: the calls of `add_operation_field`, in order. -/
def flat (poss : Nat → List Nat) (parentTy : Nat) : Sels → List Nat → List Dir → List Occ
  | .nil, _, _ => []
  | .field key info ds sub rest, conds, dirs =>
    let tail := flat poss parentTy rest conds dirs
    match info.ty with
    | some ty =>
      if canBePresent poss parentTy ty then ⟨key, info, conds, dirs ++ ds, sub⟩ :: tail else tail
    | none => ⟨key, info, conds, dirs ++ ds, sub⟩ :: tail
  | .frag none ds sub rest, conds, dirs =>
    flat poss parentTy sub conds (dirs ++ ds) ++ flat poss parentTy rest conds dirs
  | .frag (some ty) ds sub rest, conds, dirs =>
    let tail := flat poss parentTy rest conds dirs
    if canBePresent poss parentTy ty then
      if parentTy == ty then flat poss parentTy sub conds (dirs ++ ds) ++ tail
      else flat poss parentTy sub (conds ++ [ty]) (dirs ++ ds) ++ tail
    else tail

/-- `QueryField`; `parent` is an index in the level above. -/
structure Node where
  parent : Nat
  key : Nat
  defn : Nat
  args : Nat
  conds : List Nat
  dirs : List Dir
  pos : Nat
  deriving DecidableEq, Repr

/-- `IngestSelectionSet`, lines 20-25. -/
structure Entry where
  parent : Nat
  ty : Nat
  sels : Sels
  deriving DecidableEq, Repr

inductive Err where
  /-- `InconsistentFieldArguments`. -/
  | arguments
  /-- `QueryPosition::from(u16::MAX)` has no non-zero representation. -/
  | panic
  /-- Not in the code: the number of levels given to `run` is too small. -/
  | fuel
  deriving DecidableEq, Repr

/-- The state while a level is processed.  `bloom` is `selection_set_to_response_key_bloom_filter`. -/
structure St where
  nodes : List Node
  next : Nat
  bloom : Nat → Nat
  queue : List Entry

/-- Line 248. -/
def mask (key : Nat) : Nat := 1 <<< (key % 63)

/-- The search of lines 252-290 among `(index, node)` pairs: newest first, as `neighbors_directed`
of petgraph. -/
def search (parent : Nat) (o : Occ) : List (Node × Nat) → Except Err (Option Nat)
  | [] => .ok none
  | (n, i) :: ns =>
    if n.parent ≠ parent then search parent o ns
    else if n.key ≠ o.key then search parent o ns
    else if n.defn = o.info.defn ∧ n.args ≠ o.info.args then .error .arguments
    else if n.conds = o.conds ∧ n.dirs.isPerm o.dirs = true then .ok (some i)
    else search parent o ns

/-- `next_query_position`, lines 113-120.  The conversion to `QueryPosition` adds one and panics for
`u16::MAX`. -/
def nextPosition (next : Nat) : Except Err (Nat × Nat) :=
  if next + 1 = 65536 then .error .panic else .ok (next + 1, (next + 1) % 65536)

/-- `add_operation_field`, lines 229-412. -/
def addField (parent : Nat) (st : St) (o : Occ) : Except Err St :=
  let found : Except Err (Option Nat) :=
    if (st.bloom parent) &&& (mask o.key) ≠ 0 then search parent o st.nodes.zipIdx.reverse
    else .ok none
  match found with
  | .error e => .error e
  | .ok ix =>
    let bloom := fun p => if p = parent then st.bloom p ||| mask o.key else st.bloom p
    let push (i : Nat) : List Entry :=
      match o.info.out with
      | some ty => st.queue ++ [⟨i, ty, o.sub⟩]
      | none => st.queue
    match ix with
    | some i => .ok { st with bloom, queue := push i }
    | none =>
      match nextPosition st.next with
      | .error e => .error e
      | .ok (pos, next) =>
        let node : Node := ⟨parent, o.key, o.info.defn, o.info.args, o.conds, o.dirs, pos⟩
        .ok { nodes := st.nodes ++ [node], next, bloom, queue := push st.nodes.length }

/-- One turn of the loop of `ingest`, lines 85-108. -/
def addEntry (poss : Nat → List Nat) (st : St) (e : Entry) : Except Err St :=
  (flat poss e.ty e.sels [] []).foldlM (addField e.parent) st

/-- All the turns for one depth. -/
def level (poss : Nat → List Nat) (entries : List Entry) : Except Err St :=
  entries.foldlM (addEntry poss) ⟨[], 0, fun _ => 0, []⟩

/-- `ingest`, lines 81-111: the nodes of each level. -/
def run (poss : Nat → List Nat) : Nat → List Entry → Except Err (List (List Node))
  | _, [] => .ok []
  | 0, _ :: _ => .error .fuel
  | fuel + 1, e :: es =>
    match level poss (e :: es) with
    | .error err => .error err
    | .ok st =>
      match run poss fuel st.queue with
      | .error err => .error err
      | .ok rest => .ok (st.nodes :: rest)

/-- `handle_native_modifiers`, `query_modifications.rs:240-265`: whether a query field stays in
`included_response_data_fields`. -/
def included (env : Nat → Bool) (n : Node) : Bool :=
  !n.dirs.any fun d => if d.skip then env d.cond else !env d.cond

/-- Whether a node applies to an object of type `obj` which merges the selection sets of the nodes
`group` of the level above: `create_field_composite_type_output_shape` (`shapes/mod.rs:608-658`) with
`compute_possible_types` (849-895) as the test on type conditions. -/
def applicable (poss : Nat → List Nat) (group : List Nat) (obj : Nat) (n : Node) : Bool :=
  group.contains n.parent && n.conds.all fun c => (poss c).contains obj

def fieldsOf (poss : Nat → List Nat) (ns : List Node) (group : List Nat) (obj : Nat) : List Node :=
  ns.filter (applicable poss group obj)

/-- `group` of `create_concrete_shape` for a response key, `shapes/mod.rs:365-386`. -/
def groupOf (poss : Nat → List Nat) (ns : List Node) (group : List Nat) (obj key : Nat) : List Nat :=
  (ns.zipIdx.filter fun m => m.1.key == key && applicable poss group obj m.1).map Prod.snd

/-- `create_concrete_shape`, `shapes/mod.rs:323-389`, on fields sorted by response key and position:
the first field of each group.  `cur` is the response key of the current group. -/
def groupFirsts : Option Nat → List Node → List Node
  | _, [] => []
  | cur, n :: rest =>
    if cur = some n.key then groupFirsts cur rest else n :: groupFirsts (some n.key) rest

/-- The `sort_unstable_by` of `shapes/mod.rs:642-648`: by the string of the response key (here its
`rank`), then by position. -/
structure SortedByKey (rank : Nat → Nat) (out l : List Node) : Prop where
  perm : out.Perm l
  sorted : out.Pairwise fun a b => rank a.key < rank b.key ∨ (rank a.key = rank b.key ∧ a.pos ≤ b.pos)

/-- The position with which a field shape is stored: `FieldShape::key`, `cached/shape/field.rs:66-76`;
0 is `None`. -/
def shownPos (env : Nat → Bool) (n : Node) : Nat := if included env n then n.pos else 0

/-- An object keeps its fields sorted by position (`ResponseObject::new`) and is written without the
ones that have none, `read/ser/data.rs:36-57`. -/
def Written (env : Nat → Bool) (shape : List Node) (keys : List Nat) : Prop :=
  ∃ fields : List Node, fields.Perm shape ∧
    (fields.Pairwise fun a b => shownPos env a ≤ shownPos env b) ∧
    keys = (fields.dropWhile fun n => shownPos env n == 0).map Node.key

/-- What the object at the end of a path of `(type of the object, response key)` is made of: the
levels below it and the nodes whose selection sets it merges.  A step is only possible through a
field that is in the response. -/
inductive Reach (poss : Nat → List Nat) (env : Nat → Bool) (rank : Nat → Nat) :
    List (List Node) → List Nat → List (Nat × Nat) → List (List Node) → List Nat → Prop
  | here (lvls group) : Reach poss env rank lvls group [] lvls group
  | step {ns rest group obj key path lvls' group'} (sorted : List Node) (n : Node)
      (hs : SortedByKey rank sorted (fieldsOf poss ns group obj))
      (hn : n ∈ groupFirsts none sorted) (hk : n.key = key) (hi : included env n = true)
      (next : Reach poss env rank rest (groupOf poss ns group obj key) path lvls' group') :
      Reach poss env rank (ns :: rest) group ((obj, key) :: path) lvls' group'

end Verif.Collect
