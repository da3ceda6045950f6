import Verif.OpChecks.Model

/-!
# Building the dependency graph of an operation plan

Model of `Builder` in `crates/engine/src/prepare/operation_plan/builder.rs` (lines given below are of
that file) without the preparation of resolvers.

Simplifications:
* Ids are numbers.  The two arenas `plans` and `response_modifiers` are one function from executables
  to nodes; indices are those handed out by the builder, so they are never out of bounds.
* `required_fields.union(..)` (line 232) is the concatenation of the sets: only the partitions
  mentioned in a set matter here.
* The response object set and the type of an impacted field are given; the set may be missing, which
  is an internal error (lines 136-151).
-/
namespace Verif.Schedule

open Verif.OpChecks (sortBy)

/-- `RequiredFieldSet`: the partition of the data field of each item, with the subselection. -/
inductive Req where
  | mk (partition : Nat) (sub : List Req)
  deriving Repr

/-- `QueryPartition`: its required fields, those of the fields it selects and its input's
`query_partition_ids.first()`. -/
structure Part where
  required : List Req
  fields : List (List Req)
  parent : Option Nat

/-- An impacted field of a `ResponseModifierDefinition`. -/
structure Impacted where
  included : Bool
  partition : Nat
  set : Option Nat
  ty : Nat
  field : Nat
  deriving DecidableEq, Repr

/-- The tuple made of an impacted field, line 155. -/
structure Target where
  partition : Nat
  set : Nat
  ty : Nat
  field : Nat
  deriving DecidableEq, Repr

/-- What is used of a `CachedOperation`.  `requiredBySupergraph` is indexed by data fields. -/
structure Query where
  parts : List Part
  modifiers : List (List Impacted)
  requiredBySupergraph : Nat → List Req
  mutationOrder : List Nat

/-- `ExecutableId`. -/
inductive Exe where
  | plan (n : Nat)
  | modifier (n : Nat)
  deriving DecidableEq, Repr

/-- The result of building fails with `PlanError::Internal`. -/
inductive Err where
  | internal
  | panic
  deriving DecidableEq, Repr

/-- `ResponseModifierRecord`: the definition and the targets. -/
structure ModRec where
  defn : Nat
  partition : Nat
  targets : List Target
  deriving DecidableEq, Repr

/-- `Builder`, 48-56.  `plans` are the `query_partition_id`s of `operation_plan.plans`. -/
structure Builder where
  plans : List Nat
  mods : List ModRec
  deps : List (Exe × Nat)
  partMods : List (Nat × Nat)
  partToPlan : List (Option Nat)
  deriving DecidableEq, Repr

/-! ## Dependencies, lines 194-256 -/

/-- Number of items of a required field set. -/
def Req.size : Req → Nat
  | .mk _ sub => 1 + sizes sub
where
  sizes : List Req → Nat
    | [] => 0
    | r :: t => r.size + sizes t

/-- The body of the loop 243-249: the partitions and the subselections pushed on the stack. -/
def visit : List Req → List Nat × List (List Req)
  | [] => ([], [])
  | .mk p sub :: t =>
    let (ps, subs) := visit t
    (p :: ps, if sub.isEmpty then subs else sub :: subs)

/-- The loop 242-250.  The end of the Rust vector is the head of the list. -/
def collect : Nat → List (List Req) → List Nat → List Nat
  | 0, _, acc => acc
  | _, [], acc => acc
  | n + 1, set :: stack, acc =>
    collect n ((visit set).2.reverse ++ stack) (acc ++ (visit set).1)

/-- `Itertools::dedup`. -/
def dedup {α : Type} [DecidableEq α] : List α → List α
  | [] => []
  | [a] => [a]
  | a :: b :: t => if a = b then dedup (b :: t) else a :: dedup (b :: t)

/-- `register_dependencies`, 238-256. -/
def registerDependencies (b : Builder) (e : Exe) (required : List Req) : Builder :=
  let ids := collect (Req.size.sizes required + 1) [required] []
  { b with deps := b.deps ++ (dedup (sortBy (fun a b => a ≤ b) ids)).map fun d => (e, d) }

/-- `create_required_field_set_for_query_partition`, 218-236. -/
def requiredOf (p : Part) : List Req :=
  p.required ++ p.fields.flatten

/-- `generate_plan`, 194-216. -/
def generatePlan (b : Builder) (id : Nat) (p : Part) : Builder :=
  let e := b.plans.length
  let b := { b with partToPlan := b.partToPlan.set id (some e) }
  let b :=
    if (requiredOf p).isEmpty then
      match p.parent with
      | some q => { b with deps := b.deps ++ [(.plan e, q)] }
      | none => b
    else registerDependencies b (.plan e) (requiredOf p)
  { b with plans := b.plans ++ [id] }

/-- The first loop of `build`, 60-62. -/
def generatePlans (b : Builder) (id : Nat) : List Part → Builder
  | [] => b
  | p :: t => generatePlans (generatePlan b id p) (id + 1) t

/-! ## Response modifiers, lines 127-192 -/

/-- The first loop, 128-156. -/
def impacted : List Impacted → Except Err (List Target)
  | [] => .ok []
  | i :: t =>
    if i.included then
      match i.set with
      | none => .error .internal
      | some set =>
        match impacted t with
        | .error e => .error e
        | .ok l => .ok (⟨i.partition, set, i.ty, i.field⟩ :: l)
    else impacted t

/-- The order of the tuples `(partition, set, type, field)`. -/
def tupleLe (a b : Target) : Bool :=
  if a.partition ≠ b.partition then a.partition < b.partition
  else if a.set ≠ b.set then a.set < b.set
  else if a.ty ≠ b.ty then a.ty < b.ty
  else a.field ≤ b.field

/-- `chunk_by(partition)`: consecutive elements with the same partition. -/
def chunks : List Target → List (Nat × List Target)
  | [] => []
  | i :: t =>
    match chunks t with
    | [] => [(i.partition, [i])]
    | (p, l) :: rest => if i.partition = p then (p, i :: l) :: rest else (i.partition, [i]) :: (p, l) :: rest

/-- The body of the loop 160-189. -/
def pushModifier (q : Query) (defn : Nat) (b : Builder) (c : Nat × List Target) : Builder :=
  let id := b.mods.length
  let b := c.2.foldl (fun b i => registerDependencies b (.modifier id) (q.requiredBySupergraph i.field)) b
  { b with mods := b.mods ++ [⟨defn, c.1, c.2⟩], partMods := b.partMods ++ [(c.1, id)] }

/-- `generate_response_modifier`, 127-192. -/
def generateModifier (q : Query) (b : Builder) (defn : Nat) (d : List Impacted) : Except Err Builder :=
  match impacted d with
  | .error e => .error e
  | .ok l => .ok ((chunks (dedup (sortBy tupleLe l))).foldl (pushModifier q defn) b)

/-- The second loop of `build`, 64-66. -/
def generateModifiers (q : Query) (b : Builder) (defn : Nat) : List (List Impacted) → Except Err Builder
  | [] => .ok b
  | d :: t =>
    match generateModifier q b defn d with
    | .error e => .error e
    | .ok b => generateModifiers q b (defn + 1) t

/-! ## Finalizing, lines 71-125 -/

/-- `children_ids` and `parent_count` of every executable. -/
structure Graph where
  children : Exe → List Exe
  parents : Exe → Nat

/-- `children_ids.push(c)`. -/
def pushChild (g : Graph) (d c : Exe) : Graph :=
  { g with children := fun x => if x = d then g.children x ++ [c] else g.children x }

/-- `parent_count += 1`. -/
def incParents (g : Graph) (c : Exe) : Graph :=
  { g with parents := fun x => if x = c then g.parents x + 1 else g.parents x }

/-- `partition_to_plan[..]`: outside of the vector is a panic, `None` is an internal error. -/
def planOf (m : List (Option Nat)) (p : Nat) : Except Err Nat :=
  match m[p]? with
  | none => .error .panic
  | some none => .error .internal
  | some (some n) => .ok n

/-- The loop 73-80. -/
def linkModifiers (m : List (Option Nat)) (g : Graph) : List (Nat × Nat) → Except Err Graph
  | [] => .ok g
  | (p, i) :: t =>
    match planOf m p with
    | .error e => .error e
    | .ok d => linkModifiers m (incParents (pushChild g (.plan d) (.modifier i)) (.modifier i)) t

/-- `IdToMany::find_all`, `crates/engine/id-newtypes/src/many.rs:43-75`: from the first element that is
not below `id` as long as the id is equal. -/
def findAll (l : List (Nat × Nat)) (id : Nat) : List Nat :=
  ((l.dropWhile fun x => x.1 < id).takeWhile fun x => x.1 = id).map (·.2)

/-- The loop 93-96. -/
def linkToModifiers (g : Graph) (plan : Nat) : List Nat → Graph
  | [] => g
  | i :: t => linkToModifiers (incParents (pushChild g (.modifier i) (.plan plan)) (.plan plan)) plan t

/-- Lines 90-101. -/
def linkDependent (byPart : List (Nat × Nat)) (g : Graph) (part : Nat) : Exe → Graph
  | .plan n => linkToModifiers (incParents g (.plan n)) n (findAll byPart part)
  | .modifier n => incParents g (.modifier n)

/-- The loop 84-102. -/
def linkDependencies (m : List (Option Nat)) (byPart : List (Nat × Nat)) (g : Graph) :
    List (Exe × Nat) → Except Err Graph
  | [] => .ok g
  | (e, p) :: t =>
    match planOf m p with
    | .error e => .error e
    | .ok d => linkDependencies m byPart (linkDependent byPart (pushChild g (.plan d) e) p e) t

/-- The loop 104-122: consecutive pairs. -/
def linkMutations (m : List (Option Nat)) (g : Graph) : List Nat → Except Err Graph
  | [] => .ok g
  | [_] => .ok g
  | a :: b :: t =>
    match planOf m a with
    | .error e => .error e
    | .ok prev =>
      match planOf m b with
      | .error e => .error e
      | .ok next =>
        linkMutations m (incParents (pushChild g (.plan prev) (.plan next)) (.plan next)) (b :: t)

/-- `sort_unstable` on pairs of ids. -/
def pairLe (a b : Nat × Nat) : Bool :=
  if a.1 ≠ b.1 then a.1 < b.1 else a.2 ≤ b.2

/-- `finalize`, 71-125. -/
def finalize (q : Query) (b : Builder) : Except Err Graph :=
  let pm := sortBy pairLe b.partMods
  match linkModifiers b.partToPlan ⟨fun _ => [], fun _ => 0⟩ pm with
  | .error e => .error e
  | .ok g =>
    match linkDependencies b.partToPlan pm g b.deps with
    | .error e => .error e
    | .ok g => linkMutations b.partToPlan g q.mutationOrder

/-- The result of building: the graph, the partitions of the plans, the records of modifiers. -/
structure OpPlan where
  graph : Graph
  plans : List Nat
  mods : List ModRec

/-- The builder at the start, 27-42. -/
def emptyBuilder (q : Query) : Builder :=
  ⟨[], [], [], [], List.replicate q.parts.length none⟩

/-- `build`, 59-69. -/
def build (q : Query) : Except Err OpPlan :=
  match generateModifiers q (generatePlans (emptyBuilder q) 0 q.parts) 0 q.modifiers with
  | .error e => .error e
  | .ok b =>
    match finalize q b with
    | .error e => .error e
    | .ok g => .ok ⟨g, b.plans, b.mods⟩

end Verif.Schedule
