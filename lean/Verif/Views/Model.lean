import Verif.OpChecks.Model

/-!
# What is read from the response for a subgraph or an extension (C72)

When a plan depends on fields of the response (keys of an entity, `@require`, the `fields` of an
extension's directive, the values injected into the arguments of a `@lookup`), the engine keeps a
tree of *required fields* and serialises *views* of the objects of the response.

Sources (in `crates/engine`):

* `schema/src/field_set/{mod,union}.rs`: field sets of the schema, sorted by field id, and their union;
* `src/prepare/cached/query_plan/required_field_set.rs`: the same with the field of the operation that
  provides the value;
* `src/prepare/cached/builder/requires.rs`: how a set of required fields is built from the solution;
* `src/response/read/view/ser.rs`: the four views;
* `schema/src/builder/graph/selections.rs` and
  `schema/src/builder/graph/directives/composite/injection/explicit.rs`: what a bound selection of
  values (`@is`, `@require`) becomes.

Simplifications: ids are numbers, and the references of the response (`data_parts[id]`) are followed,
so a response is a tree. Booleans, numbers, strings and lists of numbers are `leaf`s: they are
serialised as they are. A panic is a value. `possible_type_ids.binary_search` of a sorted list is
membership. The messages of the errors are left out.
-/

namespace Verif.Views

open Verif.OpChecks (sortBy)

/-! ## Outcomes -/

/-- `Result<_, S::Error>`, and the `unreachable!`s. -/
inductive Out (α : Type) where
  | ok (a : α)
  | err
  | panic

namespace Out

def bind {α β} : Out α → (α → Out β) → Out β
  | ok a, f => f a
  | err, _ => err
  | panic, _ => panic

def map {α β} (f : α → β) : Out α → Out β
  | ok a => ok (f a)
  | err => err
  | panic => panic

end Out

/-! ## Trees of fields -/

/-- `FieldSetItemRecord` (`schema/src/field_set/item.rs`) with nothing as `data`, and
`RequredFieldRecord` (`required_field_set.rs` 76-81) with the field of the operation as `data`. -/
inductive Item (α : Type) where
  | mk (id : Nat) (data : α) (sub : List (Item α))

namespace Item
variable {α : Type}
def id : Item α → Nat | mk i _ _ => i
def data : Item α → α | mk _ d _ => d
def sub : Item α → List (Item α) | mk _ _ s => s
end Item

/-- `From<Vec<_>>` (`field_set/mod.rs` 35-40, `required_field_set.rs` 20-25). The sort of the code is
not stable: nothing is said about fields with the same id. -/
def ofVec {α : Type} (items : List (Item α)) : List (Item α) :=
  sortBy (fun a b => decide (a.id ≤ b.id)) items

/-- One step of the loop of `union` (`union.rs` 26-51, `required_field_set.rs` 156-182) for the left
item `l`: the items of the right that are smaller come first. `both` is the union of the
subselection of `l`, `next` the rest of the loop, `rest` what is left on the left side. -/
def mergeItem {α : Type} (l : Item α) (rest : List (Item α)) (both next : List (Item α) → List (Item α)) :
    List (Item α) → List (Item α)
  | [] => l :: rest
  | r :: rs =>
    if l.id < r.id then l :: next (r :: rs)
    else if r.id < l.id then r :: mergeItem l rest both next rs
    else .mk l.id l.data (if l.sub.isEmpty then r.sub else both r.sub) :: next rs

mutual

/-- `FieldSetRecord::union` (`union.rs` 17-59) and `RequiredFieldSetRecord::union`
(`required_field_set.rs` 147-190). -/
def union {α : Type} : List (Item α) → List (Item α) → List (Item α)
  | [], right => right
  | l :: ls, right => mergeItem l ls (unionSub l) (union ls) right

/-- The recursive call of `union` for the subselection of a field of both sides. -/
def unionSub {α : Type} : Item α → List (Item α) → List (Item α)
  | .mk _ _ sub, right => union sub right

end

/-- `FieldSetRecord::union_cow` (`union.rs` 7-15). -/
def unionCow {α : Type} (left right : List (Item α)) : List (Item α) :=
  if left.isEmpty then right
  else if right.isEmpty then left
  else union left right

/-! ## The response -/

/-- `parent_entity()` of the definition of a field. -/
inductive Entity where
  | object (id : Nat)
  | interface (possible : List Nat)

/-- `DataField`: the key of the field in the objects of the response, the name of its definition and
the entity the definition belongs to. `node` is the node of the solution it comes from. -/
structure Data where
  key : Nat
  name : String
  parent : Entity
  node : Nat

/-- `ResponseValue` (`src/response/value.rs` 51-117). `definition` is `ResponseObject::definition_id`. -/
inductive Val where
  | null
  | leaf (s : String)
  | unexpected
  | inaccessible (v : Val)
  | list (vs : List Val)
  | map (kvs : List (String × Val))
  | object (definition : Option Nat) (fields : List (Nat × Val))

/-- `ResponseObject`. -/
structure Obj where
  definition : Option Nat
  fields : List (Nat × Val)

/-- `find_by_response_key` (`src/response/value.rs` 34-39). -/
def Obj.find (o : Obj) (key : Nat) : Option Val :=
  (o.fields.find? (fun kv => kv.1 == key)).map (·.2)

/-- What is written. -/
inductive Json where
  | null
  | leaf (s : String)
  | list (js : List Json)
  | obj (kvs : List (String × Json))

mutual

/-- `ResponseValueView<ForwardView<_>>` (`ser.rs` 185-244) and `ResponseValueView<ForInjection>`
(379-460), which differ in `debug_assert!`s only. `k` serialises the objects. -/
def forward (k : Obj → Out Json) : Val → Out Json
  | .null => .ok .null
  | .leaf s => .ok (.leaf s)
  | .unexpected => .err
  | .inaccessible v => forward k v
  | .list vs => (forwardList k vs).map .list
  | .map kvs => (forwardMap k kvs).map .obj
  | .object d fs => k ⟨d, fs⟩

/-- `collect_seq` of the values of a list. -/
def forwardList (k : Obj → Out Json) : List Val → Out (List Json)
  | [] => .ok []
  | v :: vs => (forward k v).bind fun j => (forwardList k vs).map (j :: ·)

/-- `collect_map` of the entries of a map. -/
def forwardMap (k : Obj → Out Json) : List (String × Val) → Out (List (String × Json))
  | [] => .ok []
  | kv :: kvs => (forwardEntry k kv).bind fun e => (forwardMap k kvs).map (e :: ·)

/-- One entry of a map. -/
def forwardEntry (k : Obj → Out Json) : String × Val → Out (String × Json)
  | (key, v) => (forward k v).map (key, ·)

end

/-- Whether a field that is not in the object may be skipped: its definition is known and is not a
possible one of the field's entity (`ser.rs` 81-94, 134-149, 305-322). -/
def skipped (d : Data) (o : Obj) : Bool :=
  match o.definition with
  | none => false
  | some id =>
    match d.parent with
    | .interface possible => !possible.contains id
    | .object obj => obj != id

/-! ## The view of the required fields -/

mutual

/-- `ResponseObjectView<RequiredFieldSet>` (`ser.rs` 67-112): the loop. -/
def requiredEntries : List (Item Data) → Obj → Out (List (String × Json))
  | [], _ => .ok []
  | i :: is, o => (requiredEntry i o).bind fun e => (requiredEntries is o).map (e ++ ·)

/-- What one required field adds to the map (`ser.rs` 73-108). -/
def requiredEntry : Item Data → Obj → Out (List (String × Json))
  | .mk _ d sub, o =>
    match o.find d.key with
    | none => if skipped d o then .ok [] else .err
    | some v => (forward (fun o' => (requiredEntries sub o').map .obj) v).map (fun j => [(d.name, j)])

end

/-- `ResponseObjectView<RequiredFieldSet>` (`ser.rs` 67-112). -/
def required (reqs : List (Item Data)) (o : Obj) : Out Json :=
  (requiredEntries reqs o).map .obj

/-- What one required field adds to a representation (`ser.rs` 39-61): it must be there. -/
def representationEntry (i : Item Data) (o : Obj) : Out (String × Json) :=
  match o.find i.data.key with
  | none => .err
  | some v => (forward (required i.sub) v).map (i.data.name, ·)

/-- The required fields of a representation (`ser.rs` 39-61). -/
def representationEntries : List (Item Data) → Obj → Out (List (String × Json))
  | [], _ => .ok []
  | i :: is, o => (representationEntry i o).bind fun e => (representationEntries is o).map (e :: ·)

/-- `ResponseObjectView<WithExtraFields>` (`ser.rs` 26-65): the representations of entities. -/
def representation (extra : List (String × Json)) (reqs : List (Item Data)) (o : Obj) : Out Json :=
  (representationEntries reqs o).map (fun es => .obj (extra ++ es))

/-! ## The view of a field set within the required fields -/

/-- The inner loop of `ForFieldSet` (`ser.rs` 123-175): the requirement for the field and those after
it; nothing for the two `unreachable!`s. -/
def seek (id : Nat) : List (Item Data) → Option (Item Data × List (Item Data))
  | [] => none
  | r :: rs =>
    if id < r.id then none
    else if id = r.id then some (r, rs)
    else seek id rs

mutual

/-- `ResponseObjectView<ForFieldSet>` (`ser.rs` 114-180): the loop. -/
def fieldSetEntries : List (Item Unit) → List (Item Data) → Obj → Out (List (String × Json))
  | [], _, _ => .ok []
  | f :: fs, reqs, o =>
    match seek f.id reqs with
    | none => .panic
    | some (r, rest) =>
      (fieldSetEntry f r o).bind fun e => (fieldSetEntries fs rest o).map (e ++ ·)

/-- What one field of the field set adds, `r` being the requirement found (`ser.rs` 126-169). -/
def fieldSetEntry : Item Unit → Item Data → Obj → Out (List (String × Json))
  | .mk _ _ sub, r, o =>
    match o.find r.data.key with
    | none => if skipped r.data o then .ok [] else .err
    | some v =>
      (forward (fun o' => (fieldSetEntries sub r.sub o').map .obj) v).map (fun j => [(r.data.name, j)])

end

/-- `ResponseObjectView<ForFieldSet>` (`ser.rs` 114-180). -/
def fieldSet (fs : List (Item Unit)) (reqs : List (Item Data)) (o : Obj) : Out Json :=
  (fieldSetEntries fs reqs o).map .obj

/-! ## The view of an injection within the required fields -/

/-- `ValueInjection`, with the ids followed. A `KeyValueInjectionRecord` is the id of the key and the
value. -/
inductive Inj where
  | identity
  | default (j : Json)
  | select (id : Nat) (next : Inj)
  | object (kvs : List (Nat × Inj))

/-- Where the inner loop of `ForInjection` ends (`ser.rs` 291-350). -/
inductive Sought where
  | found (r : Item Data) (rest : List (Item Data))
  | less
  | exhausted

/-- The inner loop of `ForInjection` (`ser.rs` 291-350). The requirement that is found remains the
current one. -/
def seekInjection (id : Nat) : List (Item Data) → Sought
  | [] => .exhausted
  | r :: rs =>
    if id < r.id then .less
    else if id = r.id then .found r (r :: rs)
    else seekInjection id rs

mutual

/-- `ResponseObjectView<ForInjection>` (`ser.rs` 246-377). `names` are the strings of the schema. -/
def inject (names : Nat → String) : Inj → List (Item Data) → Obj → Out Json
  | .select id next, reqs, o =>
    match reqs.find? (fun r => r.id == id) with
    | none => .err
    | some r =>
      match o.find r.data.key with
      | none => .err
      | some v => forward (inject names next r.sub) v
  | .object kvs, reqs, o => (injectEntries names kvs reqs reqs o).map .obj
  | .default j, _, _ => .ok j
  | .identity, _, _ => .panic

/-- The loop over the keys of an object (`ser.rs` 288-369): `rem` are the requirements from `r` on,
`reqs` all of them. -/
def injectEntries (names : Nat → String) :
    List (Nat × Inj) → List (Item Data) → List (Item Data) → Obj → Out (List (String × Json))
  | [], _, _, _ => .ok []
  | kv :: kvs, rem, reqs, o =>
    match injectEntry names kv rem reqs o with
    | (e, rem) => e.bind fun e => (injectEntries names kvs rem reqs o).map (e ++ ·)

/-- One key (`ser.rs` 289-368), and the requirements from `r` on after it. -/
def injectEntry (names : Nat → String) :
    Nat × Inj → List (Item Data) → List (Item Data) → Obj → Out (List (String × Json)) × List (Item Data)
  | (key, .select id next), rem, _, o =>
    match seekInjection id rem with
    | .exhausted => (.ok [], [])
    | .less => (.panic, [])
    | .found r rest =>
      (match o.find r.data.key with
        | none => if skipped r.data o then .ok [] else .err
        | some v => (forward (inject names next r.sub) v).map (fun j => [(names key, j)]), rest)
  | (key, .default j), rem, _, _ => (.ok [(names key, j)], rem)
  | (key, inj), rem, reqs, o => ((inject names inj reqs o).map (fun j => [(names key, j)]), rem)

end

/-! ## Requirements and injections of a bound selection -/

mutual

/-- `BoundSelectedValue<InputValueDefinitionId>`. A path is the ids of its fields: `insert_field`
(`selections.rs` 43-51) gives a definition without arguments one id. `several` stands for a value with
alternatives, which is refused whatever they are (`explicit.rs` 80-92). -/
inductive Sel where
  | identity
  | path (first : Nat) (rest : List Nat)
  | object (path : List Nat) (fields : List (Nat × FieldSel))
  | list (path : List Nat) (item : Sel)
  | several

/-- `BoundFieldValue<InputValueDefinitionId>`. -/
inductive FieldSel where
  | value (s : Sel)
  | field (id : Nat)
  | default (j : Json)

end

/-- `order_key` (`selections.rs` 116-121). -/
def orderKey (kv : Nat × Inj) : Option Nat × Nat :=
  match kv.2 with
  | .select id _ => (some id, kv.1)
  | _ => (none, kv.1)

/-- The derived order of `(Option<SchemaFieldId>, StringId)`. -/
def keyLe : Option Nat × Nat → Option Nat × Nat → Bool
  | (none, _), (some _, _) => true
  | (some _, _), (none, _) => false
  | (none, a), (none, b) => decide (a ≤ b)
  | (some i, a), (some j, b) => decide (i < j ∨ (i = j ∧ a ≤ b))

/-- `push_key_value_injections` (`selections.rs` 94-103). -/
def pushKeyValues (kvs : List (Nat × Inj)) : List (Nat × Inj) :=
  sortBy (fun a b => keyLe (orderKey a) (orderKey b)) kvs

/-- `prepend_requirements_and_injection_with_path` (`explicit.rs` 129-150). -/
def prepend : List Nat → List (Item Unit) × Inj → List (Item Unit) × Inj
  | [], result => result
  | f :: path, result =>
    let (fs, inj) := prepend path result
    ([.mk f () fs], .select f inj)

/-- `create_requirements_and_injection_for_path` (`explicit.rs` 152-182). -/
def forPath (first : Nat) : List Nat → List (Item Unit) × Inj
  | [] => ([.mk first () []], .select first .identity)
  | next :: rest =>
    let (fs, inj) := forPath next rest
    ([.mk first () fs], .select first inj)

mutual

/-- `create_requirements_and_injection_for_selected_value` (`explicit.rs` 76-95) and
`…_for_selected_entry` (97-127). -/
def create : Sel → Out (List (Item Unit) × Inj)
  | .identity => .ok ([], .identity)
  | .path first rest => .ok (forPath first rest)
  | .object path fields =>
    (createFields [] fields).map fun (fs, kvs) => prepend path (fs, .object (pushKeyValues kvs))
  | .list path item => (create item).map (prepend path)
  | .several => .err

/-- The loop of `create_requirements_and_injection_for_selected_object` (`explicit.rs` 184-205): `fs`
is the field set up to here. -/
def createFields (fs : List (Item Unit)) : List (Nat × FieldSel) → Out (List (Item Unit) × List (Nat × Inj))
  | [] => .ok (fs, [])
  | f :: rest =>
    (createField f).bind fun (requires, key, value) =>
      (createFields (union fs requires) rest).map fun (fs, kvs) => (fs, (key, value) :: kvs)

/-- One field of the object (`explicit.rs` 191-198, 207-230). -/
def createField : Nat × FieldSel → Out (List (Item Unit) × Nat × Inj)
  | (key, v) => (createValue v).map fun (requires, value) => (requires, key, value)

/-- `create_requirements_and_injection_for_field_value` (`explicit.rs` 207-230). -/
def createValue : FieldSel → Out (List (Item Unit) × Inj)
  | .value s => create s
  | .field id => .ok ([.mk id () []], .select id .identity)
  | .default j => .ok ([], .default j)

end

/-! ## The required fields of a plan -/

/-- `create_required_field_set_for_query_partition` (`src/prepare/operation_plan/builder.rs` 218-236):
those of the partition and those of each of its fields. -/
def requiredOf (partition : List (Item Data)) (fields : List (List (Item Data))) : List (Item Data) :=
  fields.foldl union partition

/-! ## The required fields of a node of the solution -/

/-- The edges that matter (`requires.rs` 104-131). -/
inductive Edge where
  | field (target : Nat)
  | partition (target : Nat)
  | other

/-- The graph of the solution: the edges of a node, the field a node stands for, when it is a query
field that has a schema field and that became a data field, and whether the type of a schema field
is composite. -/
structure Graph where
  edges : Nat → List Edge
  field : Nat → Option (Nat × Data)
  composite : Nat → Bool

/-- `Vec::swap_remove`. -/
def swapRemove (l : List Nat) (i : Nat) : List Nat :=
  match l.getLast? with
  | none => l
  | some last => (l.set i last).dropLast

/-- `iter().position(|ix| *ix == node)`. -/
def position (l : List Nat) (node : Nat) : Option Nat := l.findIdx? (· == node)

/-- `iter().position_min()`: the first of the smallest. -/
def positionMin (l : List Nat) : Option Nat :=
  l.findIdx? (fun x => l.all (fun y => decide (x ≤ y)))

mutual

/-- The loop over the stack in `create_subselection` (`requires.rs` 100-134). The graph has no cycle,
but nothing in its type says so: `fuel` bounds the depth. -/
def subStack (g : Graph) : Nat → List Nat → List Nat → List (Item Data) → Out (List (Item Data) × List Nat)
  | 0, _, _, _ => .err
  | _ + 1, [], deps, acc => .ok (acc, deps)
  | fuel + 1, parent :: stack, deps, acc => subEdges g fuel (g.edges parent) stack deps acc

/-- The loop over the edges of a node (`requires.rs` 103-132). -/
def subEdges (g : Graph) : Nat → List Edge → List Nat → List Nat → List (Item Data) →
    Out (List (Item Data) × List Nat)
  | 0, _, _, _, _ => .err
  | fuel + 1, [], stack, deps, acc => subStack g fuel stack deps acc
  | fuel + 1, .other :: es, stack, deps, acc => subEdges g fuel es stack deps acc
  | fuel + 1, .partition t :: es, stack, deps, acc => subEdges g fuel es (t :: stack) deps acc
  | fuel + 1, .field t :: es, stack, deps, acc =>
    match position deps t with
    | none => subEdges g fuel es stack deps acc
    | some i =>
      match g.field t with
      | none => .panic
      | some (id, d) =>
        match subStack g fuel [t] (swapRemove deps i) [] with
        | .err => .err
        | .panic => .panic
        | .ok (sub, deps) => subEdges g fuel es stack deps (acc ++ [.mk id d (ofVec sub)])

end

/-- The loop of `create_required_field_set` (`requires.rs` 58-91). -/
def requiredLoop (g : Graph) (depth : Nat) : Nat → List Nat → List (Item Data) → Out (List (Item Data))
  | 0, _, _ => .err
  | fuel + 1, deps, acc =>
    match positionMin deps with
    | none => .ok (ofVec acc)
    | some i =>
      match deps[i]? with
      | none => .panic
      | some node =>
        match g.field node with
        | none => .panic
        | some (id, d) =>
          match subStack g depth [node] (swapRemove deps i) [] with
          | .err => .err
          | .panic => .panic
          | .ok (sub, deps) =>
            if sub.isEmpty && g.composite id then requiredLoop g depth fuel deps acc
            else requiredLoop g depth fuel deps (acc ++ [.mk id d (ofVec sub)])

/-- `create_required_field_set` (`requires.rs` 39-92). -/
def createRequired (g : Graph) (depth : Nat) (deps : List Nat) : Out (List (Item Data)) :=
  requiredLoop g depth (deps.length + 1) deps []

end Verif.Views
