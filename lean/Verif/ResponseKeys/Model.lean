/-!
# Response keys of subgraph queries

Model of `crates/engine/query-solver/src/post_process/response_key.rs`.

A response key is the index of its string in `Operation::response_keys` (an interner).  The graph traversal
(lines 71-120) is not modelled: it hands the fields of one selection set after the other to
`adjust_response_keys_to_avoid_collision_in_selection_set`, and the theorems hold for every sequence of selection
sets.
-/
namespace Verif.ResponseKeys

/-- What is used of a `FieldDefinition`: its id, its name (id and text), the definition of its type, and the
subgraphs in `subgraph_type_records`. -/
structure Definition where
  id : Nat
  nameId : Nat
  name : List Char
  ty : Nat
  distinctIn : List Nat
  deriving DecidableEq, Repr

/-- `FieldRenameConsistencyKey`, lines 39-48. -/
inductive RenameKey where
  | distinctType (key : Nat) (definition : Nat)
  | typename (ty : Nat)
  deriving DecidableEq, Repr

/-- The parts that change: `operation.response_keys`, `field_renames`, the `response_key` of each query field and
`field_to_subgraph_key`. -/
structure St where
  names : List (List Char)
  renames : List (RenameKey × Nat)
  keys : List (Option Nat)
  subgraphKeys : List (Option Nat)
  deriving DecidableEq, Repr

/-- The parent type: whether it is an object, and the name ids of its fields if it is an interface. -/
structure Parent where
  isObject : Bool
  interfaceFields : Option (List Nat)
  deriving DecidableEq, Repr

/-- A field of a selection set: the subgraph it is requested from and its query field. -/
abbrev SetField := Nat × Nat

def typenameStr : List Char := ['_', '_', 't', 'y', 'p', 'e', 'n', 'a', 'm', 'e']

/-- `response_keys.get`, operation/src/model/response_key.rs:113-115. -/
def getKey (names : List (List Char)) (s : List Char) : Option Nat := names.findIdx? fun n => decide (n = s)

/-- `response_keys.get_or_intern`, operation/src/model/response_key.rs:117-119. -/
def getOrIntern (names : List (List Char)) (s : List Char) : List (List Char) × Nat :=
  match getKey names s with
  | some k => (names, k)
  | none => (names ++ [s], names.length)

def hexDigit (n : Nat) : Char :=
  ['0', '1', '2', '3', '4', '5', '6', '7', '8', '9', 'A', 'B', 'C', 'D', 'E', 'F'].getD n '0'

/-- `hex::encode_upper(i.to_be_bytes())` of a `u8`. -/
def hex8 (i : Nat) : List Char := [hexDigit (i / 16 % 16), hexDigit (i % 16)]

/-- `hex::encode_upper(u32.to_be_bytes()).trim_start_matches('0')`, lines 314-316. -/
def shortId (n : Nat) : List Char :=
  (hex8 (n / 2 ^ 24) ++ hex8 (n / 2 ^ 16) ++ hex8 (n / 2 ^ 8) ++ hex8 n).dropWhile fun c => decide (c = '0')

/-- Lines 318 and 323. -/
def candidate (d : Definition) (i : Nat) : List Char := '_' :: d.name ++ shortId d.nameId ++ hex8 i

/-- The loop of lines 320-337 from `i` on, with `left` iterations before `i` wraps to 0; `none` is the
`unimplemented!`. -/
def freshLoop (names : List (List Char)) (d : Definition) : Nat → Nat → Option (List Char)
  | 0, _ => none
  | left + 1, i =>
    if (getKey names (candidate d i)).isNone then some (candidate d i) else freshLoop names d left (i + 1)

/-- `field_renames.insert`, lines 301-303 and 328-330. -/
def addRename (renames : List (RenameKey × Nat)) (rename : Option RenameKey) (k : Nat) : List (RenameKey × Nat) :=
  match rename with
  | some rk => (rk, k) :: renames
  | none => renames

/-- Lines 299-304 and 326-331: intern the name and remember it for the rename. -/
def intern (st : St) (rename : Option RenameKey) (s : List Char) : St × Nat :=
  let r := getOrIntern st.names s
  ({ st with names := r.1, renames := addRename st.renames rename r.2 }, r.2)

/-- `generate_new_key`, lines 286-339. -/
def generateNewKey (st : St) (setKeys : List Nat) (rename : Option RenameKey) (d : Definition) : Option (St × Nat) :=
  match rename.bind fun k => st.renames.lookup k with
  | some key => some (st, key)
  | none =>
    match getKey st.names d.name with
    | none => some (intern st rename d.name)
    | some key =>
      if rename.isNone ∧ key ∉ setKeys then some (st, key)
      else (freshLoop st.names d 256 0).map fun s => intern st rename s

/-- Lines 135-159: the rename a client field needs, if any. -/
def renameFor (names : List (List Char)) (parent : Parent) (subgraph : Nat) (key : Nat) (d : Definition) : Option RenameKey :=
  if !parent.isObject ∧ subgraph ∈ d.distinctIn then some (.distinctType key d.id)
  else if names[key]? = some typenameStr then some (.typename d.ty)
  else none

/-- One iteration of the first loop, lines 128-165. `keys` are the keys of the selection set so far. -/
def renameStep (defs : Nat → Option Definition) (parent : Parent) (acc : St × List Nat) (f : SetField) :
    Option (St × List Nat) :=
  let st := acc.1
  match (st.keys[f.2]?).join, defs f.2 with
  | some key, some d =>
    match renameFor st.names parent f.1 key d with
    | none => some acc
    | some rk =>
      (generateNewKey st acc.2 (some rk) d).map fun r =>
        ({ r.1 with subgraphKeys := r.1.subgraphKeys.set f.2 (some r.2) }, acc.2 ++ [r.2])
  | _, _ => some acc

/-- Lines 179-200: the key of another field of the selection set with the same name, on an interface that has a
field of that name. -/
def reuse (defs : Nat → Option Definition) (parent : Parent) (st : St) (set : List SetField) (d : Definition) : Option Nat :=
  if (parent.interfaceFields.map fun l => decide (d.nameId ∈ l)).getD false then
    set.findSome? fun o =>
      match (st.keys[o.2]?).join, defs o.2 with
      | some k, some d' => if d'.nameId = d.nameId then some k else none
      | _, _ => none
  else none

/-- One iteration of the second loop, lines 169-205. -/
def extraStep (defs : Nat → Option Definition) (parent : Parent) (set : List SetField) (acc : St × List Nat) (f : SetField) :
    Option (St × List Nat) :=
  let st := acc.1
  match (st.keys[f.2]?).join, defs f.2 with
  | none, some d =>
    match reuse defs parent st set d with
    | some k => some ({ st with keys := st.keys.set f.2 (some k) }, acc.2)
    | none =>
      (generateNewKey st acc.2 none d).map fun r =>
        ({ r.1 with keys := r.1.keys.set f.2 (some r.2) }, acc.2 ++ [r.2])
  | _, _ => some acc

/-- `adjust_response_keys_to_avoid_collision_in_selection_set`, lines 122-206, with the keys collected by
`push_field`, lines 62-67. -/
def adjustSet (defs : Nat → Option Definition) (st : St) (parent : Parent) (set : List SetField) : Option St := do
  let keys := set.filterMap fun f => (st.keys[f.2]?).join
  let acc ← set.foldlM (renameStep defs parent) (st, keys)
  let acc ← set.foldlM (extraStep defs parent set) acc
  pure acc.1

/-- `adjust_response_keys_to_avoid_collisions`, lines 14-30 and 71-120, for the selection sets of the traversal. -/
def adjustAll (defs : Nat → Option Definition) (st : St) (sets : List (Parent × List SetField)) : Option St :=
  sets.foldlM (fun st p => adjustSet defs st p.1 p.2) st

/-- The key a field has in the subgraph query. -/
def St.subgraphKey (st : St) (id : Nat) : Option Nat := ((st.subgraphKeys[id]?).join).or ((st.keys[id]?).join)

end Verif.ResponseKeys
