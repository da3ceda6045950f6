import Verif.Derived.Model

/-!
# What derived entities are to be
-/
namespace Verif.Derived

/-- The value under a response key. -/
def under : List RField → Nat → Option Value
  | [], _ => none
  | f :: fs, n => if f.key.name = n then some f.value else under fs n

/-- Keys which are not asked for are first, the others in the order of the query. -/
def Before (a b : Key) : Prop :=
  (a.pos = none ∧ b.pos ≠ none) ∨ (a.pos = b.pos ∧ a.name < b.name) ∨ ∃ p q, a.pos = some p ∧ b.pos = some q ∧ p < q

/-- The fields of an entity: each has the value of the field it is derived from, if there is one; `__typename` the name of the type. -/
structure Entity (shape : Shape) (src fs : List RField) : Prop where
  ordered : fs.Pairwise (fun a b => Before a.key b.key)
  has : ∀ k v, ⟨k, v⟩ ∈ fs ↔ (∃ f ∈ shape.fields, f.key = k ∧ under src f.expected = some v) ∨
    (k ∈ shape.typenames ∧ ∃ t, shape.type = some t ∧ v = .typename t)

/-- The fields of an entity of which a value is the key. -/
structure ScalarEntity (shape : Shape) (key : Key) (value : Value) (fs : List RField) : Prop where
  ordered : fs.Pairwise (fun a b => Before a.key b.key)
  has : ∀ k v, ⟨k, v⟩ ∈ fs ↔ (k = key ∧ v = value) ∨ (k ∈ shape.typenames ∧ ∃ t, shape.type = some t ∧ v = .typename t)

/-- There is nothing an entity could be found with. -/
def Nothing (shape : Shape) (src : List RField) : Prop :=
  ∀ f ∈ shape.fields, ∀ v, under src f.expected = some v → v = .null ∨ v = .unexpected

/-- The shapes the planner makes. -/
structure ShapeOk (shape : Shape) : Prop where
  keys : (shape.fields.map DField.key ++ shape.typenames).Nodup
  ids : shape.fields.Pairwise (fun a b => a.id < b.id)
  type : shape.typenames ≠ [] ∨ shape.set ≠ none → shape.type ≠ none

def Sorted (t : Table) : Prop := t.Pairwise (fun a b => a.1 ≤ b.1)

/-! ## What is reported -/

/-- The value nearest to the end of a path that may be null. -/
def deepest : Path → Option Seg
  | [] => none
  | .field o k n :: p => (deepest p).or (if n then some (.field o k n) else none)
  | .index l i n :: p => (deepest p).or (if n then some (.index l i n) else none)

/-- Errors, and values to be null; or the whole response. -/
structure Told where
  errs : List Err
  nulls : List Seg
  root : Bool

def Told.nothing : Told := ⟨[], [], false⟩
def Told.and (a b : Told) : Told := ⟨a.errs ++ b.errs, a.nulls ++ b.nulls, a.root || b.root⟩

/-- Errors, and null `n` times at what may be null on a path. -/
def told (path : Path) (errs : List Err) (n : Nat) : Told :=
  match deepest path with
  | some s => ⟨errs, List.replicate n s, false⟩
  | none => ⟨errs, [], decide (0 < n)⟩

/-- The errors of the query for a field. -/
def queryErrs : Table → Nat → List Nat
  | [], _ => []
  | x :: t, id => if x.1 = id then x.2 :: queryErrs t id else queryErrs t id

/-- The value for a field is missing or is not of its type, and no error tells it yet. -/
def Unreported (src : List RField) (f : DField) : Prop :=
  f.report = true ∧ (under src f.expected = none ∨ (under src f.expected = some .unexpected ∧ f.fromAsked = false))

/-- The value for a field is missing, or is not of its type and must not be null. -/
def Nulls (src : List RField) (f : DField) : Prop :=
  f.report = true ∧ (under src f.expected = none ∨ (under src f.expected = some .unexpected ∧ f.nonNull = true))

open Classical in
noncomputable def fieldTold (table : Table) (path : Path) (src : List RField) (f : DField) : Told :=
  told path ((queryErrs table f.id).map (fun e => ⟨.query e, path, some f.key.name⟩) ++
      (if Unreported src f then [⟨.invalidResponse, path, some f.key.name⟩] else []))
    ((if f.nonNull then (queryErrs table f.id).length else 0) + (if Nulls src f then 1 else 0))

noncomputable def fieldsTold (table : Table) (path : Path) (src : List RField) : List DField → Told
  | [] => .nothing
  | f :: fs => (fieldTold table path src f).and (fieldsTold table path src fs)

/-- An unexpected value for a list or an item of it. -/
def unexpectedTold (o : Outer) (b : Batch) (path : Path) (nullable : Bool) : Told :=
  if o.report then
    told path (if b.key.pos = none then [⟨.invalidResponse, path, none⟩] else []) (if nullable then 0 else 1)
  else .nothing

noncomputable def itemTold (table : Table) (o : Outer) (b : Batch) (objects : List Obj) (path : Path) : Value → Told
  | .unexpected => unexpectedTold o b path (!b.innerRequired)
  | .object id =>
    match objects[id]? with
    | some obj => fieldsTold table path obj.fields o.shape.fields
    | none => .nothing
  | _ => .nothing

def scalarTold (o : Outer) (b : Batch) (path : Path) : Value → Told
  | .unexpected => unexpectedTold o b path (!b.innerRequired)
  | _ => .nothing

/-- For items, the first of which is the `i`-th. -/
def itemsTold (item : Path → Value → Told) (nullable : Bool) (path : Path) (list : Nat) : Nat → List Value → Told
  | _, [] => .nothing
  | i, v :: vs => (item (path ++ [.index list i nullable]) v).and (itemsTold item nullable path list (i + 1) vs)

/-- The objects which are made known to other plans. -/
def refsOf (shape : Shape) (path : Path) : Value → List Ref
  | .object id =>
    match shape.set, shape.type with
    | some s, some t => [⟨s, id, path, t⟩]
    | _, _ => []
  | _ => []

def itemRefs (shape : Shape) (nullable : Bool) (path : Path) (list : Nat) : Nat → List Value → List Ref
  | _, [] => []
  | i, v :: vs => refsOf shape (path ++ [.index list i nullable]) v ++ itemRefs shape nullable path list (i + 1) vs

/-- What was told is in the response, which has the same lists as before. -/
structure Reports (t : Told) (st st' : St) : Prop where
  errors : st'.errors = st.errors ++ t.errs
  nulls : st'.nulls = st.nulls ++ t.nulls
  root : st'.root = (st.root || t.root)
  lists : st'.lists = st.lists
  hidden : st'.hidden = st.hidden

/-- The value for an entity derived from some fields, or null. -/
def IsEntity (shape : Shape) (nullable : Bool) (src : List RField) (objects : List Obj) (w : Value) : Prop :=
  (nullable = true ∧ Nothing shape src ∧ w = .null) ∨
  (¬ (nullable = true ∧ Nothing shape src) ∧ ∃ d fs, w = .object d ∧ objects[d]? = some ⟨shape.type, fs⟩ ∧ Entity shape src fs)

/-- An item of a list of entities. -/
inductive Item (shape : Shape) (nullable : Bool) (before after : List Obj) : Value → Value → Prop where
  | null : Item shape nullable before after .null .null
  | unexpected : Item shape nullable before after .unexpected .unexpected
  | object {id : Nat} {obj : Obj} {w : Value} : before[id]? = some obj → IsEntity shape nullable obj.fields after w →
      Item shape nullable before after (.object id) w

/-- An item of a list of entities, the keys of which are values. -/
inductive ScalarItem (shape : Shape) (key : Key) (after : List Obj) : Value → Value → Prop where
  | null : ScalarItem shape key after .null .null
  | unexpected : ScalarItem shape key after .unexpected .unexpected
  | value {v : Value} {d : Nat} {fs : List RField} : v ≠ .null → v ≠ .unexpected → after[d]? = some ⟨shape.type, fs⟩ →
      ScalarEntity shape key v fs → ScalarItem shape key after v (.object d)

/-- The errors of required fields which are missing: null is propagated once. -/
def missingTold (path : Path) (had : List RField) (ps : List Plain) (propagated : Bool) : Told :=
  let wrong := ps.filter (fun p => decide (p.present = true ∧ p.nonNull = true ∧ p.key.pos ≠ none ∧ ∀ f ∈ had, f.key ≠ p.key))
  told path (wrong.map (fun p => ⟨.invalidResponse, path, some p.key.name⟩)) (if propagated ∨ wrong = [] then 0 else 1)

/-- The errors of the query for fields: null is propagated once. -/
def shapesTold (path : Path) (table : Table) (fs : List (Nat × Key × Bool)) (propagated : Bool) : Told :=
  told path (fs.flatMap (fun f => (queryErrs table f.1).map (fun e => ⟨.query e, path, some f.2.1.name⟩)))
    (if propagated ∨ ∀ f ∈ fs, f.2.2 = true → queryErrs table f.1 = [] then 0 else 1)

/-- The value of the first field with a key. -/
def valueAt (k : Key) : List RField → Option Value
  | [] => none
  | f :: fs => if f.key = k then some f.value else valueAt k fs

end Verif.Derived
