import Verif.Views.Model

/-!
# Views of the response: what is claimed

The statements of C72 are about

* the *paths* of a tree of fields (`HasPath`);
* trees in which a field occurs at most once below each field, in order (`Strict`);
* how a value is shown, given how its objects are (`Shown`);
* responses that agree on the required fields (`AgreeOn`);
* the required fields cut down to a field set (`restrict`);
* the value a selection describes, read by looking its fields up (`meaning`).
-/

namespace Verif.Views

/-- The fields `p` of a path are in the tree, each below the one before. -/
def HasPath {α : Type} : List Nat → List (Item α) → Prop
  | [], _ => True
  | i :: p, items => ∃ it ∈ items, it.id = i ∧ HasPath p it.sub

/-- The ids increase, at every level. -/
inductive Strict {α : Type} : List (Item α) → Prop where
  | nil : Strict []
  | cons (i : Item α) (is : List (Item α)) (sub : Strict i.sub) (lt : ∀ j ∈ is, i.id < j.id) (rest : Strict is) :
    Strict (i :: is)

/-- The field of the operation at a path. -/
def dataAt {α : Type} : List Nat → List (Item α) → Option α
  | [], _ => none
  | [i], items => (items.find? (fun it => it.id == i)).map (·.data)
  | i :: p, items => (items.find? (fun it => it.id == i)).bind (fun it => dataAt p it.sub)

mutual

/-- The value `v` is shown as `j` when its objects are shown as `P` says: a leaf as it is, a list item
by item, what is inaccessible like anything else. What is unexpected cannot be shown. -/
def Shown (P : Obj → Json → Prop) : Val → Json → Prop
  | .null, j => j = .null
  | .leaf s, j => j = .leaf s
  | .unexpected, _ => False
  | .inaccessible v, j => Shown P v j
  | .list vs, j => ∃ js, j = .list js ∧ ShownList P vs js
  | .map kvs, j => ∃ es, j = .obj es ∧ ShownMap P kvs es
  | .object d fs, j => P ⟨d, fs⟩ j

def ShownList (P : Obj → Json → Prop) : List Val → List Json → Prop
  | [], js => js = []
  | v :: vs, js => ∃ j rest, js = j :: rest ∧ Shown P v j ∧ ShownList P vs rest

def ShownMap (P : Obj → Json → Prop) : List (String × Val) → List (String × Json) → Prop
  | [], es => es = []
  | kv :: kvs, es => ∃ j rest, es = (kv.1, j) :: rest ∧ ShownEntry P kv j ∧ ShownMap P kvs rest

def ShownEntry (P : Obj → Json → Prop) : String × Val → Json → Prop
  | (_, v), j => Shown P v j

end

/-- A field that is not in the object does not concern it: the definition of the object is known, and
it is not one the field is defined for. -/
def Foreign (d : Data) (o : Obj) : Prop :=
  ∃ id, o.definition = some id ∧
    match d.parent with
    | .object obj => obj ≠ id
    | .interface possible => id ∉ possible

/-- One after the other, in the same order. -/
inductive Pairs {α β : Type} (R : α → β → Prop) : List α → List β → Prop where
  | nil : Pairs R [] []
  | cons (a : α) (b : β) (as : List α) (bs : List β) (h : R a b) (t : Pairs R as bs) : Pairs R (a :: as) (b :: bs)

/-- The entry of the required field `r` of the object `o`: under the name of its definition, its value
with the objects cut down to what is required of them. -/
def EntryFor (o : Obj) (r : Item Data) (e : String × Json) : Prop :=
  e.1 = r.data.name ∧ ∃ v, o.find r.data.key = some v ∧ Shown (fun o j => required r.sub o = .ok j) v e.2

/-! ## Responses that agree -/

mutual

/-- The same shape, with objects related by `P`. -/
def AgreeVal (P : Obj → Obj → Prop) : Val → Val → Prop
  | .null, w => w = .null
  | .leaf s, w => w = .leaf s
  | .unexpected, w => w = .unexpected
  | .inaccessible v, w => ∃ w', w = .inaccessible w' ∧ AgreeVal P v w'
  | .list vs, w => ∃ ws, w = .list ws ∧ AgreeList P vs ws
  | .map kvs, w => ∃ es, w = .map es ∧ AgreeMap P kvs es
  | .object d fs, w => ∃ d' fs', w = .object d' fs' ∧ P ⟨d, fs⟩ ⟨d', fs'⟩

def AgreeList (P : Obj → Obj → Prop) : List Val → List Val → Prop
  | [], ws => ws = []
  | v :: vs, ws => ∃ w rest, ws = w :: rest ∧ AgreeVal P v w ∧ AgreeList P vs rest

def AgreeMap (P : Obj → Obj → Prop) : List (String × Val) → List (String × Val) → Prop
  | [], es => es = []
  | kv :: kvs, es => ∃ w rest, es = (kv.1, w) :: rest ∧ AgreeEntry P kv w ∧ AgreeMap P kvs rest

def AgreeEntry (P : Obj → Obj → Prop) : String × Val → Val → Prop
  | (_, v), w => AgreeVal P v w

end

mutual

/-- Two objects with the same definition and the same required fields, whatever their other fields. -/
def AgreeOn : List (Item Data) → Obj → Obj → Prop
  | [], o, o' => o.definition = o'.definition
  | i :: is, o, o' => AgreeField i o o' ∧ AgreeOn is o o'

def AgreeField : Item Data → Obj → Obj → Prop
  | .mk _ d sub, o, o' =>
    match o.find d.key, o'.find d.key with
    | none, none => True
    | some v, some w => AgreeVal (AgreeOn sub) v w
    | _, _ => False

end

/-! ## Cutting the required fields down -/

mutual

/-- The required fields for the paths of the field set, in the order of the field set. -/
def restrict : List (Item Unit) → List (Item Data) → List (Item Data)
  | [], _ => []
  | f :: fs, reqs => restrictField f (reqs.find? (fun r => r.id == f.id)) ++ restrict fs reqs

def restrictField : Item Unit → Option (Item Data) → List (Item Data)
  | _, none => []
  | .mk _ _ sub, some r => [.mk r.id r.data (restrict sub r.sub)]

end

/-! ## What a selection describes -/

/-- The object at the end of a path, through lists. -/
def readPath : List Nat → (List (Item Data) → Obj → Out Json) → List (Item Data) → Obj → Out Json
  | [], k, reqs, o => k reqs o
  | f :: p, k, reqs, o =>
    match reqs.find? (fun r => r.id == f) with
    | none => .err
    | some r =>
      match o.find r.data.key with
      | none => .err
      | some v => forward (readPath p k r.sub) v

/-- The fields a selection goes through. -/
def spine : Sel → List Nat
  | .identity => []
  | .path first rest => first :: rest
  | .object path _ => path
  | .list path item => path ++ spine item
  | .several => []

def spineOf : FieldSel → List Nat
  | .value s => spine s
  | .field id => [id]
  | .default _ => []

/-- One after the other, until the first that fails. -/
def inOrder : List (Out (List (String × Json))) → Out (List (String × Json))
  | [] => .ok []
  | e :: es => e.bind fun e => (inOrder es).map (e ++ ·)

/-- The entry of the key whose value is described by a path and what is at its end. The first field
may be missing when it does not concern the object. -/
def entryAt (name : String) (k : List (Item Data) → Obj → Out Json) : List Nat → List (Item Data) → Obj →
    Out (List (String × Json))
  | [], reqs, o => (k reqs o).map (fun j => [(name, j)])
  | f :: p, reqs, o =>
    match reqs.find? (fun r => r.id == f) with
    | none => .err
    | some r =>
      match o.find r.data.key with
      | none => if skipped r.data o then .ok [] else .err
      | some v => (forward (readPath p k r.sub) v).map (fun j => [(name, j)])

mutual

/-- What is at the end of the path of a selection: a scalar, which no object is, or an object made of
its fields, those with a path after the others and by the first field of the path. -/
def endOf (names : Nat → String) : Sel → List (Item Data) → Obj → Out Json
  | .identity, _, _ => .panic
  | .path _ _, _, _ => .panic
  | .object _ fields, reqs, o =>
    (inOrder ((OpChecks.sortBy (fun a b => keyLe a.1 b.1) (entriesOf names fields reqs o)).map (·.2))).map .obj
  | .list _ item, reqs, o => endOf names item reqs o
  | .several, _, _ => .err

def entriesOf (names : Nat → String) : List (Nat × FieldSel) → List (Item Data) → Obj →
    List ((Option Nat × Nat) × Out (List (String × Json)))
  | [], _, _ => []
  | f :: fs, reqs, o => entryOf names f reqs o :: entriesOf names fs reqs o

def entryOf (names : Nat → String) : Nat × FieldSel → List (Item Data) → Obj →
    (Option Nat × Nat) × Out (List (String × Json))
  | (key, .value s), reqs, o => (((spine s).head?, key), entryAt (names key) (endOf names s) (spine s) reqs o)
  | (key, .field id), reqs, o => ((some id, key), entryAt (names key) (fun _ _ => .panic) [id] reqs o)
  | (key, .default j), _, _ => ((none, key), .ok [(names key, j)])

end

/-- The value a selection describes for an object. -/
def meaning (names : Nat → String) (s : Sel) : List (Item Data) → Obj → Out Json :=
  readPath (spine s) (endOf names s)

/-! ## Solutions, and sets in them -/

mutual

/-- The nodes of all the fields of a set, at every level. -/
def nodesOf : List (Item Data) → List Nat
  | [] => []
  | i :: is => nodesIn i ++ nodesOf is

def nodesIn : Item Data → List Nat
  | .mk _ d sub => d.node :: nodesOf sub

end

/-- The field is directly below the node: its own or one of a partition below it. -/
inductive Under (g : Graph) : Nat → Nat → Prop where
  | field (p t : Nat) (h : Edge.field t ∈ g.edges p) : Under g p t
  | partition (p q t : Nat) (h : Edge.partition q ∈ g.edges p) (u : Under g q t) : Under g p t

/-- The fields of the graph know their node. -/
def Labelled (g : Graph) : Prop := ∀ n id d, g.field n = some (id, d) → d.node = n

mutual

/-- The items of a set stand for their nodes, and those below an item are for fields directly below
its node. -/
def Placed (g : Graph) : List (Item Data) → Prop
  | [] => True
  | i :: is => PlacedItem g i ∧ Placed g is

def PlacedItem (g : Graph) : Item Data → Prop
  | .mk id d sub => g.field d.node = some (id, d) ∧ (∀ s ∈ sub, Under g d.node s.data.node) ∧ Placed g sub

end

/-- The required fields are below required fields with a smaller number ("created in depth order"). -/
def Increasing (g : Graph) (deps : List Nat) : Prop := ∀ p ∈ deps, ∀ t ∈ deps, Under g p t → p < t

mutual

/-- Sorted at every level. -/
def Sorted : List (Item Data) → Prop
  | [] => True
  | i :: is => SortedItem i ∧ (∀ j ∈ is, i.id ≤ j.id) ∧ Sorted is

def SortedItem : Item Data → Prop
  | .mk _ _ sub => Sorted sub

end

/-- Two dependencies directly below the same node are for different schema fields. -/
def Apart (g : Graph) (deps : List Nat) : Prop :=
  ∀ p s t id d e, s ∈ deps → t ∈ deps → Under g p s → Under g p t → g.field s = some (id, d) →
    g.field t = some (id, e) → s = t

/-- The two fields are shown the same way. -/
def SameData (a b : Data) : Prop := a.key = b.key ∧ a.name = b.name ∧ a.parent = b.parent

/-- The fields of the operation agree where both trees have one. -/
def Consistent (a b : List (Item Data)) : Prop :=
  ∀ p d e, dataAt p a = some d → dataAt p b = some e → SameData d e

end Verif.Views
