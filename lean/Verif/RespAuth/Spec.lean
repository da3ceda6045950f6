import Verif.RespAuth.Model

/-!
# What denials should do

A denial is a position in the response.  `Without` says what the response is without the denied
positions.
-/
namespace Verif.RespAuth

open Verif.NullProp
open Verif.DefaultMerge (Key)

/-- A position in the response, innermost first; the flag says whether the type is nullable. -/
abbrev Pos := List (Seg × Bool)

/-- The position itself if it may be null, or else its nearest ancestor that may; `none` is the whole
of the data. -/
def nearest : Pos → Option (List Seg)
  | [] => none
  | (s, true) :: p => some (s :: p.map (·.1))
  | (_, false) :: p => nearest p

/-- A denied position and the error. -/
structure Denial where
  pos : Pos
  err : Nat

/-- The position of the object. -/
def posOf (ref : Ref) : Pos := ref.path.map fun v => (seg v, v.nullable)

/-- What is denied of an object: the field or the object. -/
def denied (rule : Rule) (t : Target) (ref : Ref) : Pos :=
  match rule with
  | .field => (.key t.key.key, !t.required) :: posOf ref
  | .output => posOf ref

/-- The objects a decision denies, with the error for each. -/
inductive Denies (refs : List Ref) : Decisions → List (Ref × Nat) → Prop where
  | grantAll : Denies refs .grantAll []
  | denyAll {e} : Denies refs (.denyAll e) (refs.map fun r => (r, e))
  | failed {e} : Denies refs (.failed e) (refs.map fun r => (r, e))
  | denySome {els errors ds} : els.length = ds.length →
    (∀ (n : Nat) el d, els[n]? = some el → ds[n]? = some d → refs[el.1]? = some d.1 ∧ errors[el.2]? = some d.2) →
    Denies refs (.denySome els errors) ds

/-- The objects a target is about: the ones of the set that have the type. -/
def Concerns (sets : Sets) (t : Target) (refs : List Ref) : Prop :=
  ∃ all, sets.refs t.set = some all ∧
    refs = if sets.ty t.set = t.ty then all else all.filter fun r => sets.possible t.ty r.ty

/-- All the denials of the modifiers. -/
inductive AllDenials (sets : Sets) : List (Rule × Target × Decisions) → List Denial → Prop where
  | nil : AllDenials sets [] []
  | skip {rule t d ms ds} : sets.refs t.set = none → AllDenials sets ms ds → AllDenials sets ((rule, t, d) :: ms) ds
  | empty {rule t d ms ds} : Concerns sets t [] → AllDenials sets ms ds → AllDenials sets ((rule, t, d) :: ms) ds
  | cons {rule t d ms ds refs rs} : Concerns sets t refs → refs ≠ [] → Denies refs d rs → AllDenials sets ms ds →
    AllDenials sets ((rule, t, d) :: ms) (rs.map (fun r => ⟨denied rule t r.1, r.2⟩) ++ ds)

/-- `Without D p o o'`: at position `p` is `o`, and `o'` is `o` with null at the positions `D` and the
rest unchanged. -/
inductive Without (D : List Seg → Prop) : List Seg → Out → Out → Prop where
  | denied {p o} : D p → Without D p o .null
  | null {p} : Without D p .null .null
  | leaf {p l} : ¬ D p → Without D p (.leaf l) (.leaf l)
  | list {p os os'} : ¬ D p → os.length = os'.length →
    (∀ (i : Nat) o o', os[i]? = some o → os'[i]? = some o' → Without D (.ix i :: p) o o') →
    Without D p (.list os) (.list os')
  | obj {p fs fs'} : ¬ D p → fs.map (·.1) = fs'.map (·.1) →
    (∀ (i : Nat) k o o', fs[i]? = some (k, o) → fs'[i]? = some (k, o') → Without D (.key k :: p) o o') →
    Without D p (.obj fs) (.obj fs')

/-- The value of a field, the first if there are several. -/
def findKey (k : Nat) : List (Nat × Out) → Option Out
  | [] => none
  | (k', o) :: fs => if k' = k then some o else findKey k fs

/-- The value at a path from the root, outermost first. -/
def valueAt : List Seg → Out → Option Out
  | [], o => some o
  | .key k :: q, .obj fs => (findKey k fs).bind (valueAt q)
  | .ix i :: q, .list os => (os[i]?).bind (valueAt q)
  | _ :: _, _ => none

/-! ## Responses and references -/

/-- Following hidden values. -/
inductive Deref (ps : List Data) : Val → Val → Prop where
  | here {v} : (∀ c, v ≠ .inacc c) → Deref ps v v
  | step {c v w} : getInacc ps c = some v → Deref ps v w → Deref ps (.inacc c) w

/-- The value a path leads to, from the root object. -/
inductive Reaches (ps : List Data) (root : Id) : List VId → Val → Prop where
  | root : Reaches ps root [] (.obj root)
  | field {p o F f n w} : Reaches ps root p (.obj o) → getObj ps o = some F → f ∈ F → Deref ps f.value w →
    Reaches ps root (.field o f.key n :: p) w
  | index {p l vs i v n w} : Reaches ps root p (.list l) → getList ps l = some vs → vs[i]? = some v → Deref ps v w →
    Reaches ps root (.index l i n :: p) w

/-- The response is a tree: no object or list is at two positions, and no object has a response key
twice. -/
structure Tree (ps : List Data) (root : Id) : Prop where
  objs : ∀ p p' o, Reaches ps root p (.obj o) → Reaches ps root p' (.obj o) → p.map seg = p'.map seg
  lists : ∀ p p' l, Reaches ps root p (.list l) → Reaches ps root p' (.list l) → p.map seg = p'.map seg
  keys : ∀ o F, getObj ps o = some F → (F.map (·.key.key)).Nodup

/-- The references lead to the objects, and the objects have the fields the rules are about. -/
structure Tracked (sets : Sets) (ps : List Data) (root : Id) (ms : List (Rule × Target × Decisions)) : Prop where
  refs : ∀ m ∈ ms, ∀ all, sets.refs m.2.1.set = some all → ∀ ref ∈ all, Reaches ps root ref.path (.obj ref.id)
  fields : ∀ m ∈ ms, m.1 = .field → m.2.1.required = false → ∀ all, sets.refs m.2.1.set = some all → ∀ ref ∈ all,
    (sets.ty m.2.1.set = m.2.1.ty ∨ sets.possible m.2.1.ty ref.ty = true) →
    ∃ F, getObj ps ref.id = some F ∧ ∃ f ∈ F, f.key = m.2.1.key

end Verif.RespAuth
