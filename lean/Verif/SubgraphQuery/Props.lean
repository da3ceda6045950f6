import Verif.SubgraphQuery.Lemmas
/-! C59: the selection sets sent to a subgraph. -/
namespace Verif.SubgraphQuery
open Verif.PossibleTypes

/-- For the objects a subgraph may return, a path of fields is requested exactly if the plan wants it. Partial: within objects all
fields must apply to the object, and within entities all objects of an interface must implement it in the subgraph. -/
theorem C59_requested_partial (sdl : Sdl) (order : List Nat) (hs : SdlOk sdl) (ho : Visits sdl order) (hc : Consistent sdl) (s : Nat)
    (parent : Option Composite) (typename : Bool) (data lookups : List Field) (hfit : OperationFits sdl s parent data lookups) (p : Path) :
    Sent sdl s parent (writeOperation (build sdl order) s parent typename data lookups) p ↔ Wanted sdl s parent data lookups p :=
  sent_iff hs ho hc p hfit

/-- The selection set is accepted. Partial: interfaces other than the parent must be fully implemented in the subgraph and share an
object with the parent there. -/
theorem C59_accepted_partial (sdl : Sdl) (order : List Nat) (hs : SdlOk sdl) (ho : Visits sdl order) (hc : Consistent sdl) (s : Nat)
    (defined : Composite → Nat → Prop) (parent : Option Composite) (typename : Bool) (data lookups : List Field)
    (hd : DataSound sdl s defined parent data) (hl : LookupsSound sdl s defined parent lookups) :
    AllAccepted sdl s defined parent (writeOperation (build sdl order) s parent typename data lookups) :=
  allAccepted_iff.2 (accepted_set hs ho hc (accepted_items hs ho hc data hd) (accepted_lookups hs ho hc lookups hl))

/-- No braces are empty, whatever the graph and the plan. -/
theorem C59_filled (g : Graph) (s : Nat) (parent : Option Composite) (typename : Bool) (data lookups : List Field) :
    writeOperation g s parent typename data lookups ≠ [] ∧ AllFilled (writeOperation g s parent typename data lookups) :=
  ⟨writeSet_ne _ _ _ _ _, allFilled_iff.2 (filled_set g (filled_items g data) (filled_lookups g lookups))⟩

/-- `__typename` is requested if required. -/
theorem C59_typename (g : Graph) (s : Nat) (parent : Option Composite) (data lookups : List Field) :
    Sel.typename ∈ writeOperation g s parent true data lookups := by
  simp [writeOperation, writeSet]

/-! ## Cases

Objects: 0 `User implements Node & Named`, 1 `Product implements Named`, 2 `Query`. In the subgraph 0 `Product` does not implement
`Named`. -/

def sdl : Sdl where
  subgraphs := [0, 1]
  objects := [⟨[0, 1], [(0, 0), (0, 1)], [0, 1]⟩, ⟨[1], [(1, 1)], [0, 1]⟩, ⟨[], [], [0, 1]⟩]
  interfaces := [⟨[0]⟩, ⟨[0, 1]⟩]
  unions := [⟨[0, 1], [(0, 0), (0, 1)]⟩]
def order : List Nat := [0, 1, 2]

theorem sdl_ok : SdlOk sdl := ⟨by decide, by decide⟩
theorem order_ok : Visits sdl order := ⟨by decide, by
  intro o ho
  have : o = 0 ∨ o = 1 ∨ o = 2 := by simp [sdl] at ho; omega
  rcases this with rfl | rfl | rfl <;> decide⟩

theorem objectIn {o : Nat} (h : o < 3) : ObjectIn sdl 0 o := by
  have : o = 0 ∨ o = 1 ∨ o = 2 := by omega
  rcases this with rfl | rfl | rfl <;> exact ⟨_, rfl, Or.inl (by decide)⟩

theorem sdl_consistent : Consistent sdl := by
  constructor
  · rintro o s i ⟨d, h1, h2⟩
    have ho : o = 0 ∨ o = 1 ∨ o = 2 := by
      have := (List.getElem?_eq_some_iff.1 h1).1
      simp [sdl] at this; omega
    rcases ho with rfl | rfl | rfl <;> cases h1
    · simp at h2
      rcases h2 with ⟨rfl, rfl⟩ | ⟨rfl, rfl⟩
      · exact ⟨by decide, ⟨_, rfl, by decide⟩, ⟨_, rfl, Or.inl (by decide)⟩⟩
      · exact ⟨by decide, ⟨_, rfl, by decide⟩, ⟨_, rfl, Or.inl (by decide)⟩⟩
    · simp at h2
      obtain ⟨rfl, rfl⟩ := h2
      exact ⟨by decide, ⟨_, rfl, by decide⟩, ⟨_, rfl, Or.inl (by decide)⟩⟩
    · cases h2
  · intro u hu s o h
    simp [sdl] at hu
    subst hu
    simp at h
    rcases h with ⟨rfl, rfl⟩ | ⟨rfl, rfl⟩
    · exact ⟨by decide, objectIn (by decide)⟩
    · exact ⟨by decide, objectIn (by decide)⟩

/-- The field `name` of `Named`. -/
def nameField : Field := .mk 7 7 (.interface 1) true false none none false [] []

/-- `{ search { ... on Named { name } } }` where `search` is a union of `User` and `Product`, which does not implement `Named` in the
subgraph. -/
def search : Field := .mk 5 5 (.object 2) true false (some (.union 0)) none true [nameField] []

example : writeOperation (build sdl order) 0 (some (.object 2)) false [search] [] =
    [.field 5 5 (some (.union 0)) [.typename, .on (.object 1) [.field 7 7 none []], .on (.interface 1) [.field 7 7 none []]]] := by rfl

theorem search_fits : OperationFits sdl 0 (some (.object 2)) [search] [] := by
  refine ⟨Or.inr rfl, ?_, trivial⟩
  simp only [DataFits, search, FieldFits, nameField, LookupsFit, Option.none_or, Option.or_none, Field.entity, and_true]
  refine ⟨fun _ => ⟨objectIn (by decide), fun o h => (by cases h; rfl), fun h => (by cases h)⟩, Or.inr trivial, fun _ => ?_, Or.inr trivial⟩
  exact ⟨⟨_, rfl, Or.inl (by decide)⟩, fun o h => (by cases h), fun h => (by cases h)⟩

example : Wanted sdl 0 (some (.object 2)) [search] [] [(2, 5, 5), (1, 7, 7)] :=
  .data (f := search) (t := 2) (show PossibleIn sdl 0 (.object 2) 2 from ⟨rfl, objectIn (by decide)⟩) List.mem_cons_self rfl rfl rfl
    (by simp [search, Field.ty])
    (.data (f := nameField) (show PossibleIn sdl 0 (.union 0) 1 from ⟨_, rfl, by decide⟩) List.mem_cons_self rfl rfl ⟨by decide, _, rfl, by decide⟩ (fun h => absurd rfl h) .nil)

/-- The negation for validity: within `Node`, which only `User` implements, `... on Product { name }` is written. -/
theorem C59_fragment_invalid : ∃ inner, Sel.on (.object 1) inner ∈ writeOperation (build sdl order) 0 (some (.interface 0)) false [nameField] [] ∧
    ¬ Overlap sdl 0 (some (.interface 0)) (.object 1) := by
  refine ⟨[.field 7 7 none []], by exact List.mem_cons_self, ?_⟩
  rintro ⟨t, ⟨d, h1, h2⟩, rfl, _⟩
  cases h1
  revert h2
  decide

/-- The negation for fields of objects: within the union of `User` and `Product`, `... on Product { name }` is written although only
`Named` and the object implementing it in the subgraph have the field there. -/
theorem C59_field_undefined : ∃ defined : Composite → Nat → Prop, defined (.interface 1) 7 ∧
    (∀ o, PossibleIn sdl 0 (.interface 1) o → defined (.object o) 7) ∧
    ¬ AllAccepted sdl 0 defined (some (.union 0)) (writeOperation (build sdl order) 0 (some (.union 0)) false [nameField] []) := by
  refine ⟨fun c _ => c = .interface 1 ∨ c = .object 0, Or.inl rfl, ?_, ?_⟩
  · rintro o ⟨d, h1, h2⟩
    have ho : o = 0 ∨ o = 1 ∨ o = 2 := by
      have := (List.getElem?_eq_some_iff.1 h1).1
      simp [sdl] at this; omega
    rcases ho with rfl | rfl | rfl
    · exact Or.inr rfl
    · cases h1; revert h2; decide
    · cases h1; revert h2; decide
  · intro h
    have hw : writeOperation (build sdl order) 0 (some (.union 0)) false [nameField] [] =
        [.on (.object 1) [.field 7 7 none []], .on (.interface 1) [.field 7 7 none []]] := rfl
    rw [hw, allAccepted_iff] at h
    cases h _ List.mem_cons_self with
    | on _ _ h =>
      cases allAccepted_iff.1 h _ List.mem_cons_self with
      | leaf hd => rcases hd with hd | hd <;> cases hd

/-- The negation for fields of other objects: the field of `Product` is requested on `User` if the field has the type `Named` in the
composed schema but `User` in the subgraph. -/
theorem C59_object_wrong : ∃ (f : Field), f.ty = some (.object 0) ∧
    Sent sdl 0 (some (.object 2)) (writeOperation (build sdl order) 0 (some (.object 2)) false [f] []) [(2, 5, 5), (0, 8, 8)] ∧
    ¬ Wanted sdl 0 (some (.object 2)) [f] [] [(2, 5, 5), (0, 8, 8)] := by
  refine ⟨.mk 5 5 (.object 2) true false (some (.interface 1)) (some (.object 0)) false [.mk 8 8 (.object 1) true false none none false [] []] [],
    rfl, ?_, ?_⟩
  · exact .cons (ty := some (.object 0)) (sub := [.field 8 8 none []]) ⟨rfl, objectIn (by decide)⟩ (.field List.mem_cons_self)
      (.cons (ty := none) (sub := []) ⟨rfl, objectIn (by decide)⟩ (.field List.mem_cons_self) .nil)
  · intro h
    generalize hp : [(2, 5, 5), (0, 8, 8)] = p at h
    cases h with
    | nil => cases hp
    | data _ hf _ _ _ _ hw =>
      rw [List.mem_singleton] at hf
      subst hf
      cases hp
      generalize hp : [(0, 8, 8)] = p at hw
      cases hw with
      | nil => cases hp
      | data _ hf _ _ h4 _ _ =>
        rw [Field.data, List.mem_singleton] at hf
        subst hf
        cases hp
        cases h4
      | lookup _ hf => cases hf
    | lookup _ hf => cases hf

/-- The negation for entities: a field of `Named` is not requested for a `Product`, although it may be returned and implements the
interface in the composed schema. -/
theorem C59_any_dropped :
    Wanted sdl 0 none [nameField] [] [(1, 7, 7)] ∧ ¬ Sent sdl 0 none (writeOperation (build sdl order) 0 none false [nameField] []) [(1, 7, 7)] := by
  refine ⟨.data (f := nameField) (objectIn (by decide)) List.mem_cons_self rfl rfl ⟨by decide, _, rfl, by decide⟩ (fun h => absurd rfl h) .nil, ?_⟩
  intro h
  have hw : writeOperation (build sdl order) 0 none false [nameField] [] = [.on (.interface 1) [.field 7 7 none []]] := rfl
  rw [hw] at h
  cases h with
  | cons _ hsel _ =>
    rw [selects_on_fields (fun x hx => by rw [List.mem_singleton.1 hx]; exact ⟨_, _, _, _, rfl⟩)] at hsel
    obtain ⟨⟨d, h1, h2⟩, _⟩ := hsel
    cases h1
    revert h2
    decide

/-- A case for validity: `{ search { ... on User { name } } }`. -/
example : DataSound sdl 0 (fun _ _ => True) (some (.union 0)) [.mk 7 7 (.object 0) true false none none false [] []] := by
  simp only [DataSound, FieldSound, LookupsSound, Field.entity, and_true]
  exact fun _ => ⟨trivial, fun _ _ => trivial, fun o h => by cases h; exact objectIn (by decide), fun i h => by cases h⟩

end Verif.SubgraphQuery
