import Verif.Leaves.Packed

/-!
# C79: leaf values of subgraph responses are those of the schema

A field of scalars or enums, in lists of any depth, is shown with the value of the subgraph completed for the type of the
field, and with exactly the errors of the completion.
-/
namespace Verif.Leaves

/-- What is shown of a field is its completed value, and the errors are those of the completion. Partial: no list or object
stands in place of an item of `[Int!]` or `[Float!]` (the deserialisation has not failed), and whole numbers for `Int` that are not
written as integers are neither below 32 bits nor the largest of them. -/
theorem C79_shown_partial (c : Ctx) (leaf : Leaf) (ty : Ty) (j : Json) (hv : c.vis = true)
    (hn : c.fieldNullable = !ty.required) (ho : NamesOnce leaf) (hf : NumbersFit leaf j) (v : Val)
    (h : (fieldSeed c leaf ty [] j).val = some v) :
    shown (fieldSeed c leaf ty [] j) v = (complete c.asF64 leaf ty [] j).1 ∧
      (fieldSeed c leaf ty [] j).errs = (complete c.asF64 leaf ty [] j).2 := by
  have g := good_field hv ho ty [] j hn hf v h
  refine ⟨?_, g.errs⟩
  unfold shown
  cases hd : (complete c.asF64 leaf ty [] j).1 with
  | none =>
    obtain ⟨hr, hm, _⟩ := g.escapes hd
    have : propagate c.fieldNullable [] = none := by simp [propagate, hn, hr]
    rw [this] at hm
    rw [if_pos (by simpa using hm)]
  | some o =>
    obtain ⟨h1, h2⟩ := g.there o hd
    rw [if_neg, show render (fieldSeed c leaf ty [] j).marks [] v = o from h2 _ (fun q _ => Iff.rfl)]
    intro hm
    obtain ⟨q, hq, _⟩ := h1 none (by simpa using hm)
    cases hq

/-- The deserialisation fails exactly when a list or an object that is not empty stands in place of an item of a list `[Int!]`
or `[Float!]`. -/
theorem C79_fails (c : Ctx) (leaf : Leaf) (ty : Ty) (p : List Step) (j : Json) :
    (fieldSeed c leaf ty p j).val = none ↔ Nested leaf ty j := field_none ty p j

/-- Nothing is reported and nothing is made null for a field that is not shown. -/
theorem C79_quiet (c : Ctx) (leaf : Leaf) (ty : Ty) (p : List Step) (j : Json) (hv : c.vis = false) :
    (fieldSeed c leaf ty p j).errs = [] ∧ (fieldSeed c leaf ty p j).marks = [] := quiet_field hv ty p j

/-- Custom scalars are shown as they are. -/
theorem C79_custom (c : Ctx) (r : Bool) (j : Json) (hv : c.vis = true) (hn : c.fieldNullable = !r) (hj : j ≠ .null) :
    ∃ v, (fieldSeed c .unknown (.base r) [] j).val = some v ∧ shown (fieldSeed c .unknown (.base r) [] j) v = some (same j) ∧
      (fieldSeed c .unknown (.base r) [] j).errs = [] := by
  cases h : (fieldSeed c .unknown (.base r) [] j).val with
  | none => exact absurd ((C79_fails ..).mp h) (fun h => by cases h)
  | some v =>
    obtain ⟨h1, h2⟩ := C79_shown_partial c .unknown (.base r) j hv hn trivial (by trivial) v h
    refine ⟨v, rfl, ?_, ?_⟩
    · rw [h1, complete_base hj]
      rfl
    · rw [h2, complete_base hj]
      rfl

namespace Demo

def ctx (nullable : Bool) : Ctx := ⟨true, nullable, fun i => i⟩

/-- `[[Int!]]` with a string in the second list: it is null. -/
theorem nested_read :
    shown (fieldSeed (ctx true) .int (.list false (.list false (.base true))) []
      (.list [.list [.num (.int 1)], .list [.num (.int 2), .str ['x']], .null]))
      (.list [.ints [1], .unexpected, .null]) = some (.list [.list [.int 1], .null, .null]) ∧
    (fieldSeed (ctx true) .int (.list false (.list false (.base true))) []
      (.list [.list [.num (.int 1)], .list [.num (.int 2), .str ['x']], .null])).errs = [[1, 1]] := by
  exact ⟨rfl, rfl⟩

theorem nested_val : (fieldSeed (ctx true) .int (.list false (.list false (.base true))) []
      (.list [.list [.num (.int 1)], .list [.num (.int 2), .str ['x']], .null])).val = some (.list [.ints [1], .unexpected, .null]) := rfl

theorem nested_fits : NumbersFit .int (.list [.list [.num (.int 1)], .list [.num (.int 2), .str ['x']], .null]) := by
  simp [NumbersFit, FloatsAre, FloatsAreList]

/-- `[Colour!]!` with an inaccessible value: null goes to the parent, without an error. -/
theorem hidden_read :
    shown (fieldSeed (ctx false) (.enum [(['R'], false), (['S'], true)]) (.list true (.base true)) [] (.list [.str ['R'], .str ['S']]))
      (.list [.str ['R'], .str ['S']]) = none ∧
    (fieldSeed (ctx false) (.enum [(['R'], false), (['S'], true)]) (.list true (.base true)) [] (.list [.str ['R'], .str ['S']])).errs = [] ∧
    NamesOnce (.enum [(['R'], false), (['S'], true)]) := by
  exact ⟨rfl, rfl, by simp [NamesOnce]⟩

/-- A number with an exponent far below 32 bits is shown as the smallest integer, without an error. -/
theorem C79_saturates_false : (fieldSeed (ctx true) .int (.base false) [] (.num (.float (-10000000000)))).val = some (.int (-2147483648)) ∧
    (fieldSeed (ctx true) .int (.base false) [] (.num (.float (-10000000000)))).errs = [] ∧
    (complete (fun i => i) .int (.base false) [] (.num (.float (-10000000000)))).2 = [[]] := by
  have h1 : canCoerce (-10000000000) = true := by decide +kernel
  have h2 : asI32 (-10000000000) = -2147483648 := by decide +kernel
  refine ⟨?_, by decide +kernel, by decide +kernel⟩
  rw [fieldSeed, leafSeed, visitNum, if_pos h1, h2]
  rfl

/-- `2147483647.0` is refused. -/
theorem C79_largest_false : (fieldSeed (ctx true) .int (.base false) [] (.num (.float 2147483647))).errs = [[]] ∧
    (complete (fun i => i) .int (.base false) [] (.num (.float 2147483647))).2 = [] := by
  refine ⟨?_, ?_⟩ <;> decide +kernel

/-- A list in place of an item of `[Int!]` ends the deserialisation of the whole response; in `[Int]` it does not. -/
theorem C79_hard_false : (fieldSeed (ctx true) .int (.list false (.base true)) [] (.list [.list [.num (.int 1)]])).val = none ∧
    (∃ v, (fieldSeed (ctx true) .int (.list false (.base false)) [] (.list [.list [.num (.int 1)]])).val = some v) ∧
    (complete (fun i => i) .int (.list false (.base true)) [] (.list [.list [.num (.int 1)]])).1 = some .null := by
  exact ⟨rfl, ⟨_, rfl⟩, rfl⟩

end Demo

end Verif.Leaves
