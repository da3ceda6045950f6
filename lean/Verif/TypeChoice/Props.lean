import Verif.TypeChoice.Reads

/-!
# C83: an object of a subgraph response is read with the shape of its type
-/
namespace Verif.TypeChoice

/-- Where no type is looked for within a concrete shape, each value is read as wanted: wherever `__typename` is in an object, and
whether the value was kept in memory or not. Missing: shapes which look for the type, see `C83_first` and `C83_nested_false`. -/
theorem C83_read_partial (types : Types) (j : Json) (s : Shape) (kept : Bool) (hj : Fine j) (hs : ShapeOk s) (hd : NoDetect s) :
    ∃ v, read types j s kept = some v ∧ ∀ w, Wanted types s j w ↔ w = v := by
  obtain ⟨v, h1, h2⟩ := reads types j hj s kept hs (Or.inl hd)
  exact ⟨v, h1, fun w => ⟨fun h => (wanted_unique h2 hs w h).symm, fun h => h ▸ h2⟩⟩

/-- With any shape, a value in which all objects tell their type first, unescaped, is read as wanted. -/
theorem C83_first (types : Types) (j : Json) (s : Shape) (hj : Fine j) (hf : First j) (hs : ShapeOk s) :
    ∃ v, read types j s false = some v ∧ ∀ w, Wanted types s j w ↔ w = v := by
  obtain ⟨v, h1, h2⟩ := reads types j hj s false hs (Or.inr ⟨hf, rfl⟩)
  exact ⟨v, h1, fun w => ⟨fun h => (wanted_unique h2 hs w h).symm, fun h => h ▸ h2⟩⟩

/-- So, where no type is looked for, the order of the entries of objects is of no importance. -/
theorem C83_order_partial (types : Types) (i j : Json) (s : Shape) (k l : Bool) (hi : Fine i) (hj : Fine j) (hij : Same i j)
    (hs : ShapeOk s) (hd : NoDetect s) : read types i s k = read types j s l := by
  obtain ⟨v, h1, h2⟩ := reads types i hi s k hs (Or.inl hd)
  obtain ⟨w, h3, h4⟩ := reads types j hj s l hs (Or.inl hd)
  rw [h1, h3, wanted_unique (same_wanted h2 j hij) hs w h4]

/-! ## Cases -/

def someTypes : Types := fun n => if n = "A" ∨ n = "B" ∨ n = "Z" then some true else if n = "Node" then some false else none

/-- `{ node { ... on A { x { y } } } }`, the key of `x` being 1 and that of `__typename` being 0. -/
def inner : Shape := .concrete (.mk .anonymous [] [.mk 4 "y" true .leaf])
def shapeA : Concrete := .mk (.known "A") [0] [.mk 1 "x" false inner, .mk 2 "n" false .leaf]
def shape : Shape := .poly [("A", shapeA)] none

def last : Json := .map [("n", .other 3), ("x", .map [("y", .text "why" false)]), ("__typename", .text "A" true)]
theorem fine_last : Fine last := by
  refine .map (by decide +kernel) ?_ ?_
  · intro e he
    rcases List.mem_cons.mp he with rfl | he
    · exact .other
    · rcases List.mem_cons.mp he with rfl | he
      · refine .map (by decide +kernel) ?_ ?_
        · intro e he
          rw [List.mem_singleton] at he
          exact he ▸ .text
        · intro e he hk
          rw [List.mem_singleton] at he
          subst he
          exact absurd hk (by decide +kernel)
      · rw [List.mem_singleton] at he
        exact he ▸ .text
  · intro e he hk
    rcases List.mem_cons.mp he with rfl | he
    · exact absurd hk (by decide +kernel)
    · rcases List.mem_cons.mp he with rfl | he
      · exact absurd hk (by decide +kernel)
      · rw [List.mem_singleton] at he
        subst he
        exact ⟨_, _, rfl⟩

theorem ok_shape : ShapeOk shape := by
  refine .poly (by decide +kernel) ?_ (by intro c h; cases h)
  intro p hp
  rw [List.mem_singleton] at hp
  subst hp
  refine .mk (by decide +kernel) (by decide +kernel) ?_ ?_
  · intro f hf
    rcases List.mem_cons.mp hf with rfl | hf
    · show "x" ≠ "__typename"
      decide +kernel
    · rw [List.mem_singleton] at hf
      subst hf
      show "n" ≠ "__typename"
      decide +kernel
  · intro f hf
    rcases List.mem_cons.mp hf with rfl | hf
    · refine .concrete (.mk (by decide +kernel) (by decide +kernel) ?_ ?_)
      · intro f hf
        rw [List.mem_singleton] at hf
        subst hf
        show "y" ≠ "__typename"
        decide +kernel
      · intro f hf
        rw [List.mem_singleton] at hf
        subst hf
        exact .leaf
    · rw [List.mem_singleton] at hf
      subst hf
      exact .leaf

theorem noDetect_shape : NoDetect shape := by
  refine .poly ?_ (by intro c h; cases h)
  intro p hp
  rw [List.mem_singleton] at hp
  subst hp
  refine .mk ?_
  intro f hf
  rcases List.mem_cons.mp hf with rfl | hf
  · refine .concrete (by intro p h; cases h) (.mk ?_)
    intro f hf
    rw [List.mem_singleton] at hf
    subst hf
    exact .leaf
  · rw [List.mem_singleton] at hf
    subst hf
    exact .leaf

/-- The hypotheses of `C83_read_partial` are met, and what is read has all that is asked for. -/
theorem C83_read_case : Fine last ∧ ShapeOk shape ∧ NoDetect shape ∧ read someTypes last shape false =
    some (.object (some "A") [(0, .typename "A"), (1, .object none [(4, .leaf (.text "why" false))]), (2, .leaf (.other 3))]) :=
  ⟨fine_last, ok_shape, noDetect_shape, rfl⟩

def early : Json := .map [("__typename", .text "A" true), ("n", .other 3)]
def late : Json := .map [("n", .other 3), ("__typename", .text "A" true)]

theorem fine_early : Fine early := by
  refine .map (by decide +kernel) ?_ ?_
  · intro e he
    rcases List.mem_cons.mp he with rfl | he
    · exact .text
    · rw [List.mem_singleton] at he
      exact he ▸ .other
  · intro e he hk
    rcases List.mem_cons.mp he with rfl | he
    · exact ⟨_, _, rfl⟩
    · rw [List.mem_singleton] at he
      subst he
      exact absurd hk (by decide +kernel)

theorem fine_late : Fine late := by
  refine .map (by decide +kernel) ?_ ?_
  · intro e he
    rcases List.mem_cons.mp he with rfl | he
    · exact .other
    · rw [List.mem_singleton] at he
      exact he ▸ .text
  · intro e he hk
    rcases List.mem_cons.mp he with rfl | he
    · exact absurd hk (by decide +kernel)
    · rw [List.mem_singleton] at he
      subst he
      exact ⟨_, _, rfl⟩

theorem same_early_late : Same early late := by
  have h : ∀ k, under [("__typename", Json.text "A" true), ("n", .other 3)] k =
      under [("n", .other 3), ("__typename", .text "A" true)] k := by
    intro k
    simp only [under]
    by_cases h1 : "__typename" = k
    · subst h1
      rfl
    · by_cases h2 : "n" = k
      · subst h2
        rfl
      · simp [h1, h2]
  refine .map (fun k => by rw [h k]) ?_
  intro k i j hi hj
  rw [← h k, hi] at hj
  cases hj
  simp only [under] at hi
  split at hi
  · cases hi
    exact .text
  · split at hi
    · cases hi
      exact .other
    · cases hi

/-- The hypotheses of `C83_order_partial` are met. -/
theorem C83_order_case : Fine early ∧ Fine late ∧ Same early late ∧ ShapeOk shape ∧ NoDetect shape ∧
    read someTypes late shape false = some (.object (some "A") [(0, .typename "A"), (1, .null), (2, .leaf (.other 3))]) :=
  ⟨fine_early, fine_late, same_early_late, ok_shape, noDetect_shape, rfl⟩

/-- `{ node { ... on A { pet { ... on B { __typename } } } } }`: an interface within. -/
def petShape : Shape := .concrete (.mk (.detect ["A", "B"]) [5] [])
def nested : Shape := .poly [("A", .mk (.known "A") [] [.mk 1 "pet" false petShape])] none

def petFirst : Json := .map [("__typename", .text "A" true), ("pet", .map [("__typename", .text "B" true)])]
def petLast : Json := .map [("pet", .map [("__typename", .text "B" true)]), ("__typename", .text "A" true)]

theorem ok_nested : ShapeOk nested := by
  refine .poly (by decide +kernel) ?_ (by intro c h; cases h)
  intro p hp
  rw [List.mem_singleton] at hp
  subst hp
  refine .mk (by decide +kernel) (by decide +kernel) ?_ ?_
  · intro f hf
    rw [List.mem_singleton] at hf
    subst hf
    show "pet" ≠ "__typename"
    decide +kernel
  · intro f hf
    rw [List.mem_singleton] at hf
    subst hf
    exact .concrete (.mk (by decide +kernel) (by decide +kernel) (by intro f h; cases h) (by intro f h; cases h))

theorem fine_pet : Fine (.map [("__typename", .text "B" true)]) := by
  refine .map (by decide +kernel) ?_ ?_
  · intro e he
    rw [List.mem_singleton] at he
    exact he ▸ .text
  · intro e he hk
    rw [List.mem_singleton] at he
    subst he
    exact ⟨_, _, rfl⟩

theorem fine_petFirst : Fine petFirst := by
  refine .map (by decide +kernel) ?_ ?_
  · intro e he
    rcases List.mem_cons.mp he with rfl | he
    · exact .text
    · rw [List.mem_singleton] at he
      exact he ▸ fine_pet
  · intro e he hk
    rcases List.mem_cons.mp he with rfl | he
    · exact ⟨_, _, rfl⟩
    · rw [List.mem_singleton] at he
      subst he
      exact absurd hk (by decide +kernel)

theorem fine_petLast : Fine petLast := by
  refine .map (by decide +kernel) ?_ ?_
  · intro e he
    rcases List.mem_cons.mp he with rfl | he
    · exact fine_pet
    · rw [List.mem_singleton] at he
      exact he ▸ .text
  · intro e he hk
    rcases List.mem_cons.mp he with rfl | he
    · exact absurd hk (by decide +kernel)
    · rw [List.mem_singleton] at he
      subst he
      exact ⟨_, _, rfl⟩

theorem first_petFirst : First petFirst := by
  refine .map ?_ ?_ ?_
  · intro e he
    rcases List.mem_cons.mp he with rfl | he
    · exact .text
    · rw [List.mem_singleton] at he
      subst he
      refine .map ?_ (by intro e he; cases he) ?_
      · intro e he
        rw [List.mem_singleton] at he
        exact he ▸ .text
      · intro e he hk
        rw [List.mem_singleton] at he
        subst he
        exact ⟨_, rfl⟩
  · intro e he
    have he : e ∈ [(("pet", .map [("__typename", .text "B" true)]) : Name × Json)] := he
    rw [List.mem_singleton] at he
    subst he
    decide +kernel
  · intro e he hk
    rcases List.mem_cons.mp he with rfl | he
    · exact ⟨_, rfl⟩
    · rw [List.mem_singleton] at he
      subst he
      exact absurd hk (by decide +kernel)

/-- The hypotheses of `C83_first` are met. -/
theorem C83_first_case : Fine petFirst ∧ First petFirst ∧ ShapeOk nested ∧ read someTypes petFirst nested false =
    some (.object (some "A") [(1, .object (some "B") [(5, .typename "B")])]) :=
  ⟨fine_petFirst, first_petFirst, ok_nested, rfl⟩

theorem same_pets : Same petFirst petLast := by
  have h : ∀ k, under [("__typename", Json.text "A" true), ("pet", .map [("__typename", .text "B" true)])] k =
      under [("pet", .map [("__typename", .text "B" true)]), ("__typename", .text "A" true)] k := by
    intro k
    simp only [under]
    by_cases h1 : "__typename" = k
    · subst h1
      rfl
    · by_cases h2 : "pet" = k
      · subst h2
        rfl
      · simp [h1, h2]
  have hp : Same (.map [("__typename", .text "B" true)]) (.map [("__typename", .text "B" true)]) := by
    refine .map (fun k => Iff.rfl) ?_
    intro k i j hi hj
    rw [hi] at hj
    cases hj
    simp only [under] at hi
    split at hi
    · cases hi
      exact .text
    · cases hi
  refine .map (fun k => by rw [h k]) ?_
  intro k i j hi hj
  rw [← h k, hi] at hj
  cases hj
  simp only [under] at hi
  split at hi
  · cases hi
    exact .text
  · split at hi
    · cases hi
      exact hp
    · cases hi

/-- FALSE that the order of the entries is of no importance: with an interface in an entry before `__typename`, the reading of the
response ends, although what is wanted is the same. -/
theorem C83_nested_false : Fine petFirst ∧ Fine petLast ∧ ShapeOk nested ∧ Same petFirst petLast ∧
    read someTypes petLast nested false = none ∧
    Wanted someTypes nested petLast (.object (some "A") [(1, .object (some "B") [(5, .typename "B")])]) := by
  refine ⟨fine_petFirst, fine_petLast, ok_nested, same_pets, rfl, ?_⟩
  obtain ⟨v, h1, h2⟩ := C83_first someTypes petFirst nested fine_petFirst first_petFirst ok_nested
  have h3 : read someTypes petFirst nested false = some (.object (some "A") [(1, .object (some "B") [(5, .typename "B")])]) := rfl
  rw [h3] at h1
  cases h1
  exact same_wanted ((h2 _).mpr rfl) _ same_pets

/-- FALSE that the type is found in a response which is not read from a text (a message of a websocket), or is escaped. -/
theorem C83_borrowed_false : read someTypes (.map [("__typename", .text "B" false)]) petShape false = none ∧
    read someTypes (.map [("__typename", .text "B" true)]) petShape true = none ∧
    Wanted someTypes petShape (.map [("__typename", .text "B" false)]) (.object (some "B") [(5, .typename "B")]) := by
  refine ⟨rfl, rfl, ?_⟩
  refine .object (.detect rfl (by decide +kernel)) (by intro _ h; cases h) ?_ ?_ ?_ ?_ ?_
  · unfold Ordered
    exact List.pairwise_singleton _ _
  · intro f hf
    cases hf
  · intro k
    constructor
    · intro h
      exact Or.inr h
    · rintro (⟨f, hf, _⟩ | h)
      · cases hf
      · exact h
  · intro f hf
    cases hf
  · intro k hk v hv
    rw [List.mem_singleton] at hv
    cases hv
    exact ⟨"B", rfl, rfl⟩

/-- A `__typename` which is no text ends the reading of the response, where other unexpected values are an error at their place. -/
theorem C83_number_false : read someTypes (.map [("__typename", .other 1)]) nested false = none ∧
    read someTypes (.map []) nested false = some .unexpected := ⟨rfl, rfl⟩

/-- FALSE that an object of a type that is not possible is an error: without a fallback it is an object without fields. -/
theorem C83_impossible_false : read someTypes (.map [("__typename", .text "Z" true)]) nested false = some (.object (some "Z") []) := rfl

end Verif.TypeChoice
