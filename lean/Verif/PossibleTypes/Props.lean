import Verif.PossibleTypes.Lemmas
/-! C57: possible types of abstract types. -/
namespace Verif.PossibleTypes
open Verif.OpChecks (sortBy cmp2)

/-! A schema with two subgraphs `0` and `1`: the objects `Car`, `Bike` and `Tree`, the interfaces `Vehicle`, `Node` and `Priced`, the
union `Thing`. `Tree` is a `Node` in the subgraph `1` only; `Priced` is unknown to the subgraph `0`. -/
def caseSdl : Sdl where
  subgraphs := [0, 1]
  objects := [⟨[0, 1], [(1, 1), (0, 0), (0, 1)], [1, 0]⟩, ⟨[0, 2], [(0, 0), (1, 2)], [0, 1]⟩, ⟨[1], [(1, 1)], []⟩]
  interfaces := [⟨[0]⟩, ⟨[0, 1]⟩, ⟨[1]⟩]
  unions := [⟨[2, 0], [(0, 0), (1, 2), (1, 0)]⟩]

def caseOrder : List Nat := [2, 0, 1]

theorem caseSdl_ok : SdlOk caseSdl := ⟨by decide, by decide⟩
theorem caseOrder_ok : Visits caseSdl caseOrder := ⟨by decide, by
  intro o ho
  have : o = 0 ∨ o = 1 ∨ o = 2 := by simp [caseSdl] at ho; omega
  rcases this with rfl | rfl | rfl <;> decide⟩

/-- C57, possible types: the ids of the possible types of a composite type are its possible types in the document, in strictly
increasing order. -/
theorem C57_possible (sdl : Sdl) (order : List Nat) (hs : SdlOk sdl) (ho : Visits sdl order) (c : Composite) :
    ((build sdl order).possible c).Pairwise (· < ·) ∧ ∀ o, o ∈ (build sdl order).possible c ↔ Possible sdl c o := by
  cases c with
  | object id => exact ⟨List.pairwise_singleton _ _, fun o => by simp [Graph.possible, Possible]⟩
  | interface id =>
    unfold Graph.possible build Possible
    simp only [List.getElem?_mapIdx]
    cases hi : sdl.interfaces[id]? with
    | none =>
      have := List.getElem?_eq_none_iff.1 hi
      refine ⟨List.Pairwise.nil, fun o => ?_⟩
      simp only [Option.map_none, Option.getD_none, List.not_mem_nil, false_iff]
      rintro ⟨h, _⟩
      omega
    | some d =>
      have hlt := (List.getElem?_eq_some_iff.1 hi).1
      refine ⟨strict_sortIds (nodup_pushed hs.interfaces id ho.nodup), fun o => ?_⟩
      simp only [Option.map_some, Option.getD_some, buildInterface, mem_sortIds, mem_pushed]
      constructor
      · rintro ⟨_, h⟩; exact ⟨hlt, h⟩
      · rintro ⟨_, d, h1, h2⟩
        exact ⟨ho.all o (List.getElem?_eq_some_iff.1 h1).1, d, h1, h2⟩
  | union id =>
    unfold Graph.possible build Possible
    simp only [List.getElem?_map]
    cases hi : sdl.unions[id]? with
    | none => exact ⟨List.Pairwise.nil, fun o => by simp⟩
    | some u =>
      refine ⟨strict_sortIds (hs.members u (List.mem_of_getElem? hi)), fun o => ?_⟩
      simp only [Option.map_some, Option.getD_some, buildUnion, mem_sortIds, Option.some.injEq, exists_eq_left']

example : (build caseSdl caseOrder).possible (.interface 1) = [0, 2] := by decide
example : (build caseSdl caseOrder).possible (.union 0) = [0, 2] := by decide

/-- C57, possible types in a subgraph. -/
theorem C57_includes_iff (sdl : Sdl) (order : List Nat) (s o : Nat) (c : Composite) :
    (build sdl order).includesInSubgraph s o c = true ↔ PossibleIn sdl s c o := by
  cases c with
  | object id =>
    unfold Graph.includesInSubgraph build PossibleIn
    simp only [List.getElem?_map, Bool.and_eq_true, decide_eq_true_eq]
    constructor
    · rintro ⟨rfl, h⟩
      refine ⟨rfl, ?_⟩
      cases hd : sdl.objects[id]? with
      | none => rw [hd] at h; cases h
      | some d =>
        rw [hd] at h
        refine ⟨d, rfl, mem_existsIn.1 ?_⟩
        simpa [buildObject, Object.existsInSubgraph] using h
    · rintro ⟨rfl, d, h1, h2⟩
      refine ⟨rfl, ?_⟩
      rw [h1]
      simpa [buildObject, Object.existsInSubgraph] using mem_existsIn.2 h2
  | interface id => exact implements_iff
  | union id =>
    unfold Graph.includesInSubgraph build PossibleIn
    simp only [List.getElem?_map]
    cases hi : sdl.unions[id]? with
    | none => simp
    | some u =>
      simp only [Option.map_some, Option.getD_some, Option.some.injEq, exists_eq_left']
      exact hasMember_iff

example : (build caseSdl caseOrder).includesInSubgraph 0 2 (.interface 1) = false := by decide
example : (build caseSdl caseOrder).includesInSubgraph 1 2 (.interface 1) = true := by decide

/-- C57, full implementation: an interface counts as fully implemented in a subgraph if and only if the subgraph does not have it
or every object that implements it in the composed schema implements it in the subgraph. -/
theorem C57_interface_fully_iff (sdl : Sdl) (order : List Nat) (hs : SdlOk sdl) (ho : Visits sdl order) (s i : Nat) (d : InterfaceSdl)
    (hd : sdl.interfaces[i]? = some d) :
    (build sdl order).fullyImplemented s (.interface i) = true ↔
      ¬ InSubgraph sdl d.joinTypes s ∨ ∀ o, Possible sdl (.interface i) o → PossibleIn sdl s (.interface i) o := by
  have hp := (C57_possible sdl order hs ho (.interface i)).2
  unfold Graph.possible at hp
  unfold Graph.fullyImplemented
  unfold build at hp ⊢
  simp only [List.getElem?_mapIdx, hd, Option.map_some, Option.getD_some] at hp ⊢
  simp only [buildInterface] at hp ⊢
  simp only [Bool.not_eq_true', Bool.eq_false_iff, Ne, List.contains_iff_mem, notFullyInterface, mem_dedup, mem_sortIds,
    List.mem_flatMap, List.mem_filter, not_exists, not_and, Bool.not_eq_false, Classical.not_not, mem_existsIn, implements_iff]
  simp only [mem_sortIds] at hp
  constructor
  · intro h
    by_cases hin : InSubgraph sdl d.joinTypes s
    · exact Or.inr fun o h1 => h o ((hp o).2 h1) hin
    · exact Or.inl hin
  · rintro (h | h) o h1 h2
    · exact absurd h2 h
    · exact h o ((hp o).1 h1)

example : (build caseSdl caseOrder).fullyImplemented 0 (.interface 1) = false := by decide
example : (build caseSdl caseOrder).fullyImplemented 1 (.interface 1) = true := by decide
/-- An interface unknown to the subgraph. -/
example : (build caseSdl caseOrder).fullyImplemented 0 (.interface 2) = true ∧ ¬ PossibleIn caseSdl 0 (.interface 2) 1 := by
  refine ⟨by decide, ?_⟩
  rintro ⟨d, h1, h2⟩
  cases h1
  revert h2
  decide

/-- C57, full implementation of unions: some member is declared for the subgraph, then all are. -/
theorem C57_union_fully_iff (sdl : Sdl) (order : List Nat) (s i : Nat) (u : UnionSdl) (hu : sdl.unions[i]? = some u) :
    (build sdl order).fullyImplemented s (.union i) = true ↔
      ((∃ o, PossibleIn sdl s (.union i) o) → ∀ o, Possible sdl (.union i) o → PossibleIn sdl s (.union i) o) := by
  unfold Graph.fullyImplemented build PossibleIn Possible
  simp only [List.getElem?_map, hu, Option.map_some, Option.getD_some, Option.some.injEq, exists_eq_left', buildUnion]
  simp only [Bool.not_eq_true', Bool.eq_false_iff, Ne, List.contains_iff_mem, notFullyUnion, mem_dedup, mem_sortIds,
    List.mem_flatMap, List.mem_filter, not_exists, not_and, Bool.not_eq_false, Classical.not_not, hasMember_iff, List.mem_map, Prod.exists]
  constructor
  · rintro h ⟨o, ho⟩ p hp
    exact h p hp ⟨s, o, ((Verif.OpChecks.sortBy_perm _ _).mem_iff).2 ho, rfl⟩
  · rintro h p hp ⟨s', o, h1, rfl⟩
    exact h ⟨o, ((Verif.OpChecks.sortBy_perm _ _).mem_iff).1 h1⟩ p hp

example : (build caseSdl caseOrder).fullyImplemented 0 (.union 0) = false := by decide
example : (build caseSdl caseOrder).fullyImplemented 1 (.union 0) = true := by decide

/-- C57, intersections: a fragment is kept, a spread is accepted, if and only if the types share a possible type. -/
theorem C57_intersects_iff (sdl : Sdl) (order : List Nat) (hs : SdlOk sdl) (ho : Visits sdl order) (a b : Composite) :
    (intersects ((build sdl order).possible a) ((build sdl order).possible b) = true ↔ ∃ o, Possible sdl a o ∧ Possible sdl b o) ∧
    (isDisjoint ((build sdl order).possible a) ((build sdl order).possible b) = true ↔ ¬ ∃ o, Possible sdl a o ∧ Possible sdl b o) := by
  obtain ⟨ha, ha'⟩ := C57_possible sdl order hs ho a
  obtain ⟨hb, hb'⟩ := C57_possible sdl order hs ho b
  have h1 : intersects ((build sdl order).possible a) ((build sdl order).possible b) = true ↔ ∃ o, Possible sdl a o ∧ Possible sdl b o := by
    unfold intersects
    rw [intersectLoop_iff _ (by omega) ha hb]
    simp only [ha', hb']
  refine ⟨h1, ?_⟩
  rw [← h1]
  unfold isDisjoint intersects
  rw [disjointLoop_eq]
  simp

example : intersects [1, 4, 6] [2, 3, 6] = true ∧ isDisjoint [1, 4] [2, 3, 6] = true := by decide

/-- C57, subsets: what `is_subset_of` computes. Missing for the claim: ids above all of the superset pass. -/
theorem C57_subset_partial (sdl : Sdl) (order : List Nat) (hs : SdlOk sdl) (ho : Visits sdl order) (a b : Composite) :
    isSubset ((build sdl order).possible a) ((build sdl order).possible b) = true ↔
      ((build sdl order).possible a).length ≤ ((build sdl order).possible b).length ∧
      ∀ o, Possible sdl a o → Possible sdl b o ∨ ∀ p, Possible sdl b p → p < o := by
  obtain ⟨ha, ha'⟩ := C57_possible sdl order hs ho a
  obtain ⟨hb, hb'⟩ := C57_possible sdl order hs ho b
  unfold isSubset
  split
  · rename_i h
    simp only [Bool.false_eq_true, false_iff]
    rintro ⟨h1, _⟩
    omega
  · rename_i h
    rw [subsetLoop_iff _ (by omega) ha hb]
    simp only [ha', hb']
    exact ⟨fun h2 => ⟨by omega, h2⟩, fun h2 => h2.2⟩

/-- C57, subsets, the disagreement: `Tree` is no possible type of `Vehicle`, and yet a subset. -/
theorem C57_subset_wrong : isSubset ((build caseSdl caseOrder).possible (.object 2)) ((build caseSdl caseOrder).possible (.interface 0)) = true ∧
    ¬ ∀ o, Possible caseSdl (.object 2) o → Possible caseSdl (.interface 0) o := by
  refine ⟨by decide, fun h => ?_⟩
  obtain ⟨_, d, h1, h2⟩ := h 2 rfl
  cases h1
  revert h2
  decide

/-- C57, splitting an interface field: the loop ends if and only if, of the objects common to the parent type and the interface, none is met
that does not implement the interface in the subgraph. If it ends, the result is as it should be. -/
theorem C57_split_partial (sdl : Sdl) (order : List Nat) (hs : SdlOk sdl) (ho : Visits sdl order) (e : SplitEnv) (parent interface : Composite) :
    let left := (build sdl order).possible parent
    let right := (build sdl order).possible interface
    (NeverEnds e left right ↔ ∃ pre o post, common left right = pre ++ o :: post ∧ e.implementsHere o = false ∧
      ∀ (p : List Nat) (x : Nat) (q : List Nat), pre = p ++ x :: q → e.implementsHere x = true ∧ e.resolvable x = true ∧ e.provides p x = true) ∧
    (¬ NeverEnds e left right → ∃ res, Ends e left right res ∧ ShouldSplit e [] (common left right) res) := by
  intro left right
  have ha := (C57_possible sdl order hs ho parent).1
  have hb := (C57_possible sdl order hs ho interface).1
  obtain ⟨out, hout⟩ := splits_total e [] (common left right)
  have hn := splits_none hout
  simp only [List.nil_append] at hn
  cases out with
  | none =>
    have hnever : NeverEnds e left right := splits_stuck e _ (Nat.lt_succ_self _) ha hb hout
    exact ⟨⟨fun _ => hn.1 rfl, fun _ => hnever⟩, fun h => absurd hnever h⟩
  | some res =>
    obtain ⟨n, hends⟩ := splits_ends e _ (Nat.lt_succ_self _) ha hb hout
    have hnot : ¬ NeverEnds e left right := by
      intro h
      obtain ⟨l, r, ad, h1⟩ := h n
      rw [hends] at h1
      cases h1
    refine ⟨⟨fun h => absurd h hnot, fun h => absurd (hn.2 h) (by simp)⟩, fun _ => ⟨res, ⟨n, hends⟩, should_of_splits hout res rfl⟩⟩

/-- C57, splitting, the disagreement: planning `... on Node { … }` below `Thing` in the subgraph `0`, for which `Tree` is no `Node`, never
ends. It should plan the field for `Car` only. -/
theorem C57_split_never_ends :
    let e : SplitEnv := ⟨fun o => implements (build caseSdl caseOrder).objects o 0 1, fun _ => true, fun _ _ => true⟩
    let left := (build caseSdl caseOrder).possible (.union 0)
    let right := (build caseSdl caseOrder).possible (.interface 1)
    NeverEnds e left right ∧ ShouldSplit e [] (common left right) (true, [0]) := by
  intro e left right
  constructor
  · refine ((C57_split_partial caseSdl caseOrder caseSdl_ok caseOrder_ok e (.union 0) (.interface 1)).1).2 ?_
    refine ⟨[0], 2, [], by decide, by decide, ?_⟩
    intro p x q h
    cases p with
    | nil => cases h; exact ⟨by decide, rfl, rfl⟩
    | cons y ys => cases ys <;> cases h
  · have : common left right = [0, 2] := by decide
    rw [this]
    exact .next (by decide) rfl rfl (.skip (by decide) (.done _))

/-- Where every common object implements the interface, splitting ends. -/
example : Ends ⟨fun o => implements (build caseSdl caseOrder).objects o 1 1, fun _ => true, fun _ _ => true⟩
    ((build caseSdl caseOrder).possible (.union 0)) ((build caseSdl caseOrder).possible (.interface 1)) (true, [0, 2]) := ⟨3, by decide⟩

end Verif.PossibleTypes
