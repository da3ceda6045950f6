import Verif.IdSets.Lemmas
/-!
# C40, C52 and C53: bit sets, id ranges and one-to-many relations
-/
namespace Verif.IdSets

/-! ## C40 -/

/-- For every length and every sequence of operations, a bit set is the mathematical set reached by
the same operations, and it panics exactly when an operation is not allowed on the set. -/
theorem C40_set_partial (n : Nat) (ops : List Op) :
    (∀ b, run n ops = some b → Reaches ⟨n, fun _ => False⟩ ops (asSet b)) ∧
      ∀ s, Reaches ⟨n, fun _ => False⟩ ops s → ∃ b, run n ops = some b ∧ s = asSet b := by
  have h0 : asSet (List.replicate n false) = ⟨n, fun _ => False⟩ := by
    refine IdSet.ext' (by simp [asSet]) fun j => ?_
    simp only [asSet, List.getElem?_replicate]
    by_cases h : j < n <;> simp [h]
  unfold run
  rw [← h0]
  generalize List.replicate n false = b0
  clear h0
  induction ops generalizing b0 with
  | nil =>
    refine ⟨fun b h => ?_, fun s h => ?_⟩
    · simp only [List.foldlM_nil, pure, Option.some.injEq] at h
      subst h; exact .nil
    · cases h; exact ⟨b0, rfl, rfl⟩
  | cons o t ih =>
    rw [List.foldlM_cons]
    constructor
    · intro b h
      obtain ⟨b1, h1, h2⟩ := Option.bind_eq_some_iff.1 h
      exact .cons ((step_means b0 o).1 b1 h1) ((ih b1).1 b h2)
    · intro s h
      cases h with
      | cons h1 h2 =>
        obtain ⟨b1, e1, rfl⟩ := (step_means b0 o).2 _ h1
        obtain ⟨b, e2, rfl⟩ := (ih b1).2 _ h2
        exact ⟨b, by rw [e1]; exact e2, rfl⟩

/-- What can be read from a bit set is what the set holds: `contains` for every id, `put` tells whether
the id was there, `ones` and `zeroes` are the members and the others below the length, in increasing
order. -/
theorem C40_reads_partial (b : Bits) :
    (∀ i, b.get i = true ↔ (asSet b).mem i) ∧
      (∀ i b' was, b.put i = some (b', was) → (was = true ↔ (asSet b).mem i)) ∧
      (∀ i, (b.put i).isSome ↔ i < (asSet b).bound) ∧
      (b.ones.Pairwise (· < ·) ∧ ∀ i, i ∈ b.ones ↔ (asSet b).mem i) ∧
      (b.zeroes.Pairwise (· < ·) ∧ ∀ i, i ∈ b.zeroes ↔ i < (asSet b).bound ∧ ¬ (asSet b).mem i) := by
  refine ⟨fun i => getD_iff b i, ?_, ?_, ?_, ?_⟩
  · intro i b' was h
    unfold Bits.put at h
    split at h
    · cases h; exact getD_iff b i
    · cases h
  · intro i
    unfold Bits.put
    split <;> simp_all [asSet]
  · refine ⟨(positions_spec true 0 b).1, fun i => ?_⟩
    unfold Bits.ones
    rw [(positions_spec true 0 b).2]; simp [asSet]
  · refine ⟨(positions_spec false 0 b).1, fun i => ?_⟩
    unfold Bits.zeroes
    rw [(positions_spec false 0 b).2]
    simp only [asSet]
    by_cases h : i < b.length
    · simp [h]
    · simp [h]

example : run 70 [.insert 64, .set 69 true, .put 3, .not, .not, .or (List.replicate 2 true)] ≠ none := by decide
example : (run 3 [.insert 1, .not, .xor [true, true, true, true, true]]).map Bits.ones = some [1, 3, 4] := by decide
example : run 64 [.insert 64] = none := by decide

/-! ## C52 -/

/-- The ids of a range, as a list. -/
def Range.list (r : Range) : List Nat := List.range' r.start (r.stop - r.start)

/-- What a sequence of `next` (`true`) and `next_back` (`false`) takes from a list and what is left. -/
def takes : List Nat → List Bool → List (Option Nat) × List Nat
  | l, [] => ([], l)
  | l, true :: t => let r := takes l.tail t; (l.head? :: r.1, r.2)
  | l, false :: t => let r := takes l.dropLast t; (l.getLast? :: r.1, r.2)

theorem list_length (r : Range) (max : Nat) (hmax : max < W) (h : r.start ≤ r.stop) (hs : r.stop ≤ max) :
    r.len = r.list.length := by
  unfold Range.len Range.list
  rw [show r.stop + W - r.start = (r.stop - r.start) + W by omega, Nat.add_mod_right, Nat.mod_eq_of_lt (by omega),
    List.length_range']

/-- Iterating over a range from both ends in any order gives the ids from `start` to `end` without it,
each once, and then nothing; it never panics; `len` is what is left. -/
theorem C52_iterates {max : Nat} (hmax : max < W) (calls : List Bool) (r : Range)
    (h : r.start ≤ r.stop) (hs : r.stop ≤ max) :
    ∃ xs r', r.calls max calls = some (xs, r') ∧ takes r.list calls = (xs, r'.list) ∧ r'.len = r'.list.length := by
  induction calls generalizing r with
  | nil => exact ⟨[], r, rfl, rfl, list_length r max hmax h hs⟩
  | cons c t ih =>
    have hl := list_length r max hmax h hs
    by_cases he : r.start = r.stop
    · have h0 : r.list = [] := by unfold Range.list; rw [he]; simp
      have hlen : r.len = 0 := by rw [hl, h0]; rfl
      obtain ⟨xs, r', e1, e2, e3⟩ := ih r h hs
      refine ⟨none :: xs, r', ?_, ?_, e3⟩
      · unfold Range.calls
        cases c <;> simp [Range.next, Range.nextBack, hlen, e1]
      · rw [h0] at e2 ⊢
        cases c <;> simp [takes, e2]
    · have hlen : r.len ≠ 0 := by rw [hl]; unfold Range.list; rw [List.length_range']; omega
      cases c with
      | true =>
        obtain ⟨xs, r', e1, e2, e3⟩ := ih ⟨r.start + 1, r.stop⟩ (by simp only; omega) hs
        refine ⟨some r.start :: xs, r', ?_, ?_, e3⟩
        · unfold Range.calls
          have hn : r.next max = some (⟨r.start + 1, r.stop⟩, some r.start) := by
            unfold Range.next idFrom
            rw [if_pos hlen, Nat.mod_eq_of_lt (by omega), if_pos (by omega)]; rfl
          simp [hn, e1]
        · have hc : r.list = r.start :: (⟨r.start + 1, r.stop⟩ : Range).list := by
            unfold Range.list
            rw [show r.stop - r.start = (r.stop - (r.start + 1)) + 1 by omega, List.range'_succ]
          rw [hc, takes]
          simp [e2]
      | false =>
        obtain ⟨xs, r', e1, e2, e3⟩ := ih ⟨r.start, r.stop - 1⟩ (by simp only; omega) (by simp only; omega)
        refine ⟨some (r.stop - 1) :: xs, r', ?_, ?_, e3⟩
        · unfold Range.calls
          have hn : r.nextBack max = some (⟨r.start, r.stop - 1⟩, some (r.stop - 1)) := by
            unfold Range.nextBack idFrom
            rw [if_pos hlen, show r.stop + W - 1 = (r.stop - 1) + W by omega, Nat.add_mod_right,
              Nat.mod_eq_of_lt (by omega), if_pos (by omega)]; rfl
          simp [hn, e1]
        · have hc : r.list = (⟨r.start, r.stop - 1⟩ : Range).list ++ [r.stop - 1] := by
            unfold Range.list
            rw [show r.stop - r.start = (r.stop - 1 - r.start) + 1 by omega, List.range'_concat]
            simp only [Nat.one_mul]
            rw [show r.start + (r.stop - 1 - r.start) = r.stop - 1 by omega]
          rw [hc, takes]
          simp [e2]

/-- `get` and `index_of` are inverse of each other and agree with the list of ids, for positions that
do not overflow `usize`. -/
theorem C52_get_partial {max : Nat} (r : Range) (hs : r.stop ≤ max) (hmax : max < W) (i : Nat)
    (hi : r.start + i < W) :
    r.get max i = some (r.list[i]?) ∧ ∀ id, r.indexOf id = some i ↔ r.list[i]? = some id := by
  have hg : r.list[i]? = if r.start + i < r.stop then some (r.start + i) else none := by
    unfold Range.list
    by_cases h : r.start + i < r.stop
    · rw [if_pos h, List.getElem?_range' (by omega), Nat.one_mul]
    · rw [if_neg h, List.getElem?_eq_none (by rw [List.length_range']; omega)]
  constructor
  · unfold Range.get idFrom
    simp only [Nat.mod_eq_of_lt hi, hg]
    split
    · rw [if_pos (by omega)]; rfl
    · rfl
  · intro id
    rw [hg]
    unfold Range.indexOf
    constructor
    · intro h
      split at h
      · rw [if_pos (by simp only [Option.some.injEq] at h; omega)]
        simp only [Option.some.injEq] at h ⊢; omega
      · cases h
    · intro h
      split at h
      · simp only [Option.some.injEq] at h
        rw [if_pos (by omega)]; simp; omega
      · cases h

/-- **Out of bounds reads may succeed**: with wrapping arithmetic `get` at a position near the end of
`usize` gives an id that is not in the range. -/
theorem C52_get_false {max : Nat} (r : Range) (h1 : 0 < r.start) (h2 : r.start ≤ r.stop) (hs : r.stop ≤ max)
    (hmax : max < W) : r.get max (W - r.start) = some (some 0) ∧ 0 ∉ r.list ∧ r.list.length ≤ W - r.start := by
  refine ⟨?_, ?_, ?_⟩
  · unfold Range.get idFrom
    rw [show r.start + (W - r.start) = W by omega]
    simp only [Nat.mod_self]
    rw [if_pos (by omega), if_pos (by omega)]; rfl
  · intro h
    have := (range'_lt _ _ 0 h).1
    omega
  · unfold Range.list; rw [List.length_range']; omega

/-- `from_slice` recognises exactly the slices of consecutive ids, and the range then holds the ids of
the slice; it panics only when the largest id has no successor. -/
theorem C52_from_slice {max : Nat} (hmax : max + 1 < W) (ids : List Nat) (hids : ∀ x ∈ ids, x ≤ max) :
    (∀ r, Range.fromSlice max ids = some (some r) →
        r.list = ids ∧ r.start ≤ r.stop ∧ r.stop ≤ max) ∧
      (Range.fromSlice max ids = some none ↔ ¬ ∃ s, ids = List.range' s ids.length) ∧
      (Range.fromSlice max ids = none ↔ (∃ s, ids = List.range' s ids.length) ∧ max ∈ ids) := by
  cases ids with
  | nil => simp [Range.fromSlice, Range.list]
  | cons first t =>
    have hf : first ≤ max := hids first (by simp)
    obtain ⟨g1, g2⟩ := sliceLoop_spec hmax t first hf fun x hx => hids x (by simp [hx])
    have hcons : (∃ s, first :: t = List.range' s (first :: t).length) ↔ t = List.range' (first + 1) t.length := by
      simp only [List.length_cons, List.range'_succ, List.cons.injEq]
      constructor
      · rintro ⟨s, rfl, h⟩; exact h
      · intro h; exact ⟨first, rfl, h⟩
    unfold Range.fromSlice
    cases hl : sliceLoop first t with
    | none =>
      have := g2 hl
      rw [hcons]
      simp [this, hl]
    | some e =>
      obtain ⟨a, rfl⟩ := g1 e hl
      have he : first + t.length ≤ max := by
        cases t with
        | nil => simpa using hf
        | cons y u =>
          have hmem : first + (u.length + 1) ∈ y :: u := by
            rw [a, List.mem_range'_1]; simp
          exact hids _ (by simp only [List.mem_cons] at hmem ⊢; simp only [List.length_cons]; exact Or.inr hmem)
      rw [hcons]
      have hlist : first :: t = List.range' first (t.length + 1) := by rw [List.range'_succ, ← a]
      have hmem : max ∈ first :: t ↔ first + t.length = max := by
        rw [hlist, List.mem_range'_1]; omega
      simp only [hl, Nat.mod_eq_of_lt (show first + t.length + 1 < W by omega), idFrom]
      rw [hmem]
      by_cases hm : first + t.length = max
      · rw [if_neg (by omega)]
        simp [hm, ← a]
      · rw [if_pos (by omega)]
        simp only [Option.map_some, Option.some.injEq, reduceCtorEq, false_iff, hm, and_false, not_false_eq_true,
          and_true]
        refine ⟨?_, fun h => h a⟩
        rintro r rfl
        refine ⟨?_, by simp only; omega, by simp only; omega⟩
        unfold Range.list
        simp only
        rw [show first + t.length + 1 - first = t.length + 1 by omega]
        exact hlist.symm

/-- The other constructors. -/
theorem C52_constructors {max : Nat} (hmax : max + 1 < W) (start : Nat) (hs : start ≤ max) :
    (∀ len, start + len ≤ max → ∃ r, Range.fromLength max start len = some r ∧ r.list = List.range' start len ∧
        r.start ≤ r.stop ∧ r.stop ≤ max) ∧
      (∀ r, Range.single max start = some r → r.list = [start]) ∧
      (Range.single max start = none ↔ start = max) := by
  refine ⟨?_, ?_, ?_⟩
  · intro len hl
    refine ⟨⟨start, start + len⟩, ?_, ?_, by simp, hl⟩
    · unfold Range.fromLength idFrom
      rw [Nat.mod_eq_of_lt (by omega), if_pos hl]; rfl
    · unfold Range.list; simp
  · intro r h
    unfold Range.single idFrom at h
    rw [Nat.mod_eq_of_lt (by omega)] at h
    split at h
    · cases h; simp [Range.list]
    · cases h
  · unfold Range.single idFrom
    rw [Nat.mod_eq_of_lt (by omega)]
    split <;> simp <;> omega

example : Range.calls 100 ⟨3, 6⟩ [true, false, true, true] =
    some ([some 3, some 5, some 4, none], ⟨5, 5⟩) := by decide
example : Range.fromSlice 100 [4, 5, 6] = some (some ⟨4, 7⟩) ∧ Range.fromSlice 100 [4, 6] = some none := by decide

/-! ## C53 -/

/-- For every relation given as a list of pairs in any order, and whatever order the unstable sort gives
to pairs with the same id: `find_all` gives all the values of the id and nothing else, with their
multiplicity, and `ids` gives each id of the relation once in increasing order. -/
theorem C53_relation {V : Type} (l out : List (Nat × V)) (h : SortedFrom l out) :
    (∀ id, (findAll out id).Perm ((l.filter fun p => p.1 = id).map (·.2))) ∧
      (idsOf out).Pairwise (· < ·) ∧ ∀ id, id ∈ idsOf out ↔ ∃ v, (id, v) ∈ l := by
  obtain ⟨hp, hs⟩ := h
  refine ⟨fun id => ?_, ?_⟩
  · rw [findAll_eq out id hs]
    exact (hp.filter _).map _
  · obtain ⟨h1, h2⟩ := dedup_spec (out.map (·.1)) (List.pairwise_map.2 hs)
    refine ⟨h1, fun id => ?_⟩
    unfold idsOf
    rw [h2, List.mem_map]
    constructor
    · rintro ⟨⟨a, v⟩, hm, rfl⟩; exact ⟨v, hp.mem_iff.1 hm⟩
    · rintro ⟨v, hm⟩; exact ⟨(id, v), hp.mem_iff.2 hm, rfl⟩

/-- A relation given as already sorted keeps the order of the values. -/
theorem C53_sorted {V : Type} (l : List (Nat × V)) (h : l.Pairwise fun a b => a.1 ≤ b.1) (id : Nat) :
    findAll l id = (l.filter fun p => p.1 = id).map (·.2) := findAll_eq l id h

example : SortedFrom [(2, 'a'), (1, 'b'), (2, 'c')] [(1, 'b'), (2, 'c'), (2, 'a')] :=
  ⟨by decide, by decide⟩
example : findAll [(1, 'b'), (2, 'c'), (2, 'a')] 2 = ['c', 'a'] ∧ idsOf [(1, 'b'), (2, 'c'), (2, 'a')] = [1, 2] := by
  decide

end Verif.IdSets
