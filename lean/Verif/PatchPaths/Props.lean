import Verif.PatchPaths.Lemmas
/-!
# C30: applying a schema patch finds every recorded change
-/
namespace Verif.PatchPaths
open Verif.SchemaPath (Str splitDot Name)
open Std

/-- Every index a lookup can return is one of the diff. -/
theorem C30_index_in_range (diff : List Change) (e : Key × Nat) (h : e ∈ entries diff) : e.2 < diff.length := by
  obtain ⟨c, hc, -⟩ := entries_mem.1 (show (e.1, e.2) ∈ _ from h)
  exact (List.getElem?_eq_some_iff.1 hc).1

/-- A lookup of a complete path finds exactly the changes recorded for it, each once. -/
theorem C30_exact (diff : List Change) (a b c : Str) :
    (∀ i, i ∈ iterExact diff (a, b, c) ↔ ∃ ch, diff[i]? = some ch ∧ Segments ch.path a b c) ∧
    (iterExact diff (a, b, c)).Nodup := by
  have hrun := run_mem (cmp := cmpKey) (fun _ _ => cmpKey_eq) (g := fun e : Key × Nat => e.1)
    (sorted_key (entries_sorted diff)) (a, b, c)
  constructor
  · intro i
    unfold iterExact
    simp only [List.mem_map]
    constructor
    · rintro ⟨⟨k, j⟩, hm, rfl⟩
      obtain ⟨h1, h2⟩ := (hrun _).1 hm
      obtain ⟨ch, h3, h4⟩ := entries_mem.1 h1
      exact ⟨ch, h3, split_iff.1 (h4.trans h2)⟩
    · rintro ⟨ch, h3, h4⟩
      exact ⟨((a, b, c), i), (hrun _).2 ⟨entries_mem.2 ⟨ch, h3, split_iff.2 h4⟩, rfl⟩, rfl⟩
  · unfold iterExact
    exact (entries_idx_nodup diff).sublist (((List.takeWhile_sublist _).trans (List.drop_sublist _ _)).map _)

/-- The changes of whole definitions are those whose path has one segment. -/
theorem C30_top_level (diff : List Change) :
    (∀ i, i ∈ iterTopLevel diff ↔ ∃ ch a, diff[i]? = some ch ∧ Segments ch.path a [] []) ∧
    (iterTopLevel diff).Nodup := by
  constructor
  · intro i
    unfold iterTopLevel
    simp only [List.mem_map, List.mem_filter, decide_eq_true_eq]
    constructor
    · rintro ⟨⟨⟨a, b, c⟩, j⟩, ⟨hm, h1, h2⟩, rfl⟩
      simp only at h1 h2
      subst h1 h2
      obtain ⟨ch, h3, h4⟩ := entries_mem.1 hm
      exact ⟨ch, a, h3, split_iff.1 h4⟩
    · rintro ⟨ch, a, h3, h4⟩
      exact ⟨((a, [], []), i), ⟨entries_mem.2 ⟨ch, h3, split_iff.2 h4⟩, rfl, rfl⟩, rfl⟩
  · exact (entries_idx_nodup diff).sublist (List.filter_sublist.map _)

/-- The changes inside a definition are those whose path starts with its name and goes on. -/
theorem C30_second_level (diff : List Change) (parent : Str) :
    (∀ i, i ∈ iterSecondLevel diff parent ↔
      ∃ ch b c, diff[i]? = some ch ∧ b ≠ [] ∧ Segments ch.path parent b c) ∧
    (iterSecondLevel diff parent).Nodup := by
  constructor
  · intro i
    unfold iterSecondLevel
    simp only [List.mem_map, List.mem_filter, decide_eq_true_eq]
    constructor
    · rintro ⟨⟨⟨a, b, c⟩, j⟩, ⟨hm, rfl, h2⟩, rfl⟩
      obtain ⟨ch, h3, h4⟩ := entries_mem.1 hm
      exact ⟨ch, b, c, h3, h2, split_iff.1 h4⟩
    · rintro ⟨ch, b, c, h3, h2, h4⟩
      exact ⟨((parent, b, c), i), ⟨entries_mem.2 ⟨ch, h3, split_iff.2 h4⟩, rfl, h2⟩, rfl⟩
  · exact (entries_idx_nodup diff).sublist (List.filter_sublist.map _)

/-- The added interfaces of a type are the names in its `AddInterfaceImplementation` changes. -/
theorem C30_added_interfaces (diff : List Change) (pre n : Str) :
    n ∈ addedInterfaceImpls diff pre ↔
      ∃ ch ∈ diff, ∃ b c, ch.kind = 5 ∧ Segments ch.path pre b c ∧ n = b.dropWhile (· = '&') := by
  have hrun := run_mem (cmp := cmpStr) (fun _ _ => cmpStr_eq) (g := fun e : Key × Nat => e.1.1)
    (sorted_first (entries_sorted diff)) pre
  unfold addedInterfaceImpls
  simp only [List.mem_map, List.mem_filter, decide_eq_true_eq]
  constructor
  · rintro ⟨⟨⟨a, b, c⟩, i⟩, ⟨hm, hk⟩, rfl⟩
    obtain ⟨h1, h2⟩ := (hrun _).1 hm
    simp only at h2
    subst h2
    obtain ⟨ch, h3, h4⟩ := entries_mem.1 h1
    refine ⟨ch, List.mem_of_getElem? h3, b, c, ?_, split_iff.1 h4, rfl⟩
    simpa [kindAt, h3, addImpl] using hk
  · rintro ⟨ch, hch, b, c, hk, hs, rfl⟩
    obtain ⟨i, hi⟩ := List.getElem?_of_mem hch
    refine ⟨((pre, b, c), i), ⟨(hrun _).2 ⟨entries_mem.2 ⟨ch, hi, split_iff.2 hs⟩, rfl⟩, ?_⟩, rfl⟩
    simp [kindAt, hi, addImpl, hk]

/-- An implementation is only dropped if its removal is recorded. -/
theorem C30_removed_sound (diff : List Change) (pre interface : Str)
    (h : isInterfaceImplRemoved diff pre interface = true) :
    ∃ ch ∈ diff, ∃ b c, ch.kind = 6 ∧ Segments ch.path pre b c ∧ b.dropWhile (· = '&') = interface := by
  obtain ⟨⟨⟨a, b, c⟩, i⟩, hm, hf⟩ := search_found h
  simp only [Ordering.then_eq_eq, cmpStr_eq] at hf
  obtain ⟨⟨rfl, h2⟩, h3⟩ := hf
  obtain ⟨ch, h4, h5⟩ := entries_mem.1 hm
  refine ⟨ch, List.mem_of_getElem? h4, b, c, ?_, split_iff.1 h5, h2⟩
  have := Nat.compare_eq_eq.1 h3
  simpa [kindAt, h4, removeImpl] using this

/-- A recorded removal is found when the other changes inside the type are either about interfaces or
about members whose name sorts after the interface, and nothing but removals is recorded for that
interface. -/
theorem C30_removed_complete_partial (diff : List Change) (pre interface : Str) (hi : Name interface)
    (hother : ∀ ch ∈ diff, ∀ b c, Segments ch.path pre b c →
      b = [] ∨ (∃ n, b = '&' :: n ∧ n.head? ≠ some '&') ∨ interface < b)
    (hkind : ∀ ch ∈ diff, ∀ c, Segments ch.path pre ('&' :: interface) c → ch.kind = 6)
    (ch : Change) (hch : ch ∈ diff) (c : Str) (hs : Segments ch.path pre ('&' :: interface) c) :
    isInterfaceImplRemoved diff pre interface = true := by
  obtain ⟨x, u, rfl, hx⟩ := hi.1
  have hamp : '&' < x := by
    rcases hx with hx | rfl
    · rw [← SchemaPath.isAlpha_eq] at hx
      simp only [SchemaPath.isAlpha, Bool.or_eq_true, Bool.and_eq_true, decide_eq_true_eq] at hx
      show (38 : UInt32) < x.val
      rw [UInt32.lt_iff_toNat_lt]
      have : x.val.toNat = x.toNat := rfl
      rw [this]
      simp
      omega
    · decide
  have hne : x ≠ '&' := by rintro rfl; exact absurd hamp (by decide)
  have htrim1 : ∀ n : Str, n.head? ≠ some '&' → trimAmp ('&' :: n) = n := by
    intro n hn
    unfold trimAmp
    rw [List.dropWhile_cons_of_pos (by simp)]
    cases n with
    | nil => rfl
    | cons y t => exact List.dropWhile_cons_of_neg (by simpa using hn)
  have htrim2 : ∀ b : Str, x :: u < b → trimAmp b = b := by
    intro b hb
    cases b with
    | nil => exact absurd hb (by simp)
    | cons y t =>
      refine List.dropWhile_cons_of_neg ?_
      simp only [decide_eq_true_eq]
      rintro rfl
      rcases List.cons_lt_cons_iff.1 hb with h | ⟨h, -⟩
      · exact absurd (Char.lt_trans h hamp) (by simp)
      · exact hne h
  have hampcons : ∀ n m : Str, cmpStr ('&' :: n) ('&' :: m) = cmpStr n m := by
    intro n m
    unfold cmpStr
    rw [List.compareLex_cons_cons]
    rfl
  have hamplt : ∀ n : Str, cmpStr ('&' :: n) (x :: u) = .lt := by
    intro n
    rw [cmpStr_lt, List.cons_lt_cons_iff]
    exact Or.inl hamp
  obtain ⟨i, hidx⟩ := List.getElem?_of_mem hch
  have hk := hkind ch hch c hs
  refine search_complete ?_ (a := ((pre, '&' :: (x :: u), c), i)) (entries_mem.2 ⟨ch, hidx, split_iff.2 hs⟩) ?_
  rotate_left
  · have h1 : trimAmp ('&' :: (x :: u)) = x :: u := htrim1 _ (by simpa using hne)
    simp [cmpStr_eq.2, kindAt, hidx, hk, removeImpl, h1, Nat.compare_eq_eq]
  · unfold Mono
    refine List.pairwise_iff_forall_sublist.2 fun {p q} hpq => ?_
    have hle := List.pairwise_iff_forall_sublist.1 (sorted_key (entries_sorted diff)) hpq
    have hpm : p ∈ entries diff := hpq.subset (by simp)
    have hqm : q ∈ entries diff := hpq.subset (by simp)
    obtain ⟨⟨p1, p2, p3⟩, pi⟩ := p
    obtain ⟨⟨q1, q2, q3⟩, qi⟩ := q
    obtain ⟨pc, hpc, hpseg⟩ := entries_mem.1 hpm
    obtain ⟨qc, hqc, hqseg⟩ := entries_mem.1 hqm
    have hpseg := split_iff.1 hpseg
    have hqseg := split_iff.1 hqseg
    simp only [cmpKey] at hle ⊢
    cases hq : cmpStr q1 pre with
    | gt => exact rank_le2 _
    | lt =>
      have hpq1 : (cmpStr p1 q1).isLE = true := by
        cases hc : cmpStr p1 q1 <;> simp_all [Ordering.isLE, Ordering.then]
      have : cmpStr p1 pre = .lt := TransCmp.lt_of_isLE_of_lt hpq1 hq
      simp [this, Ordering.then, rank]
    | eq =>
      have hq := cmpStr_eq.1 hq
      subst hq
      cases hp1 : cmpStr p1 q1 with
      | lt => simp [Ordering.then, rank]
      | gt => rw [hp1] at hle; cases hle
      | eq =>
        have hp1 := cmpStr_eq.1 hp1
        subst hp1
        have hrefl : cmpStr p1 p1 = .eq := cmpStr_eq.2 rfl
        have hle2 : (cmpStr p2 q2).isLE = true := by
          rw [hrefl] at hle
          cases hc : cmpStr p2 q2 <;> simp_all [Ordering.isLE, Ordering.then]
        have hP := hother pc (List.mem_of_getElem? hpc) p2 p3 hpseg
        have hQ := hother qc (List.mem_of_getElem? hqc) q2 q3 hqseg
        rcases hP with rfl | ⟨n, rfl, hn⟩ | hgt
        · have : cmpStr (trimAmp []) (x :: u) = .lt := rfl
          simp [this, Ordering.then, rank]
        · rcases hQ with rfl | ⟨m, rfl, hm⟩ | hgt
          · exact absurd hle2 (by simp [cmpStr, List.compareLex, Ordering.isLE])
          · rw [htrim1 n hn, htrim1 m hm]
            rw [hampcons] at hle2
            cases hmx : cmpStr m (x :: u) with
            | gt => exact rank_le2 _
            | lt =>
              have := TransCmp.lt_of_isLE_of_lt hle2 hmx
              simp [this, Ordering.then, rank]
            | eq =>
              have hmx := cmpStr_eq.1 hmx
              subst hmx
              have hqk : kindAt diff qi = removeImpl := by
                have := hkind qc (List.mem_of_getElem? hqc) q3 hqseg
                simp [kindAt, hqc, this, removeImpl]
              have hqe : compare (kindAt diff qi) removeImpl = .eq := Nat.compare_eq_eq.2 hqk
              cases hnx : cmpStr n (x :: u) with
              | lt => simp [Ordering.then, rank]
              | gt => rw [hnx] at hle2; cases hle2
              | eq =>
                have hnx := cmpStr_eq.1 hnx
                subst hnx
                have hpk : kindAt diff pi = removeImpl := by
                  have := hkind pc (List.mem_of_getElem? hpc) p3 hpseg
                  simp [kindAt, hpc, this, removeImpl]
                rw [hpk, hqk]
                exact Nat.le_refl _
          · rw [htrim2 q2 hgt]
            have : cmpStr q2 (x :: u) = .gt := by
              rw [OrientedCmp.eq_swap (cmp := cmpStr), cmpStr_lt.2 hgt]; rfl
            rw [this]
            exact rank_le2 _
        · have hltp := cmpStr_lt.2 hgt
          have hlt := TransCmp.lt_of_lt_of_isLE hltp hle2
          rcases hQ with rfl | ⟨m, rfl, hm⟩ | hgt'
          · exact absurd (cmpStr_lt.1 hlt) (by simp)
          · have h1 := hamplt m
            rw [OrientedCmp.eq_swap (cmp := cmpStr), hlt] at h1
            cases h1
          · rw [htrim2 q2 hgt']
            have : cmpStr q2 (x :: u) = .gt := by
              rw [OrientedCmp.eq_swap (cmp := cmpStr), hlt]; rfl
            rw [this]
            exact rank_le2 _

/-- **The claim is false**: the search compares interface names without `&`, but the list is sorted with
it.  A changed field whose name sorts before the interface's hides the recorded removal. -/
theorem C30_false :
    (⟨"X.&b".toList, 6⟩ : Change) ∈ [⟨"X.&b".toList, 6⟩, (⟨"X.a".toList, 7⟩ : Change)] ∧
    isInterfaceImplRemoved [⟨"X.&b".toList, 6⟩, ⟨"X.a".toList, 7⟩] "X".toList "b".toList = false := by
  refine ⟨by simp, by decide +kernel⟩

/-! Lookups on a small patch, and one that meets the hypotheses of the partial theorem. -/
def sample : List Change := [⟨"X.f".toList, 8⟩, ⟨"X.&Node".toList, 6⟩, ⟨"X".toList, 3⟩, ⟨"X.&A".toList, 5⟩, ⟨"X.f.a".toList, 31⟩]

example : iterExact sample ("X".toList, "f".toList, []) = [0] ∧ iterTopLevel sample = [2] ∧
    addedInterfaceImpls sample "X".toList = ["A".toList] ∧
    isInterfaceImplRemoved sample "X".toList "Node".toList = true ∧
    isInterfaceImplRemoved sample "X".toList "A".toList = false := by decide +kernel

example : Segments "X.f.a".toList "X".toList "f".toList "a".toList := by
  rw [← split_iff]; decide +kernel

example : (∀ ch ∈ sample, ∀ b c, Segments ch.path "X".toList b c →
    b = [] ∨ (∃ n, b = '&' :: n ∧ n.head? ≠ some '&') ∨ "Node".toList < b) ∧
    ∀ ch ∈ sample, ∀ c, Segments ch.path "X".toList ('&' :: "Node".toList) c → ch.kind = 6 := by
  constructor
  · intro ch hch b c h
    have h := split_iff.2 h
    simp only [sample, List.mem_cons, List.not_mem_nil, or_false] at hch
    rcases hch with rfl | rfl | rfl | rfl | rfl <;> cases h
    · exact Or.inr (Or.inr (by decide +kernel))
    · exact Or.inr (Or.inl ⟨"Node".toList, by decide +kernel, by decide +kernel⟩)
    · exact Or.inl (by decide +kernel)
    · exact Or.inr (Or.inl ⟨"A".toList, by decide +kernel, by decide +kernel⟩)
    · exact Or.inr (Or.inr (by decide +kernel))
  · intro ch hch c h
    have h := split_iff.2 h
    simp only [sample, List.mem_cons, List.not_mem_nil, or_false] at hch
    have hne : ∀ p : Str, (splitPath p).2.1 ≠ '&' :: "Node".toList → splitPath p = ("X".toList, '&' :: "Node".toList, c) → False :=
      fun p h1 h2 => h1 (by rw [h2])
    rcases hch with rfl | rfl | rfl | rfl | rfl
    · exact (hne _ (by decide +kernel) h).elim
    · rfl
    · exact (hne _ (by decide +kernel) h).elim
    · exact (hne _ (by decide +kernel) h).elim
    · exact (hne _ (by decide +kernel) h).elim

end Verif.PatchPaths
