import Verif.DefaultMerge.Lemmas
/-!
# C11: filling in default fields gives every key exactly once

The claim is false of the code when two or more defaults come after all existing keys: lines 63-68 of
`merge.rs` push the remaining defaults under the key of the previous one.
-/
namespace Verif.DefaultMerge
variable {V : Type}

private theorem one_of_perm {l : List V} {v : V} (h : l.Perm [v]) : l = [v] :=
  List.perm_singleton.1 h

theorem valuesAt_mergeDefaults_of_rest {existing : List (Field V)} {d : Field V}
    {ds : List (Field V)} (he : Ordered existing) (hd : Ordered (d :: ds))
    (h : (scan existing d ds).rest = []) (k : Key) :
    valuesAt (mergeDefaults existing (d :: ds)) k =
      valuesAt existing k ++ (if valuesAt existing k = [] then valuesAt (d :: ds) k else []) := by
  have hp := scan_pushed existing d ds he hd
  rw [h, List.append_nil] at hp
  simp only [mergeDefaults, h, List.map_nil, List.append_nil]
  rw [hp, valuesAt_append, valuesAt_filter_absent]

/-- **C11** (part): the claim holds whenever at most one default comes after all existing keys, for
any overlap of the two key lists and any way the final sort orders equal keys. -/
theorem C11_filled_partial (existing defaults out : List (Field V))
    (he : Ordered existing) (hd : Ordered defaults)
    (ht : (trailing existing defaults).length ≤ 1)
    (ho : SortOf out (mergeDefaults existing defaults)) :
    Filled existing defaults out := by
  intro k
  have hk := valuesAt_perm_length ho.1 k
  cases defaults with
  | nil =>
    simp only [mergeDefaults] at hk
    rcases valuesAt_ordered' he k with h | ⟨f, _, _, h⟩
    · rw [h] at hk ⊢; rw [List.perm_nil.1 hk]; simp [valuesAt]
    · rw [h] at hk ⊢; rw [one_of_perm hk]
  | cons d ds =>
    have hr : (scan existing d ds).rest = [] := by
      rw [scan_rest existing d ds he hd]
      match h : trailing existing (d :: ds) with
      | [] => rfl
      | [_] => rfl
      | _ :: _ :: _ => rw [h] at ht; simp at ht
    rw [valuesAt_mergeDefaults_of_rest he hd hr] at hk
    rcases valuesAt_ordered' he k with h | ⟨f, _, _, h⟩
    · rw [h] at hk ⊢
      simp only [List.nil_append, if_true] at hk
      rcases valuesAt_ordered' hd k with h' | ⟨g, _, _, h'⟩
      · rw [h'] at hk ⊢; simpa using List.perm_nil.1 hk
      · rw [h'] at hk ⊢; simpa using one_of_perm hk
    · rw [h] at hk ⊢
      simp only [List.cons_ne_nil, if_false, List.append_nil] at hk
      exact one_of_perm hk

/-- The condition of `C11_filled_partial` is exact: with two or more defaults after all existing keys
the claim is always violated. -/
theorem C11_filled_iff (existing defaults out : List (Field V))
    (he : Ordered existing) (hd : Ordered defaults)
    (ho : SortOf out (mergeDefaults existing defaults)) :
    Filled existing defaults out ↔ (trailing existing defaults).length ≤ 1 := by
  refine ⟨fun hf => ?_, fun ht => C11_filled_partial existing defaults out he hd ht ho⟩
  cases defaults with
  | nil => simp [trailing]
  | cons d ds =>
    refine Nat.le_of_not_lt fun hlt => ?_
    have hrest : (scan existing d ds).rest ≠ [] := by
      rw [scan_rest existing d ds he hd]
      match h : trailing existing (d :: ds) with
      | [] => rw [h] at hlt; simp at hlt
      | [_] => rw [h] at hlt; simp at hlt
      | _ :: _ :: _ => simp
    obtain ⟨f, hfp, hfk⟩ := scan_key existing d ds hrest
    generalize hs : scan existing d ds = s at *
    have hlen : ∀ k, (valuesAt out k).length ≤ 1 := by
      intro k
      rw [hf k]
      split
      · simp; omega
      · simp
    have h1 := (valuesAt_perm_length ho.1 s.key).length_eq
    simp only [mergeDefaults, hs, valuesAt_append, List.length_append] at h1
    have h2 : 1 ≤ (valuesAt s.pushed s.key).length := by
      refine List.length_pos_iff.2 fun hn => valuesAt_eq_nil.1 hn f hfp hfk
    have h3 : 1 ≤ (valuesAt (s.rest.map fun f => (⟨s.key, f.value⟩ : Field V)) s.key).length := by
      refine List.length_pos_iff.2 fun hn => ?_
      obtain ⟨x, hx⟩ := List.exists_mem_of_ne_nil _ hrest
      exact valuesAt_eq_nil.1 hn ⟨s.key, x.value⟩ (List.mem_map.2 ⟨x, hx, rfl⟩) rfl
    have := hlen s.key
    omega

/-- After a filling that satisfies the claim the object is again strictly ordered, which is what the
next merge and the binary search of `make_inaccessible` rely on. -/
theorem C11_ordered_partial (existing defaults out : List (Field V))
    (he : Ordered existing) (hd : Ordered defaults)
    (ht : (trailing existing defaults).length ≤ 1)
    (ho : SortOf out (mergeDefaults existing defaults)) : Ordered out := by
  refine ordered_of_sorted ho.2 fun k => ?_
  rw [C11_filled_partial existing defaults out he hd ht ho k]
  split
  · simp; omega
  · simp

/-- The hypotheses of `C11_filled_partial` are met by a non-trivial overlap: keys 1 and 3 exist,
defaults for 1, 2 and 4. -/
example :
    let e : List (Field Nat) := [⟨⟨1, 1⟩, 10⟩, ⟨⟨3, 3⟩, 30⟩]
    let d : List (Field Nat) := [⟨⟨1, 1⟩, 0⟩, ⟨⟨2, 2⟩, 0⟩, ⟨⟨4, 4⟩, 0⟩]
    Ordered e ∧ Ordered d ∧ (trailing e d).length ≤ 1 ∧
      SortOf [⟨⟨1, 1⟩, 10⟩, ⟨⟨2, 2⟩, 0⟩, ⟨⟨3, 3⟩, 30⟩, ⟨⟨4, 4⟩, 0⟩] (mergeDefaults e d) := by
  refine ⟨?_, ?_, ?_, ?_, ?_⟩
  · unfold Ordered; decide
  · unfold Ordered; decide
  · decide
  · simp only [mergeDefaults, scan, Key.cmp]; decide
  · unfold Sorted; decide

/-- **C11 is false**: an object without fields and three null defaults (keys 1, 2, 3): key 1 is stored
three times and keys 2 and 3 are missing, whatever the sort does. -/
theorem C11_false :
    ∃ existing defaults : List (Field (Option Nat)), Ordered existing ∧ Ordered defaults ∧
      ∀ out, SortOf out (mergeDefaults existing defaults) →
        valuesAt out ⟨1, 1⟩ = [none, none, none] ∧
        valuesAt out ⟨2, 2⟩ = [] ∧ valuesAt out ⟨3, 3⟩ = [] ∧
        ¬ Filled existing defaults out := by
  refine ⟨[], [⟨⟨1, 1⟩, none⟩, ⟨⟨2, 2⟩, none⟩, ⟨⟨3, 3⟩, none⟩], ?_, ?_, ?_⟩
  · unfold Ordered; decide
  · unfold Ordered; decide
  · intro out ho
    have h := fun k => valuesAt_perm_length ho.1 k
    have hm : mergeDefaults ([] : List (Field (Option Nat)))
        [⟨⟨1, 1⟩, none⟩, ⟨⟨2, 2⟩, none⟩, ⟨⟨3, 3⟩, none⟩] =
        [⟨⟨1, 1⟩, none⟩, ⟨⟨1, 1⟩, none⟩, ⟨⟨1, 1⟩, none⟩] := by
      simp [mergeDefaults, scan]
    rw [hm] at h
    have h1 : valuesAt out ⟨1, 1⟩ = [none, none, none] :=
      (List.perm_replicate (n := 3) (a := none)).1 (h ⟨1, 1⟩)
    have h2 : valuesAt out ⟨2, 2⟩ = [] := List.perm_nil.1 (h ⟨2, 2⟩)
    have h3 : valuesAt out ⟨3, 3⟩ = [] := List.perm_nil.1 (h ⟨3, 3⟩)
    refine ⟨h1, h2, h3, fun hf => ?_⟩
    have := hf ⟨2, 2⟩
    rw [h2] at this
    revert this
    decide

/-- A second way the claim fails: `fields_sorted_by_key` is sorted before `@skip`/`@include` hide
fields (`shapes/mod.rs:188-197`), while `DefaultFieldShape::key` (`shape/root.rs:121-131`) gives a
hidden field position `None` (here `0`).  Defaults `a` at 1 and hidden `b`, originally at 2, then are
not in key order and `b`, although present, is added a second time. -/
theorem C11_hidden_default_duplicated :
    ∃ (existing : List (Field (Option Nat))) (shapes : List (Key × Bool)),
      Ordered existing ∧ (shapes.Pairwise fun a b => a.1.Before b.1) ∧
      ∀ out, SortOf out (mergeDefaults existing
          (shapes.map fun s => ⟨s.1.withPositionIf s.2, none⟩)) →
        (valuesAt existing ⟨0, 7⟩).length = 1 ∧ (valuesAt out ⟨0, 7⟩).length = 2 := by
  refine ⟨[⟨⟨0, 7⟩, some 1⟩, ⟨⟨1, 9⟩, some 2⟩], [(⟨1, 9⟩, true), (⟨2, 7⟩, false)], ?_, ?_, ?_⟩
  · unfold Ordered; decide
  · decide
  · intro out ho
    rw [(valuesAt_perm_length ho.1 _).length_eq]
    simp only [mergeDefaults, scan, Key.cmp, List.map, Key.withPositionIf]
    decide

/-- **C11**, for fields returned by a subgraph (`recursive_merge_object`): whenever the merge does not
panic, each key of either list occurs exactly once; a key found in both has the merged value. -/
theorem C11_merge_fields (mergeV : V → V → Option V) (existing new merged out : List (Field V))
    (he : Ordered existing) (hn : Ordered new)
    (hm : mergeObject mergeV existing new = some merged) (ho : SortOf out merged) :
    Merged mergeV existing new out ∧ Ordered out := by
  have key : Merged mergeV existing new out := by
    intro k
    have hk := valuesAt_perm_length ho.1 k
    cases new with
    | nil =>
      simp only [mergeObject, Option.some.injEq] at hm
      subst hm
      rcases valuesAt_ordered' he k with h | ⟨f, _, _, h⟩
      · rw [h] at hk ⊢; simpa [valuesAt] using List.perm_nil.1 hk
      · rw [h] at hk ⊢; simpa [valuesAt] using one_of_perm hk
    | cons d ds =>
      simp only [mergeObject, Option.map_eq_some_iff] at hm
      obtain ⟨r, hr, rfl⟩ := hm
      have h2 := mergeLoop_pushed mergeV existing d ds he hn r hr
      have h1 := forall₂_key (mergeLoop_kept mergeV existing d ds he hn r hr) he k
      rw [valuesAt_append, h2, valuesAt_filter_absent] at hk
      rcases valuesAt_ordered' he k with h | ⟨f, _, _, h⟩
      · rw [h] at hk ⊢
        simp only [h1.1 h, List.nil_append, if_true] at hk
        rcases valuesAt_ordered' hn k with h' | ⟨g, _, _, h'⟩
        · rw [h'] at hk ⊢; exact List.perm_nil.1 hk
        · rw [h'] at hk ⊢; exact one_of_perm hk
      · obtain ⟨w, hw, hR⟩ := h1.2 _ h
        rw [h] at hk ⊢
        simp only [hw, List.cons_ne_nil, if_false, List.append_nil] at hk
        have hk := one_of_perm hk
        rcases valuesAt_ordered' hn k with h' | ⟨g, _, _, h'⟩
        · simp only [h'] at hR ⊢; rw [hk, hR]
        · simp only [h'] at hR ⊢
          exact ⟨w, hR, hk⟩
  refine ⟨key, ordered_of_sorted ho.2 fun k => ?_⟩
  have := key k
  rcases valuesAt_ordered' he k with h | ⟨f, _, _, h⟩ <;>
    rcases valuesAt_ordered' hn k with h' | ⟨g, _, _, h'⟩ <;> simp only [h, h'] at this
  · simp [this]
  · simp [this]
  · simp [this]
  · obtain ⟨v, _, hv⟩ := this; simp [hv]

/-- The merge panics only because merging the two values of a common key does. -/
theorem C11_merge_fields_panic (mergeV : V → V → Option V) (existing new : List (Field V))
    (hm : mergeObject mergeV existing new = none) :
    ∃ e ∈ existing, ∃ n ∈ new, e.key = n.key ∧ mergeV e.value n.value = none := by
  cases new with
  | nil => simp [mergeObject] at hm
  | cons d ds =>
    simp only [mergeObject, Option.map_eq_none_iff] at hm
    induction existing, d, ds using mergeLoop.induct (mergeV := mergeV) with
    | case1 d ds => simp [mergeLoop] at hm
    | case2 e es d ds h ih =>
      rw [mergeLoop.eq_def] at hm; simp only [h, Option.map_eq_none_iff] at hm
      obtain ⟨x, hx, y, hy, hxy⟩ := ih hm
      exact ⟨x, List.mem_cons_of_mem _ hx, y, hy, hxy⟩
    | case3 e es d h => rw [mergeLoop.eq_def] at hm; simp [h] at hm
    | case4 e es d h d' ds' ih =>
      rw [mergeLoop.eq_def] at hm; simp only [h, Option.map_eq_none_iff] at hm
      obtain ⟨x, hx, y, hy, hxy⟩ := ih hm
      exact ⟨x, hx, y, List.mem_cons_of_mem _ hy, hxy⟩
    | case5 e es d ds h hv =>
      exact ⟨e, by simp, d, by simp, Key.cmp_eq.1 h, hv⟩
    | case6 e es d h v hv => rw [mergeLoop.eq_def] at hm; simp [h, hv] at hm
    | case7 e es d h v hv d' ds' ih =>
      rw [mergeLoop.eq_def] at hm; simp only [h, hv, Option.map_eq_none_iff] at hm
      obtain ⟨x, hx, y, hy, hxy⟩ := ih hm
      exact ⟨x, List.mem_cons_of_mem _ hx, y, List.mem_cons_of_mem _ hy, hxy⟩

/-- A merge with a common key, a key only on the left and two trailing new ones. -/
example : mergeObject (fun a b : Nat => some (a + b)) [⟨⟨1, 1⟩, 10⟩, ⟨⟨2, 2⟩, 20⟩]
      [⟨⟨2, 2⟩, 5⟩, ⟨⟨3, 3⟩, 6⟩, ⟨⟨4, 4⟩, 7⟩] =
    some [⟨⟨1, 1⟩, 10⟩, ⟨⟨2, 2⟩, 25⟩, ⟨⟨3, 3⟩, 6⟩, ⟨⟨4, 4⟩, 7⟩] := by
  simp only [mergeObject, mergeLoop, Key.cmp]; decide

end Verif.DefaultMerge
