import Verif.Wrapping.Spec
/-
Representation of the 16-bit word by an abstract pair (inner requiredness, list wrappings).
-/
namespace Verif.Wrapping

/-- The word `w` encodes the inner flag `inner` and the wrappings `ls` (innermost first). -/
structure Rep (w : Wrapping) (inner : Bool) (ls : List ListWrapping) : Prop where
  len : ls.length ≤ 10
  low : ∀ i, i < 11 → w.bits.getLsbD i = decide (ls[i]? = some .listNonNull)
  mid : ∀ i, i < 4 → w.bits.getLsbD (11 + i) = ls.length.testBit i
  top : w.bits.getLsbD 15 = inner

theorem mask_len : ∀ i, i < 16 → LIST_WRAPPER_LENGTH_MASK.getLsbD i = decide (11 ≤ i ∧ i < 15) := by
  decide

theorem mask_inner : ∀ i, i < 16 → INNER_IS_REQUIRED_FLAG.getLsbD i = decide (i = 15) := by
  decide

theorem mask_low : ∀ len, len < 12 → ∀ i, i < 16 →
    ((1#16 <<< len) - 1#16).getLsbD i = decide (i < len) := by
  decide

theorem bit_one (k i : Nat) (hi : i < 16) : (1#16 <<< k).getLsbD i = decide (i = k) := by
  simp only [BitVec.getLsbD_shiftLeft, hi, decide_true, Bool.true_and, BitVec.getLsbD_one]
  by_cases h : i = k
  · subst h; simp
  · by_cases h2 : i < k
    · simp [h2, h]
    · have : ¬ (i - k = 0) := by omega
      simp [h2, h, this]

theorem and_bit_ne_zero (b : BitVec 16) (k : Nat) (hk : k < 16) :
    (b &&& (1#16 <<< k) != 0#16) = b.getLsbD k := by
  by_cases h : b.getLsbD k = true
  · rw [h]
    simp only [bne_iff_ne, ne_eq]
    intro h0
    have := congrArg (fun x => x.getLsbD k) h0
    simp [BitVec.getLsbD_and, bit_one k k hk, h, -BitVec.getLsbD_shiftLeft] at this
  · simp only [Bool.not_eq_true] at h
    rw [h]
    simp only [bne_eq_false_iff_eq]
    apply BitVec.eq_of_getLsbD_eq
    intro i hi
    rw [BitVec.getLsbD_and, bit_one k i hi]
    by_cases hik : i = k
    · subst hik; simp [h]
    · simp [hik]

theorem flag_eq : INNER_IS_REQUIRED_FLAG = 1#16 <<< 15 := by decide

theorem innerIsRequired_eq (w : Wrapping) : w.innerIsRequired = w.bits.getLsbD 15 := by
  unfold Wrapping.innerIsRequired
  rw [flag_eq]
  exact and_bit_ne_zero _ _ (by omega)

theorem rep_getListLength {w inner ls} (h : Rep w inner ls) : w.getListLength = ls.length := by
  unfold Wrapping.getListLength
  have : (w.bits &&& LIST_WRAPPER_LENGTH_MASK) >>> LIST_WRAPPER_SHIFT = BitVec.ofNat 16 ls.length := by
    apply BitVec.eq_of_getLsbD_eq
    intro i hi
    rw [BitVec.getLsbD_ushiftRight, BitVec.getLsbD_and, BitVec.getLsbD_ofNat]
    simp only [LIST_WRAPPER_SHIFT, hi, decide_true, Bool.true_and]
    by_cases h4 : i < 4
    · rw [h.mid i h4, mask_len (11 + i) (by omega)]
      simp; omega
    · have hl := h.len
      have : ls.length.testBit i = false := by
        apply Nat.testBit_lt_two_pow
        calc ls.length < 2 ^ 4 := by omega
          _ ≤ 2 ^ i := Nat.pow_le_pow_right (by omega) (by omega)
      rw [this]
      by_cases h5 : 11 + i < 16
      · rw [mask_len _ h5]; simp; omega
      · have : w.bits.getLsbD (11 + i) = false := BitVec.getLsbD_of_ge _ _ (by omega)
        simp [this]
  rw [this]
  have hl := h.len
  simp only [BitVec.toNat_ofNat]
  omega

theorem rep_inner {w inner ls} (h : Rep w inner ls) : w.innerIsRequired = inner := by
  rw [innerIsRequired_eq]; exact h.top

theorem rep_listWrappings {w inner ls} (h : Rep w inner ls) : w.listWrappings = ls := by
  unfold Wrapping.listWrappings
  rw [rep_getListLength h]
  apply List.ext_getElem
  · simp
  · intro i h1 h2
    have hl := h.len
    simp only [List.getElem_map, List.getElem_range]
    have hb := and_bit_ne_zero w.bits i (by omega)
    have hlow := h.low i (by omega)
    rw [List.getElem?_eq_getElem h2] at hlow
    rw [hlow] at hb
    cases hx : ls[i] with
    | listNonNull =>
      rw [hx] at hb
      simp only [decide_true, bne_iff_ne, ne_eq] at hb
      simp [hb]
    | list =>
      rw [hx] at hb
      simp at hb
      simp [hb]

theorem rep_new : Rep .new false [] := by
  constructor
  · simp
  · intro i hi; simp [Wrapping.new]
  · intro i hi; simp [Wrapping.new]
  · simp [Wrapping.new]

/-- The word determines the abstract type and conversely. -/
theorem rep_unique {w w' inner ls} (h : Rep w inner ls) (h' : Rep w' inner ls) : w = w' := by
  cases w with | mk b => cases w' with | mk b' =>
  congr 1
  apply BitVec.eq_of_getLsbD_eq
  intro i hi
  by_cases h1 : i < 11
  · rw [h.low i h1, h'.low i h1]
  · by_cases h2 : i < 15
    · have e : i = 11 + (i - 11) := by omega
      rw [e, h.mid _ (by omega), h'.mid _ (by omega)]
    · have e : i = 15 := by omega
      subst e
      rw [h.top, h'.top]

theorem setListLength_bits {w w' : Wrapping} {len : Nat} (h : w.setListLength len = some w') (i : Nat) (hi : i < 16) :
    w'.bits.getLsbD i =
      if i < 11 then (w.bits.getLsbD i && decide (i < len))
      else if i < 15 then len.testBit (i - 11) else w.bits.getLsbD 15 := by
  unfold Wrapping.setListLength at h
  split at h
  · rename_i hlen
    injection h with h; subst h
    simp only [MAX_LIST_WRAPINGS] at hlen
    simp only [BitVec.getLsbD_or, BitVec.getLsbD_and, mask_inner i hi, mask_low len (by omega) i hi]
    have hs : (BitVec.ofNat 16 len <<< LIST_WRAPPER_SHIFT).getLsbD i =
        (decide (11 ≤ i) && len.testBit (i - 11)) := by
      rw [BitVec.getLsbD_shiftLeft, BitVec.getLsbD_ofNat]
      simp only [LIST_WRAPPER_SHIFT, hi, decide_true, Bool.true_and]
      by_cases h11 : i < 11
      · have : ¬ (11 ≤ i) := by omega
        simp [h11, this]
      · have h2 : 11 ≤ i := by omega
        have h3 : i - 11 < 16 := by omega
        simp [h11, h2, h3]
    rw [hs]
    by_cases h11 : i < 11
    · have h1 : ¬ (i = 15) := by omega
      have h2 : ¬ (11 ≤ i) := by omega
      simp [h11, h1, h2]
    · have h2 : 11 ≤ i := by omega
      have h4 : ¬ (i < len) := by omega
      by_cases h15 : i < 15
      · have h1 : ¬ (i = 15) := by omega
        simp [h11, h1, h2, h15, h4]
      · have h1 : i = 15 := by omega
        subst h1
        have : len.testBit 4 = false := Nat.testBit_lt_two_pow (by omega)
        simp [this, h4]
  · cases h

theorem setListLength_isSome (w : Wrapping) (len : Nat) : (w.setListLength len).isSome = decide (len ≤ 10) := by
  unfold Wrapping.setListLength MAX_LIST_WRAPINGS
  by_cases h : len < 11
  · have : len ≤ 10 := by omega
    simp [h, this]
  · have : ¬ len ≤ 10 := by omega
    simp [h, this]

theorem getElem?_append_single {α} (ls : List α) (x : α) (i : Nat) :
    (ls ++ [x])[i]? = if i < ls.length then ls[i]? else if i = ls.length then some x else none := by
  by_cases h : i < ls.length
  · simp [h, List.getElem?_append_left h]
  · by_cases h2 : i = ls.length
    · subst h2; simp
    · simp [h, h2]; omega

theorem rep_list {w inner ls} (h : Rep w inner ls) (hl : ls.length < 10) :
    ∃ w', w.list = some w' ∧ Rep w' inner (ls ++ [.list]) := by
  have hlen := rep_getListLength h
  have hs : (w.setListLength (ls.length + 1)).isSome := by rw [setListLength_isSome]; simp; omega
  obtain ⟨w1, hw1⟩ := Option.isSome_iff_exists.mp hs
  have hb := setListLength_bits hw1
  refine ⟨⟨w1.bits &&& ~~~(1#16 <<< ls.length)⟩, ?_, ?_⟩
  · simp [Wrapping.list, hlen, hw1]
  · have key : ∀ i, i < 16 → (w1.bits &&& ~~~(1#16 <<< ls.length)).getLsbD i
        = (w1.bits.getLsbD i && !decide (i = ls.length)) := by
      intro i hi
      rw [BitVec.getLsbD_and, BitVec.getLsbD_not, bit_one _ _ hi]
      simp [hi]
    constructor
    · simp; omega
    · intro i hi
      rw [key i (by omega), hb i (by omega), getElem?_append_single]
      simp only [hi, if_true]
      rw [h.low i hi]
      by_cases h1 : i < ls.length
      · have h2 : i ≠ ls.length := by omega
        have h3 : i < ls.length + 1 := by omega
        simp [h1, h2, h3]
      · by_cases h2 : i = ls.length
        · subst h2; simp
        · simp [h1, h2]
    · intro i hi
      have hi2 : ¬ (11 + i < 11) := by omega
      have hi3 : 11 + i < 15 := by omega
      rw [key _ (by omega), hb _ (by omega)]
      have : ¬ (11 + i = ls.length) := by omega
      simp [hi2, hi3, this]
    · rw [key _ (by omega), hb _ (by omega), h.top]
      have : ¬ (15 = ls.length) := by omega
      simp [this]

theorem rep_listNonNull {w inner ls} (h : Rep w inner ls) (hl : ls.length < 10) :
    ∃ w', w.listNonNull = some w' ∧ Rep w' inner (ls ++ [.listNonNull]) := by
  have hlen := rep_getListLength h
  have hs : (w.setListLength (ls.length + 1)).isSome := by rw [setListLength_isSome]; simp; omega
  obtain ⟨w1, hw1⟩ := Option.isSome_iff_exists.mp hs
  have hb := setListLength_bits hw1
  refine ⟨⟨w1.bits ||| (1#16 <<< ls.length)⟩, ?_, ?_⟩
  · simp [Wrapping.listNonNull, hlen, hw1]
  · have key : ∀ i, i < 16 → (w1.bits ||| (1#16 <<< ls.length)).getLsbD i
        = (w1.bits.getLsbD i || decide (i = ls.length)) := by
      intro i hi
      rw [BitVec.getLsbD_or, bit_one _ _ hi]
    constructor
    · simp; omega
    · intro i hi
      rw [key i (by omega), hb i (by omega), getElem?_append_single]
      simp only [hi, if_true]
      rw [h.low i hi]
      by_cases h1 : i < ls.length
      · have h2 : i ≠ ls.length := by omega
        have h3 : i < ls.length + 1 := by omega
        simp [h1, h2, h3]
      · by_cases h2 : i = ls.length
        · subst h2; simp
        · simp [h1, h2]
    · intro i hi
      have hi2 : ¬ (11 + i < 11) := by omega
      have hi3 : 11 + i < 15 := by omega
      rw [key _ (by omega), hb _ (by omega)]
      have : ¬ (11 + i = ls.length) := by omega
      simp [hi2, hi3, this]
    · rw [key _ (by omega), hb _ (by omega), h.top]
      have : ¬ (15 = ls.length) := by omega
      simp [this]

theorem rep_full {w inner ls} (h : Rep w inner ls) (hl : ls.length = 10) :
    w.list = none ∧ w.listNonNull = none := by
  have hlen := rep_getListLength h
  have hs : w.setListLength (ls.length + 1) = none := by
    have := setListLength_isSome w (ls.length + 1)
    rw [hl] at this ⊢
    cases hx : w.setListLength (10 + 1) with
    | none => rfl
    | some _ => rw [hx] at this; simp at this
  constructor
  · simp [Wrapping.list, hlen, hs]
  · simp [Wrapping.listNonNull, hlen, hs]

theorem rep_nonNull_named {w inner} (h : Rep w inner []) : Rep w.nonNull true [] := by
  have hlen := rep_getListLength h
  unfold Wrapping.nonNull
  simp only [hlen, List.length_nil, if_true]
  constructor
  · simp
  · intro i hi
    have := h.low i hi
    rw [BitVec.getLsbD_or, this, mask_inner i (by omega)]
    simp; omega
  · intro i hi
    have := h.mid i hi
    rw [BitVec.getLsbD_or, this, mask_inner _ (by omega)]
    simp; omega
  · rw [BitVec.getLsbD_or, mask_inner _ (by omega)]
    simp

theorem rep_nonNull_list {w inner ls x} (h : Rep w inner (ls ++ [x])) :
    Rep w.nonNull inner (ls ++ [.listNonNull]) := by
  have hlen := rep_getListLength h
  have hle := h.len
  unfold Wrapping.nonNull
  have h0 : w.getListLength ≠ 0 := by rw [hlen]; simp
  simp only [h0, if_false]
  have e : w.getListLength - 1 = ls.length := by rw [hlen]; simp
  rw [e]
  simp at hle
  have key : ∀ i, i < 16 → (w.bits ||| (1#16 <<< ls.length)).getLsbD i
        = (w.bits.getLsbD i || decide (i = ls.length)) := by
      intro i hi
      rw [BitVec.getLsbD_or, bit_one _ _ hi]
  constructor
  · simpa using hle
  · intro i hi
    rw [key i (by omega), h.low i hi, getElem?_append_single, getElem?_append_single]
    by_cases h1 : i < ls.length
    · have h2 : i ≠ ls.length := by omega
      simp [h1, h2]
    · by_cases h2 : i = ls.length
      · subst h2; simp
      · simp [h1, h2]
  · intro i hi
    rw [key _ (by omega), h.mid i hi]
    have : ¬ (11 + i = ls.length) := by omega
    simp [this]
  · rw [key _ (by omega), h.top]
    have : ¬ (15 = ls.length) := by omega
    simp [this]

theorem rep_pop {w inner ls x} (h : Rep w inner (ls ++ [x])) :
    ∃ w', w.popOutermost = some (some x, w') ∧ Rep w' inner ls := by
  have hlen := rep_getListLength h
  have hle := h.len
  simp at hle
  have h0 : w.getListLength ≠ 0 := by rw [hlen]; simp
  have e : w.getListLength - 1 = ls.length := by rw [hlen]; simp
  have hs : (w.setListLength ls.length).isSome := by rw [setListLength_isSome]; simp; omega
  obtain ⟨w1, hw1⟩ := Option.isSome_iff_exists.mp hs
  have hb := setListLength_bits hw1
  refine ⟨w1, ?_, ?_⟩
  · unfold Wrapping.popOutermost
    simp only [h0, if_false, e, hw1]
    rw [and_bit_ne_zero _ _ (by omega), h.low _ (by omega)]
    cases x <;> simp
  · constructor
    · omega
    · intro i hi
      rw [hb i (by omega), h.low i hi, getElem?_append_single]
      by_cases h1 : i < ls.length
      · simp [hi, h1]
      · simp [hi, h1]
    · intro i hi
      have hi2 : ¬ (11 + i < 11) := by omega
      have hi3 : 11 + i < 15 := by omega
      rw [hb _ (by omega)]; simp [hi2, hi3]
    · rw [hb _ (by omega), h.top]; simp

theorem rep_pop_named {w inner} (h : Rep w inner []) : w.popOutermost = some (none, w) := by
  unfold Wrapping.popOutermost
  simp [rep_getListLength h]

theorem rep_clear_inner {w inner} (h : Rep w inner []) :
    Rep ⟨w.bits &&& ~~~INNER_IS_REQUIRED_FLAG⟩ false [] := by
  have key : ∀ i, i < 16 → (w.bits &&& ~~~INNER_IS_REQUIRED_FLAG).getLsbD i
        = (w.bits.getLsbD i && !decide (i = 15)) := by
      intro i hi
      rw [BitVec.getLsbD_and, BitVec.getLsbD_not, mask_inner _ hi]
      simp [hi]
  constructor
  · simp
  · intro i hi
    rw [key i (by omega), h.low i hi]; simp
  · intro i hi
    rw [key _ (by omega), h.mid i hi]; simp
  · rw [key _ (by omega)]; simp

open Verif.Common

/-! ### Helper lemmas about `readBack` -/

theorem readBack_snoc (inner ls lw) : readBack inner (ls ++ [lw]) =
    match lw with
    | .list => .list (readBack inner ls)
    | .listNonNull => .nonNull (.list (readBack inner ls)) := by
  cases lw <;> simp [readBack, List.foldl_append]

theorem snoc_cases {α} (ls : List α) : ls = [] ∨ ∃ xs x, ls = xs ++ [x] := by
  rcases List.eq_nil_or_concat ls with h | ⟨xs, x, h⟩
  · exact .inl h
  · exact .inr ⟨xs, x, by simpa using h⟩

theorem snoc_induction {α} {P : List α → Prop} (h0 : P []) (h1 : ∀ xs x, P xs → P (xs ++ [x]))
    (l : List α) : P l := by
  have : ∀ n, ∀ l : List α, l.length = n → P l := by
    intro n
    induction n with
    | zero => intro l hl; have := List.length_eq_zero_iff.mp hl; subst this; exact h0
    | succ n ih =>
      intro l hl
      rcases snoc_cases l with h | ⟨xs, x, h⟩
      · subst h; exact h0
      · subst h; exact h1 _ _ (ih xs (by simpa using hl))
  exact this _ l rfl

theorem readBack_depth (inner ls) : (readBack inner ls).depth = ls.length := by
  induction ls using snoc_induction with
  | h0 => cases inner <;> rfl
  | h1 xs x ih => rw [readBack_snoc]; cases x <;> simp [GType.depth, ih]

theorem readBack_required (inner ls) : (readBack inner ls).required =
    match ls.getLast? with
    | some lw => lw == .listNonNull
    | none => inner := by
  rcases snoc_cases ls with h | ⟨xs, x, h⟩
  · subst h; cases inner <;> rfl
  · subst h; rw [readBack_snoc]; cases x <;> simp [GType.required]

theorem readBack_innerRequired (inner ls) : (readBack inner ls).innerRequired = inner := by
  induction ls using snoc_induction with
  | h0 => cases inner <;> rfl
  | h1 xs x ih => rw [readBack_snoc]; cases x <;> simp [GType.innerRequired, ih]

theorem readBack_isList (inner ls) : (readBack inner ls).isList = ls.head?.isSome := by
  rcases snoc_cases ls with h | ⟨xs, x, h⟩
  · subst h; cases inner <;> rfl
  · subst h; rw [readBack_snoc]; cases x <;> cases xs <;> simp [GType.isList]

theorem readBack_item (inner ls) : (readBack inner ls).item? =
    if ls = [] then none else some (readBack inner ls.dropLast) := by
  rcases snoc_cases ls with h | ⟨xs, x, h⟩
  · subst h; cases inner <;> rfl
  · subst h; rw [readBack_snoc]; cases x <;> simp [GType.item?]

theorem readBack_wf (inner ls) : (readBack inner ls).WF := by
  induction ls using snoc_induction with
  | h0 => cases inner <;> simp [readBack, GType.WF]
  | h1 xs x ih => rw [readBack_snoc]; cases x <;> simpa [GType.WF] using ih

theorem readBack_inj {i i' : Bool} {ls ls' : List ListWrapping} (h : readBack i ls = readBack i' ls') :
    i = i' ∧ ls = ls' := by
  induction ls using snoc_induction generalizing ls' with
  | h0 =>
    rcases snoc_cases ls' with h' | ⟨ys, y, h'⟩
    · subst h'; cases i <;> cases i' <;> simp [readBack] at h ⊢
    · subst h'; rw [readBack_snoc] at h
      have := congrArg GType.depth h
      cases y <;> cases i <;> simp [readBack, GType.depth] at this
  | h1 xs x ih =>
    rcases snoc_cases ls' with h' | ⟨ys, y, h'⟩
    · subst h'; rw [readBack_snoc] at h
      have := congrArg GType.depth h
      cases x <;> cases i' <;> simp [readBack, GType.depth] at this
    · subst h'
      rw [readBack_snoc, readBack_snoc] at h
      cases x <;> cases y <;> simp at h <;> have := ih h <;> simp [this]

theorem readBack_surj (t : GType) (h : t.WF) : ∃ i ls, t = readBack i ls := by
  have : ∀ n, ∀ t : GType, sizeOf t < n → t.WF → ∃ i ls, t = readBack i ls := by
    intro n
    induction n with
    | zero => intro t ht; omega
    | succ n ih =>
      intro t ht h
      match t, h with
      | .named, _ => exact ⟨false, [], rfl⟩
      | .list t, h =>
        obtain ⟨i, ls, e⟩ := ih t (by simp at ht; omega) h
        exact ⟨i, ls ++ [.list], by rw [readBack_snoc, e]⟩
      | .nonNull .named, _ => exact ⟨true, [], rfl⟩
      | .nonNull (.list t), h =>
        obtain ⟨i, ls, e⟩ := ih t (by simp at ht; omega) (by simpa [GType.WF] using h)
        exact ⟨i, ls ++ [.listNonNull], by rw [readBack_snoc, e]⟩
      | .nonNull (.nonNull t), h => simp [GType.WF] at h
  exact this _ t (Nat.lt_succ_self _) h

theorem join_replicate_succ (n : Nat) (s : String) :
    String.join (List.replicate (n + 1) s) = s ++ String.join (List.replicate n s) := by
  simp [List.replicate_succ, String.join_cons]

theorem readBack_render (name : String) (inner ls) : (readBack inner ls).render name =
    String.join (List.replicate ls.length "[") ++ name ++ (if inner then "!" else "") ++
    String.join (ls.map fun | .listNonNull => "]!" | .list => "]") := by
  induction ls using snoc_induction with
  | h0 => cases inner <;> simp [readBack, GType.render]
  | h1 xs x ih =>
    rw [readBack_snoc]
    simp only [List.length_append, List.length_singleton, join_replicate_succ, List.map_append,
      List.map_cons, List.map_nil, String.join_append, String.join_cons, String.join_nil]
    cases x
    · simp only [GType.render, ih]
      simp only [String.append_assoc, String.append_empty]
      rfl
    · simp only [GType.render, ih]
      simp only [String.append_assoc, String.append_empty]

theorem readBack_wrappers (inner ls) : wrappers (readBack inner ls) =
    (if inner then [.nonNull] else []) ++ ls.flatMap fun
      | .list => [.list]
      | .listNonNull => [.list, .nonNull] := by
  induction ls using snoc_induction with
  | h0 => cases inner <;> simp [readBack, wrappers]
  | h1 xs x ih =>
    rw [readBack_snoc]
    cases x <;> simp [wrappers, ih]

/-! ### One call refines the specification -/

theorem rep_isNonNull {w inner ls} (h : Rep w inner ls) : w.isNonNull = (readBack inner ls).required := by
  rw [readBack_required]
  unfold Wrapping.isNonNull
  rw [rep_listWrappings h, rep_inner h]
  rfl

theorem rep_isList {w inner ls} (h : Rep w inner ls) : w.isList = (readBack inner ls).isList := by
  rw [readBack_isList]
  unfold Wrapping.isList
  rw [rep_listWrappings h]

theorem rep_push {w inner ls} (h : Rep w inner ls) (lw) (hl : ls.length < 10) :
    ∃ w', w.pushOutermost lw = some w' ∧ Rep w' inner (ls ++ [lw]) := by
  cases lw
  · exact rep_listNonNull h hl
  · exact rep_list h hl

theorem rep_step {w inner ls} (h : Rep w inner ls) (op : Op) :
    match specStep (readBack inner ls) op with
    | none => step w op = none
    | some t => ∃ w' inner' ls', step w op = some w' ∧ Rep w' inner' ls' ∧ t = readBack inner' ls' := by
  have hpush : ∀ lw, (if (readBack inner ls).depth < 10 then True else w.pushOutermost lw = none) ∧
      ((readBack inner ls).depth < 10 → ∃ w', w.pushOutermost lw = some w' ∧ Rep w' inner (ls ++ [lw])) := by
    intro lw
    rw [readBack_depth]
    by_cases hd : ls.length < 10
    · simp only [hd, if_true, true_and]
      intro _; exact rep_push h lw hd
    · have hd' : ls.length = 10 := by have := h.len; omega
      have := rep_full h hd'
      simp only [hd, if_false, false_implies, and_true]
      cases lw
      · exact this.2
      · exact this.1
  have hpop : ∃ w' inner' ls', step w .pop = some w' ∧ Rep w' inner' ls' ∧
      (readBack inner ls).item?.getD (readBack inner ls) = readBack inner' ls' := by
    rw [readBack_item]
    rcases snoc_cases ls with h' | ⟨xs, x, h'⟩
    · subst h'
      exact ⟨w, inner, [], by simp [step, rep_pop_named h], h, by simp⟩
    · subst h'
      obtain ⟨w', hw', hr⟩ := rep_pop h
      exact ⟨w', inner, xs, by simp [step, hw'], hr, by simp⟩
  cases op with
  | list =>
    simp only [specStep]
    split
    · rename_i heq; split at heq
      · cases heq
      · rename_i hd; have := (hpush .list).1; simpa [hd, step, Wrapping.pushOutermost] using this
    · rename_i t heq; split at heq
      · rename_i hd; injection heq with heq; subst heq
        obtain ⟨w', e, hr⟩ := (hpush .list).2 hd
        exact ⟨w', inner, _, e, hr, by rw [readBack_snoc]⟩
      · cases heq
  | listNonNull =>
    simp only [specStep]
    split
    · rename_i heq; split at heq
      · cases heq
      · rename_i hd; have := (hpush .listNonNull).1; simpa [hd, step, Wrapping.pushOutermost] using this
    · rename_i t heq; split at heq
      · rename_i hd; injection heq with heq; subst heq
        obtain ⟨w', e, hr⟩ := (hpush .listNonNull).2 hd
        exact ⟨w', inner, _, e, hr, by rw [readBack_snoc]⟩
      · cases heq
  | push lw =>
    cases lw
    · simp only [specStep]
      split
      · rename_i heq; split at heq
        · cases heq
        · rename_i hd; have := (hpush .listNonNull).1; simpa [hd, step, Wrapping.pushOutermost] using this
      · rename_i t heq; split at heq
        · rename_i hd; injection heq with heq; subst heq
          obtain ⟨w', e, hr⟩ := (hpush .listNonNull).2 hd
          exact ⟨w', inner, _, e, hr, by rw [readBack_snoc]⟩
        · cases heq
    · simp only [specStep]
      split
      · rename_i heq; split at heq
        · cases heq
        · rename_i hd; have := (hpush .list).1; simpa [hd, step, Wrapping.pushOutermost] using this
      · rename_i t heq; split at heq
        · rename_i hd; injection heq with heq; subst heq
          obtain ⟨w', e, hr⟩ := (hpush .list).2 hd
          exact ⟨w', inner, _, e, hr, by rw [readBack_snoc]⟩
        · cases heq
  | nonNull =>
    simp only [specStep]
    rcases snoc_cases ls with h' | ⟨xs, x, h'⟩
    · subst h'
      refine ⟨w.nonNull, true, [], rfl, rep_nonNull_named h, ?_⟩
      cases inner <;> simp [readBack, GType.required]
    · subst h'
      refine ⟨w.nonNull, inner, _, rfl, rep_nonNull_list h, ?_⟩
      rw [readBack_snoc, readBack_snoc]
      cases x <;> simp [GType.required]
  | withoutList =>
    simp only [specStep]
    obtain ⟨w', i', ls', e, hr, ht⟩ := hpop
    refine ⟨w', i', ls', ?_, hr, ht⟩
    simp only [step, Wrapping.withoutList] at e ⊢
    rcases snoc_cases ls with h' | ⟨xs, x, h'⟩
    · subst h'; rw [rep_pop_named h] at e ⊢; simpa using e
    · subst h'
      obtain ⟨w'', hw'', _⟩ := rep_pop h
      rw [hw''] at e ⊢; simpa using e
  | pop =>
    simp only [specStep]; exact hpop
  | withoutNonNull =>
    simp only [specStep]
    simp only [step, Wrapping.withoutNonNull, Wrapping.isNullable, rep_isNonNull h, rep_isList h]
    by_cases hreq : (readBack inner ls).required = true
    · simp only [hreq, Bool.not_true, Bool.false_eq_true, if_false]
      rcases snoc_cases ls with h' | ⟨xs, x, h'⟩
      · subst h'
        rw [readBack_isList]
        simp only [List.head?_nil, Option.isSome_none, Bool.false_eq_true, if_false]
        refine ⟨_, false, [], rfl, rep_clear_inner h, ?_⟩
        cases inner <;> simp [readBack, GType.nullable]
      · subst h'
        have hx : x = .listNonNull := by
          rw [readBack_required] at hreq; simpa using hreq
        subst hx
        obtain ⟨w1, hw1, hr1⟩ := rep_pop h
        have hle := h.len
        simp at hle
        obtain ⟨w2, hw2, hr2⟩ := rep_push hr1 .list (by omega)
        have hil : (readBack inner (xs ++ [.listNonNull])).isList = true := by
          rw [readBack_snoc]; rfl
        refine ⟨w2, inner, _, ?_, hr2, ?_⟩
        · simp [hil, hw1, hw2]
        · rw [readBack_snoc, readBack_snoc]; rfl
    · simp only [Bool.not_eq_true] at hreq
      simp only [hreq, Bool.not_false, if_true]
      refine ⟨w, inner, ls, rfl, h, ?_⟩
      cases hrb : readBack inner ls <;> simp_all [GType.nullable, GType.required]

theorem rep_run_from {w inner ls} (h : Rep w inner ls) (ops : List Op) :
    match ops.foldlM specStep (readBack inner ls) with
    | none => ops.foldlM step w = none
    | some t => ∃ w' inner' ls', ops.foldlM step w = some w' ∧ Rep w' inner' ls' ∧ t = readBack inner' ls' := by
  induction ops generalizing w inner ls with
  | nil => exact ⟨w, inner, ls, rfl, h, rfl⟩
  | cons op ops ih =>
    simp only [List.foldlM_cons]
    have hs := rep_step h op
    cases hsp : specStep (readBack inner ls) op with
    | none => rw [hsp] at hs; simp only at hs; simp [hs]
    | some t =>
      rw [hsp] at hs
      obtain ⟨w', i', ls', e, hr, ht⟩ := hs
      subst ht
      simp only [Option.bind_eq_bind, Option.bind_some, e]
      exact ih hr

/-! ### Value inclusion -/

theorem admits_null_iff (t : GType) : t.Admits .null ↔ t.required = false := by
  cases t <;> simp [GType.Admits, GType.required]

theorem admits_wrap (t : GType) : ∃ v, t.nullable.Admits v ∧ v ≠ .null ∧ t.Admits v ∨ ¬ t.WF := by
  cases t with
  | named => exact ⟨.leaf 0, .inl (by simp [GType.Admits, GType.nullable])⟩
  | list t => exact ⟨.list [], .inl (by simp [GType.Admits, GType.nullable])⟩
  | nonNull t =>
    cases t with
    | named => exact ⟨.leaf 0, .inl (by simp [GType.Admits, GType.nullable])⟩
    | list t => exact ⟨.list [], .inl (by simp [GType.Admits, GType.nullable])⟩
    | nonNull t => exact ⟨.null, .inr (by simp [GType.WF])⟩

/-- `a` has one list wrapper more on the outside than `ia`; characterisation of inclusion. -/
theorem incl_list (a b : GType) :
    (∀ v, (GType.list b).Admits v → (GType.list a).Admits v) ↔ (∀ v, b.Admits v → a.Admits v) := by
  constructor
  · intro h v hv
    have := h (.list [v]) (by simp [GType.Admits, hv])
    simpa [GType.Admits] using this
  · intro h v hv
    simp only [GType.Admits] at hv ⊢
    rcases hv with hv | ⟨vs, rfl, hv⟩
    · exact .inl hv
    · exact .inr ⟨vs, rfl, fun x hx => h x (hv x hx)⟩

theorem incl_lists_nn (a b : GType) :
    (∀ v, (GType.nonNull (.list b)).Admits v → (GType.list a).Admits v) ↔ (∀ v, b.Admits v → a.Admits v) := by
  rw [← incl_list a b]
  constructor
  · intro h v hv
    by_cases h0 : v = .null
    · subst h0; simp [GType.Admits]
    · exact h v ⟨h0, hv⟩
  · intro h v hv; exact h v hv.2

theorem incl_nn_nn (a b : GType) :
    (∀ v, (GType.nonNull (.list b)).Admits v → (GType.nonNull (.list a)).Admits v) ↔
      (∀ v, b.Admits v → a.Admits v) := by
  rw [← incl_lists_nn a b]
  constructor
  · intro h v hv; exact (h v hv).2
  · intro h v hv; exact ⟨hv.1, h v hv⟩

/-- Leniency on the abstract representation. -/
def lenientAbs (i i' : Bool) : List ListWrapping → List ListWrapping → Prop
  | [], [] => ¬ (i = true ∧ i' = false)
  | s :: ss, o :: os => ¬ (s = .listNonNull ∧ o = .list) ∧ lenientAbs i i' ss os
  | _, _ => False

theorem lenientAbs_snoc (i i' ss os s o) :
    lenientAbs i i' (ss ++ [s]) (os ++ [o]) ↔ ¬ (s = .listNonNull ∧ o = .list) ∧ lenientAbs i i' ss os := by
  induction ss generalizing os with
  | nil =>
    cases os with
    | nil => simp [lenientAbs]
    | cons o' os => cases os <;> simp [lenientAbs]
  | cons s' ss ih =>
    cases os with
    | nil => cases ss <;> simp [lenientAbs]
    | cons o' os => simp only [List.cons_append, lenientAbs, ih]; constructor <;> (intro h; simp_all)

theorem lenientAbs_iff (i i' : Bool) (ls ls' : List ListWrapping) :
    lenientAbs i i' ls ls' ↔ ∀ v, (readBack i' ls').Admits v → (readBack i ls).Admits v := by
  induction ls using snoc_induction generalizing ls' with
  | h0 =>
    rcases snoc_cases ls' with h' | ⟨ys, y, h'⟩
    · subst h'
      cases i <;> cases i' <;> simp [lenientAbs, readBack, GType.Admits]
    · subst h'
      have : ¬ lenientAbs i i' [] (ys ++ [y]) := by cases ys <;> simp [lenientAbs]
      simp only [this, false_iff]
      intro h
      have := h (.list [])
      rw [readBack_snoc] at this
      cases y <;> cases i <;> simp [readBack, GType.Admits] at this
  | h1 xs x ih =>
    rcases snoc_cases ls' with h' | ⟨ys, y, h'⟩
    · subst h'
      have : ¬ lenientAbs i i' (xs ++ [x]) [] := by cases xs <;> simp [lenientAbs]
      simp only [this, false_iff]
      intro h
      have := h (.leaf 0)
      rw [readBack_snoc] at this
      cases x <;> cases i' <;> simp [readBack, GType.Admits] at this
    · subst h'
      rw [lenientAbs_snoc, ih, readBack_snoc, readBack_snoc]
      cases x <;> cases y <;> simp only []
      · rw [incl_nn_nn]; simp
      · constructor
        · intro h; simp at h
        · intro h; have := h .null (by simp [GType.Admits]); simp [GType.Admits] at this
      · rw [incl_lists_nn]; simp
      · rw [incl_list]; simp

theorem zip_all_iff (i i' : Bool) (ss os : List ListWrapping) (hl : ss.length = os.length) :
    ((ss.zip os).all (fun (s, o) => !(s == .listNonNull && o == .list)) = true ∧ ¬ (i = true ∧ i' = false))
      ↔ lenientAbs i i' ss os := by
  induction ss generalizing os with
  | nil => cases os <;> simp_all [lenientAbs]
  | cons s ss ih =>
    cases os with
    | nil => simp at hl
    | cons o os =>
      simp only [List.zip_cons_cons, List.all_cons, lenientAbs, ← ih os (by simpa using hl)]
      cases s <;> cases o <;> simp


theorem reachable_rep {w t} (h : Reachable w t) : ∃ i ls, Rep w i ls ∧ t = readBack i ls := by
  obtain ⟨ops, hw, ht⟩ := h
  have h := rep_run_from rep_new ops
  have e : readBack false [] = .named := rfl
  unfold specRun at ht
  unfold run at hw
  rw [e, ht] at h
  obtain ⟨x, i, ls, ex, hr, et⟩ := h
  rw [hw] at ex; injection ex with ex; subst ex
  exact ⟨i, ls, hr, et⟩


end Verif.Wrapping
