import Verif.Common.GType
import Verif.Wrapping.Lemmas
import Verif.CheckTypes.Model
namespace Verif.CheckTypes
open Verif.Common

/-- The word encodes `inner` and the list types `ls`, outermost first. -/
structure Rep (w : WrappingTypes) (inner : Bool) (ls : List ListType) : Prop where
  len : ls.length ≤ 57
  low : ∀ i, i < 57 → w.bits.getLsbD i = decide (ls[i]? = some .nonNullList)
  flag : w.bits.getLsbD 57 = inner
  top : ∀ i, i < 6 → w.bits.getLsbD (58 + i) = ls.length.testBit i

theorem bit_one (k i : Nat) (hi : i < 64) : (1#64 <<< k).getLsbD i = decide (i = k) := by
  simp only [BitVec.getLsbD_shiftLeft, hi, decide_true, Bool.true_and, BitVec.getLsbD_one]
  by_cases h : i = k
  · subst h; simp
  · by_cases h2 : i < k
    · simp [h2, h]
    · have : ¬ (i - k = 0) := by omega
      simp [h2, h, this]

theorem and_bit_ne_zero (b : BitVec 64) (k : Nat) (hk : k < 64) :
    (b &&& (1#64 <<< k) != 0#64) = b.getLsbD k := by
  by_cases h : b.getLsbD k = true
  · rw [h]
    simp only [bne_iff_ne, ne_eq]
    intro h0
    have := congrArg (fun x => x.getLsbD k) h0
    simp [BitVec.getLsbD_and, bit_one k k hk, h, -BitVec.getLsbD_shiftLeft] at this
  · simp only [Bool.not_eq_true] at h
    rw [h]
    simp only [bne_eq_false_iff_eq]
    apply BitVec.eq_of_getLsbD_eq
    intro i hi
    rw [BitVec.getLsbD_and, bit_one k i hi]
    by_cases hik : i = k
    · subst hik; simp [h]
    · simp [hik]

theorem shr_and_one (b : BitVec 64) (k : Nat) :
    ((b >>> k) &&& 1#64 == 0#64) = !b.getLsbD k := by
  by_cases h : b.getLsbD k = true
  · rw [h]
    simp only [Bool.not_true, beq_eq_false_iff_ne, ne_eq]
    intro h0
    have := congrArg (fun x => x.getLsbD 0) h0
    simp [BitVec.getLsbD_and, BitVec.getLsbD_ushiftRight, h] at this
  · simp only [Bool.not_eq_true] at h
    rw [h]
    simp only [Bool.not_false, beq_iff_eq]
    apply BitVec.eq_of_getLsbD_eq
    intro i hi
    rw [BitVec.getLsbD_and, BitVec.getLsbD_one, BitVec.getLsbD_ushiftRight]
    by_cases hik : i = 0
    · subst hik; simp [h]
    · simp [hik]

theorem count_mask (i : Nat) (hi : i < 64) : LIST_COUNT_BITS_MASK.getLsbD i = decide (58 ≤ i) := by
  unfold LIST_COUNT_BITS_MASK
  rw [BitVec.getLsbD_shiftLeft, BitVec.getLsbD_allOnes]
  by_cases h : i < 58
  · have : ¬ 58 ≤ i := by omega
    simp [h, this]
  · have h1 : 58 ≤ i := by omega
    have h2 : i - 58 < 64 := by omega
    simp [h1, h2, hi, h]

theorem innerIsNonnull_eq (w : WrappingTypes) : w.innerIsNonnull = w.bits.getLsbD 57 :=
  and_bit_ne_zero _ _ (by omega)

theorem rep_count {w inner ls} (h : Rep w inner ls) : w.listsCount = ls.length := by
  unfold WrappingTypes.listsCount
  have hl := h.len
  have : (w.bits &&& LIST_COUNT_BITS_MASK) >>> LIST_COUNT_BITS_OFFSET = BitVec.ofNat 64 ls.length := by
    apply BitVec.eq_of_getLsbD_eq
    intro i hi
    rw [BitVec.getLsbD_ushiftRight, BitVec.getLsbD_and, BitVec.getLsbD_ofNat]
    simp only [LIST_COUNT_BITS_OFFSET, hi, decide_true, Bool.true_and]
    by_cases h6 : i < 6
    · rw [h.top i h6, count_mask _ (by omega)]; simp
    · have : ls.length.testBit i = false := by
        apply Nat.testBit_lt_two_pow
        calc ls.length < 2 ^ 6 := by omega
          _ ≤ 2 ^ i := Nat.pow_le_pow_right (by omega) (by omega)
      rw [this, BitVec.getLsbD_of_ge w.bits _ (by omega)]; simp
  rw [this, BitVec.toNat_ofNat]
  omega

theorem rep_iter {w inner ls} (h : Rep w inner ls) : w.iterListTypes = ls := by
  unfold WrappingTypes.iterListTypes
  rw [rep_count h]
  apply List.ext_getElem
  · simp
  · intro i h1 h2
    have hl := h.len
    have hlow := h.low i (by omega)
    rw [List.getElem?_eq_getElem h2] at hlow
    simp only [List.getElem_map, List.getElem_range, shr_and_one, hlow]
    cases ls[i] <;> simp

theorem rep_default : Rep .default false [] := by
  constructor <;> simp [WrappingTypes.default]

theorem getElem?_append_single {α} (ls : List α) (x : α) (i : Nat) :
    (ls ++ [x])[i]? = if i < ls.length then ls[i]? else if i = ls.length then some x else none := by
  by_cases h : i < ls.length
  · simp [h, List.getElem?_append_left h]
  · by_cases h2 : i = ls.length
    · subst h2; simp
    · simp [h, h2]; omega

theorem rep_push {w inner ls} (h : Rep w inner ls) (nn : Bool) (hl : ls.length < 57) :
    Rep (w.pushList nn) inner (ls ++ [if nn then .nonNullList else .list]) := by
  have hc := rep_count h
  unfold WrappingTypes.pushList
  have hng : ¬ (ls.length > LIST_BITS_COUNT) := by unfold LIST_BITS_COUNT; omega
  simp only [hc, hng, if_false]
  have key : ∀ i, i < 64 →
      (((if nn then w.bits ||| (1#64 <<< ls.length) else w.bits) &&& ~~~LIST_COUNT_BITS_MASK) |||
        (BitVec.ofNat 64 (ls.length + 1) <<< LIST_COUNT_BITS_OFFSET)).getLsbD i =
      if i < 58 then (w.bits.getLsbD i || (nn && decide (i = ls.length)))
      else (ls.length + 1).testBit (i - 58) := by
    intro i hi
    rw [BitVec.getLsbD_or, BitVec.getLsbD_and, BitVec.getLsbD_not, count_mask i hi,
      BitVec.getLsbD_shiftLeft, BitVec.getLsbD_ofNat]
    have hb : (if nn then w.bits ||| (1#64 <<< ls.length) else w.bits).getLsbD i =
        (w.bits.getLsbD i || (nn && decide (i = ls.length))) := by
      cases nn
      · simp
      · simp only [if_true, BitVec.getLsbD_or, bit_one _ _ hi, Bool.true_and]
    rw [hb]
    simp only [LIST_COUNT_BITS_OFFSET]
    by_cases h58 : i < 58
    · have : ¬ 58 ≤ i := by omega
      simp [h58, this, hi]
    · have h1 : 58 ≤ i := by omega
      have h2 : i - 58 < 64 := by omega
      simp [h58, h1, h2, hi]
  constructor
  · simp; omega
  · intro i hi
    rw [key i (by omega), h.low i hi, getElem?_append_single]
    have : i < 58 := by omega
    simp only [this, if_true]
    by_cases h1 : i < ls.length
    · have h2 : i ≠ ls.length := by omega
      simp [h1, h2]
    · by_cases h2 : i = ls.length
      · subst h2; cases nn <;> simp
      · simp [h1, h2]
  · rw [key 57 (by omega), h.flag]
    have : ¬ (57 = ls.length) := by omega
    simp [this]
  · intro i hi
    rw [key _ (by omega)]
    have : ¬ (58 + i < 58) := by omega
    simp [this]

theorem rep_setInner {w inner ls} (h : Rep w inner ls) (nn : Bool) :
    Rep (w.setInnerNonnull nn) nn ls := by
  have key : ∀ i, i < 64 → (w.setInnerNonnull nn).bits.getLsbD i =
      if i = 57 then nn else w.bits.getLsbD i := by
    intro i hi
    unfold WrappingTypes.setInnerNonnull NONNULL_BIT_MASK
    simp only
    rw [BitVec.getLsbD_or, BitVec.getLsbD_and, BitVec.getLsbD_not, bit_one _ _ hi]
    by_cases h57 : i = 57
    · subst h57; cases nn <;> simp
    · cases nn
      · simp [h57, hi]
      · simp only [if_true, bit_one _ _ hi]; simp [h57, hi]
  constructor
  · exact h.len
  · intro i hi
    rw [key i (by omega)]
    have : ¬ i = 57 := by omega
    simp [this, h.low i hi]
  · rw [key 57 (by omega)]; simp
  · intro i hi
    rw [key _ (by omega)]
    have : ¬ 58 + i = 57 := by omega
    simp [this, h.top i hi]

/-- GraphQL type of (inner, list types outermost first). -/
def toG (inner : Bool) : List ListType → GType
  | [] => if inner then .nonNull .named else .named
  | .list :: ls => .list (toG inner ls)
  | .nonNullList :: ls => .nonNull (.list (toG inner ls))

/-- Type with `b` admits everything the type with `a` admits. -/
def incl (i i' : Bool) : List ListType → List ListType → Bool
  | [], [] => !(i' && !i)
  | a :: as, b :: bs => !(b == .nonNullList && a == .list) && incl i i' as bs
  | _, _ => false

theorem incl_iff (i i' : Bool) (ls ls' : List ListType) :
    incl i i' ls ls' = true ↔ ∀ v, (toG i ls).Admits v → (toG i' ls').Admits v := by
  induction ls generalizing ls' with
  | nil =>
    cases ls' with
    | nil => cases i <;> cases i' <;> simp [incl, toG, GType.Admits]
    | cons y ys =>
      simp only [incl, Bool.false_eq_true, false_iff]
      intro h
      have := h (.leaf 0)
      cases y <;> cases i <;> simp [toG, GType.Admits] at this
  | cons x xs ih =>
    cases ls' with
    | nil =>
      simp only [incl, Bool.false_eq_true, false_iff]
      intro h
      have := h (.list [])
      cases x <;> cases i' <;> simp [toG, GType.Admits] at this
    | cons y ys =>
      simp only [incl, Bool.and_eq_true, ih]
      cases x <;> cases y <;> simp only [toG]
      · rw [Wrapping.incl_list]; simp
      · constructor
        · intro h; simp at h
        · intro h; have := h .null (by simp [GType.Admits]); simp [GType.Admits] at this
      · rw [Wrapping.incl_lists_nn]; simp
      · rw [Wrapping.incl_nn_nn]; simp

/-- The comparison state as a pair: (src ⊄ target seen, target ⊄ src seen). -/
def enc : Comparison → Bool × Bool
  | .noChange => (false, false)
  | .removedNonNull => (false, true)
  | .addedNonNull => (true, false)
  | .notCompatible => (true, true)

theorem enc_onRemoved (c) : enc (WrappingTypes.onRemoved c) = ((enc c).1, true) := by cases c <;> rfl
theorem enc_onAdded (c) : enc (WrappingTypes.onAdded c) = (true, (enc c).2) := by cases c <;> rfl

/-- `compare` with the final inner step folded in. -/
def fin (i i' : Bool) (st : Comparison) : Comparison :=
  match i, i' with
  | true, true | false, false => st
  | true, false => WrappingTypes.onRemoved st
  | false, true => WrappingTypes.onAdded st

theorem fin_notCompatible (i i') : fin i i' .notCompatible = .notCompatible := by
  cases i <;> cases i' <;> rfl

theorem beq1 : (ListType.list == ListType.nonNullList) = false := rfl
theorem beq2 : (ListType.nonNullList == ListType.list) = false := rfl

theorem loop_spec (i i' : Bool) (st : Comparison) (a b : List ListType) :
    enc (fin i i' (WrappingTypes.compareLoop st a b)) =
      ((enc st).1 || !incl i i' a b, (enc st).2 || !incl i' i b a) := by
  induction a generalizing st b with
  | nil =>
    cases b with
    | nil => cases i <;> cases i' <;> cases st <;> rfl
    | cons y ys =>
      simp only [WrappingTypes.compareLoop, fin_notCompatible, incl]
      simp [enc]
  | cons x xs ih =>
    cases b with
    | nil =>
      cases x <;>
      · simp only [WrappingTypes.compareLoop, fin_notCompatible, incl]
        simp [enc]
    | cons y ys =>
      cases x <;> cases y <;> simp [WrappingTypes.compareLoop, ih, incl, enc_onRemoved, enc_onAdded, beq1, beq2]

theorem compare_eq {w w' i i' ls ls'} (h : Rep w i ls) (h' : Rep w' i' ls') :
    enc (w.compare w') = (!incl i i' ls ls', !incl i' i ls' ls) := by
  have : w.compare w' = fin i i' (WrappingTypes.compareLoop .noChange ls ls') := by
    unfold WrappingTypes.compare fin
    rw [rep_iter h, rep_iter h', innerIsNonnull_eq, innerIsNonnull_eq, h.flag, h'.flag]
    cases i <;> cases i' <;> rfl
  rw [this, loop_spec]; simp [enc]

/-- Inner flag and list types of a parsed type. -/
def atInner : AType → Bool
  | .named n => !n
  | .list _ t => atInner t
def atLists : AType → List ListType
  | .named _ => []
  | .list n t => (if !n then .nonNullList else .list) :: atLists t

theorem rep_extractFrom {w i ls} (h : Rep w i ls) (t : AType) (hl : ls.length + (atLists t).length ≤ 57) :
    Rep (extractFrom w t) (atInner t) (ls ++ atLists t) := by
  induction t generalizing w ls with
  | named n => simpa [extractFrom, atInner, atLists] using rep_setInner h (!n)
  | list n t ih =>
    simp only [atLists, List.length_cons] at hl
    have := ih (rep_push h (!n) (by omega)) (by simp; omega)
    simpa [extractFrom, atInner, atLists] using this

theorem rep_extract (t : AType) (hl : (atLists t).length ≤ 57) :
    Rep (extractType t) (atInner t) (atLists t) := by
  simpa [extractType] using rep_extractFrom rep_default t (by simpa using hl)

/-! ## The outermost level, at any depth -/

/-- At least one list was pushed, and the outermost one has this flag. -/
structure Outer (w : WrappingTypes) (nn : Bool) : Prop where
  pos : 1 ≤ w.listsCount
  le : w.listsCount ≤ 58
  bit : w.bits.getLsbD 0 = nn

theorem count_of_bits {w : WrappingTypes} {n : Nat} (hn : n < 64)
    (h : ∀ i, i < 6 → w.bits.getLsbD (58 + i) = n.testBit i) : w.listsCount = n := by
  unfold WrappingTypes.listsCount
  have : (w.bits &&& LIST_COUNT_BITS_MASK) >>> LIST_COUNT_BITS_OFFSET = BitVec.ofNat 64 n := by
    apply BitVec.eq_of_getLsbD_eq
    intro i hi
    rw [BitVec.getLsbD_ushiftRight, BitVec.getLsbD_and, BitVec.getLsbD_ofNat]
    simp only [LIST_COUNT_BITS_OFFSET, hi, decide_true, Bool.true_and]
    by_cases h6 : i < 6
    · rw [h i h6, count_mask _ (by omega)]; simp
    · have : n.testBit i = false := by
        apply Nat.testBit_lt_two_pow
        calc n < 2 ^ 6 := by omega
          _ ≤ 2 ^ i := Nat.pow_le_pow_right (by omega) (by omega)
      rw [this, BitVec.getLsbD_of_ge w.bits _ (by omega)]; simp
  rw [this, BitVec.toNat_ofNat]
  omega

theorem push_bits (w : WrappingTypes) (nn : Bool) (h : w.listsCount ≤ 57) (i : Nat) (hi : i < 64) :
    (w.pushList nn).bits.getLsbD i = if i < 58 then (w.bits.getLsbD i || (nn && decide (i = w.listsCount)))
      else (w.listsCount + 1).testBit (i - 58) := by
  unfold WrappingTypes.pushList
  have hng : ¬ (w.listsCount > LIST_BITS_COUNT) := by unfold LIST_BITS_COUNT; omega
  simp only [hng, if_false]
  rw [BitVec.getLsbD_or, BitVec.getLsbD_and, BitVec.getLsbD_not, count_mask i hi,
    BitVec.getLsbD_shiftLeft, BitVec.getLsbD_ofNat]
  have hb : (if nn then w.bits ||| (1#64 <<< w.listsCount) else w.bits).getLsbD i =
      (w.bits.getLsbD i || (nn && decide (i = w.listsCount))) := by
    cases nn
    · simp
    · simp only [if_true, BitVec.getLsbD_or, bit_one _ _ hi, Bool.true_and]
  rw [hb]
  simp only [LIST_COUNT_BITS_OFFSET]
  by_cases h58 : i < 58
  · have : ¬ 58 ≤ i := by omega
    simp [h58, this, hi]
  · have h1 : 58 ≤ i := by omega
    have h2 : i - 58 < 64 := by omega
    simp [h58, h1, h2, hi]

theorem push_count (w : WrappingTypes) (nn : Bool) (h : w.listsCount ≤ 57) :
    (w.pushList nn).listsCount = w.listsCount + 1 := by
  apply count_of_bits (by omega)
  intro i hi
  rw [push_bits w nn h (58 + i) (by omega)]
  have : ¬ 58 + i < 58 := by omega
  simp [this]

theorem outer_push {w : WrappingTypes} {b : Bool} (h : Outer w b) (nn : Bool) : Outer (w.pushList nn) b := by
  by_cases hc : w.listsCount ≤ 57
  · have hp := h.pos
    refine ⟨by rw [push_count w nn hc]; omega, by rw [push_count w nn hc]; omega, ?_⟩
    rw [push_bits w nn hc 0 (by omega), h.bit]
    have : ¬ 0 = w.listsCount := by omega
    simp [this]
  · have : w.pushList nn = w := by
      unfold WrappingTypes.pushList
      have hg : w.listsCount > LIST_BITS_COUNT := by unfold LIST_BITS_COUNT; omega
      simp [hg]
    rw [this]; exact h

theorem inner_bits (w : WrappingTypes) (nn : Bool) (i : Nat) (hi : i < 64) :
    (w.setInnerNonnull nn).bits.getLsbD i = if i = 57 then nn else w.bits.getLsbD i := by
  unfold WrappingTypes.setInnerNonnull NONNULL_BIT_MASK
  simp only
  rw [BitVec.getLsbD_or, BitVec.getLsbD_and, BitVec.getLsbD_not, bit_one 57 i hi]
  by_cases h : i = 57
  · subst h
    cases nn <;> simp
  · cases nn with
    | true =>
      rw [if_pos rfl, bit_one 57 i hi]
      simp [h, hi]
    | false => simp [h, hi]

theorem inner_count (w : WrappingTypes) (nn : Bool) : (w.setInnerNonnull nn).listsCount = w.listsCount := by
  unfold WrappingTypes.listsCount
  congr 1
  apply BitVec.eq_of_getLsbD_eq
  intro i hi
  rw [BitVec.getLsbD_ushiftRight, BitVec.getLsbD_and, BitVec.getLsbD_ushiftRight, BitVec.getLsbD_and]
  simp only [LIST_COUNT_BITS_OFFSET]
  by_cases h : 58 + i < 64
  · rw [inner_bits w nn _ h]
    have : ¬ 58 + i = 57 := by omega
    simp [this]
  · rw [BitVec.getLsbD_of_ge _ _ (by omega), BitVec.getLsbD_of_ge w.bits _ (by omega)]

theorem outer_extract (t : AType) : ∀ {w : WrappingTypes} {b : Bool}, Outer w b → Outer (extractFrom w t) b := by
  induction t with
  | named n =>
    intro w b h
    refine ⟨?_, ?_, ?_⟩
    · show 1 ≤ (w.setInnerNonnull _).listsCount
      rw [inner_count]; exact h.pos
    · show (w.setInnerNonnull _).listsCount ≤ 58
      rw [inner_count]; exact h.le
    · show (w.setInnerNonnull _).bits.getLsbD 0 = b
      rw [inner_bits _ _ _ (by omega)]
      simpa using h.bit
  | list n t ih =>
    intro w b h
    exact ih (outer_push h _)

theorem outer_isNonnull {w : WrappingTypes} {b : Bool} (h : Outer w b) : w.isNonnull = b := by
  unfold WrappingTypes.isNonnull WrappingTypes.iterListTypes
  have hp := h.pos
  obtain ⟨n, hn⟩ : ∃ n, w.listsCount = n + 1 := ⟨w.listsCount - 1, by omega⟩
  rw [hn, List.range_succ_eq_map, List.map_cons, List.head?_cons]
  simp only [shr_and_one, h.bit]
  cases b <;> rfl

theorem isNonnull_list (n : Bool) (t : AType) : (extractType (.list n t)).isNonnull = !n := by
  apply outer_isNonnull
  have hd : WrappingTypes.default.listsCount = 0 := by decide
  refine outer_extract t ⟨?_, ?_, ?_⟩
  · rw [push_count _ _ (by omega)]; omega
  · rw [push_count _ _ (by omega)]; omega
  · rw [push_bits _ _ (by omega) 0 (by omega), hd]
    simp [WrappingTypes.default]

end Verif.CheckTypes
