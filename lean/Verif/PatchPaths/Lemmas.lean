import Std
import Verif.PatchPaths.Model
import Verif.SchemaPath.Lemmas
namespace Verif.PatchPaths
open Verif.SchemaPath (Str splitDot)
open Std

/-! ## Binary search -/

def rank : Ordering → Nat
  | .lt => 0
  | .eq => 1
  | .gt => 2

theorem rank_le2 (o : Ordering) : rank o ≤ 2 := by cases o <;> decide

/-- The comparator never goes down along the list. -/
def Mono {α : Type} (f : α → Ordering) (l : List α) : Prop := l.Pairwise fun a b => rank (f a) ≤ rank (f b)

theorem mono_get {α : Type} {f : α → Ordering} {l : List α} (h : Mono f l) {i j : Nat} {a b : α} (hij : i ≤ j)
    (ha : l[i]? = some a) (hb : l[j]? = some b) : rank (f a) ≤ rank (f b) := by
  rcases Nat.lt_or_eq_of_le hij with hlt | rfl
  · obtain ⟨hi, rfl⟩ := List.getElem?_eq_some_iff.1 ha
    obtain ⟨hj, rfl⟩ := List.getElem?_eq_some_iff.1 hb
    exact List.pairwise_iff_getElem.1 h i j hi hj hlt
  · rw [ha] at hb; cases hb; exact Nat.le_refl _

theorem loop_lt {α : Type} (f : α → Ordering) (l : List α) (fuel base size : Nat) (hs : 0 < size)
    (h : base + size ≤ l.length) : searchLoop f l fuel base size < l.length := by
  induction fuel generalizing base size with
  | zero => simp only [searchLoop]; omega
  | succ n ih =>
    unfold searchLoop
    split
    · omega
    · simp only
      split
      · exact ih _ _ (by omega) (by omega)
      · exact ih _ _ (by omega) (by omega)

/-- On a monotone list the loop ends at the last element that is not greater, if there is one, else at 0. -/
theorem loop_spec {α : Type} {f : α → Ordering} {l : List α} (hm : Mono f l) (fuel base size : Nat) (hf : size ≤ fuel)
    (hs : 0 < size) (h : base + size ≤ l.length)
    (hlow : base = 0 ∨ ∀ a, l[base]? = some a → f a ≠ .gt)
    (hhigh : ∀ j a, base + size ≤ j → l[j]? = some a → f a = .gt) :
    (searchLoop f l fuel base size = 0 ∨ ∀ a, l[searchLoop f l fuel base size]? = some a → f a ≠ .gt) ∧
    ∀ j a, searchLoop f l fuel base size < j → l[j]? = some a → f a = .gt := by
  induction fuel generalizing base size with
  | zero => omega
  | succ n ih =>
    unfold searchLoop
    split
    · exact ⟨hlow, fun j a hj => hhigh j a (by omega)⟩
    · rename_i hsz
      simp only
      have hmid : base + size / 2 < l.length := by omega
      split
      · rename_i hgt
        apply ih base (size - size / 2) (by omega) (by omega) (by omega) hlow
        intro j a hj ha
        obtain ⟨x, hx, hxg⟩ := Option.map_eq_some_iff.1 hgt
        by_cases hj' : base + size / 2 ≤ j
        · have := mono_get hm hj' hx ha
          rw [hxg] at this
          cases hfa : f a <;> simp_all [rank]
        · omega
      · rename_i hngt
        apply ih (base + size / 2) (size - size / 2) (by omega) (by omega) (by omega)
        · refine Or.inr fun a ha hg => hngt ?_
          rw [ha]; simp [hg]
        · intro j a hj ha
          exact hhigh j a (by omega) ha

theorem search_found {α : Type} {f : α → Ordering} {l : List α} (h : (binarySearchBy f l).1 = true) :
    ∃ a ∈ l, f a = .eq := by
  unfold binarySearchBy at h
  simp only at h
  cases hb : l[searchLoop f l l.length 0 l.length]? with
  | none => rw [hb] at h; cases h
  | some a =>
    rw [hb] at h
    refine ⟨a, List.mem_of_getElem? hb, ?_⟩
    cases hf : f a <;> simp_all

theorem search_complete {α : Type} {f : α → Ordering} {l : List α} (hm : Mono f l) {a : α} (ha : a ∈ l)
    (hf : f a = .eq) : (binarySearchBy f l).1 = true := by
  have hpos : 0 < l.length := List.length_pos_of_mem ha
  obtain ⟨h1, h2⟩ := loop_spec hm l.length 0 l.length (Nat.le_refl _) hpos (by omega) (Or.inl rfl)
    (fun j x hj hx => by rw [List.getElem?_eq_none (by omega)] at hx; cases hx)
  have hlt := loop_lt f l l.length 0 l.length hpos (by omega)
  unfold binarySearchBy
  simp only
  generalize searchLoop f l l.length 0 l.length = b at h1 h2 hlt
  obtain ⟨i, hi⟩ := List.getElem?_of_mem ha
  obtain ⟨x, hx⟩ : ∃ x, l[b]? = some x := ⟨l[b], List.getElem?_eq_getElem hlt⟩
  have hib : i ≤ b := by
    apply Nat.le_of_not_lt
    intro hbi
    have := h2 i a hbi hi
    rw [hf] at this; cases this
  have hle := mono_get hm hib hi hx
  rw [hx]
  have hne : f x ≠ .gt := by
    rcases h1 with h0 | h1
    · subst h0
      have : i = 0 := by omega
      subst this
      rw [hi] at hx; cases hx; rw [hf]; simp
    · exact h1 x hx
  rw [hf] at hle
  cases hfx : f x <;> simp_all [rank]

/-- On a list whose `pred` elements come first, the partition point is their number. -/
theorem pp_spec {α : Type} {p : α → Bool} {l : List α} (h : l.Pairwise fun a b => p b = true → p a = true) :
    (∀ a ∈ l.take (partitionPoint p l), p a = true) ∧ ∀ a ∈ l.drop (partitionPoint p l), p a = false := by
  cases hl : l with
  | nil => simp
  | cons y ys =>
    rw [← hl]
    have hpos : 0 < l.length := by rw [hl]; simp
    let f : α → Ordering := fun x => if p x then .lt else .gt
    have hm : Mono f l := by
      refine h.imp ?_
      intro a b hab
      simp only [f]
      cases hpa : p a <;> cases hpb : p b <;> simp_all [rank]
    obtain ⟨h1, h2⟩ := loop_spec hm l.length 0 l.length (Nat.le_refl _) hpos (by omega) (Or.inl rfl)
      (fun j x hj hx => by rw [List.getElem?_eq_none (by omega)] at hx; cases hx)
    have hlt := loop_lt f l l.length 0 l.length hpos (by omega)
    have hpp : partitionPoint p l = (binarySearchBy f l).2 := rfl
    rw [hpp]
    unfold binarySearchBy
    simp only
    generalize searchLoop f l l.length 0 l.length = b at h1 h2 hlt
    obtain ⟨x, hx⟩ : ∃ x, l[b]? = some x := ⟨l[b], List.getElem?_eq_getElem hlt⟩
    rw [hx]
    cases hpx : p x with
    | true =>
      have : f x = .lt := by simp [f, hpx]
      simp only [Option.map_some, this]
      constructor
      · intro a ha
        obtain ⟨i, hi, rfl⟩ := List.mem_take_iff_getElem.1 ha
        have := mono_get hm (i := i) (j := b) (by omega) (List.getElem?_eq_getElem (by omega)) hx
        simp only [f, hpx, if_true] at this
        cases hpa : p l[i] with
        | true => rfl
        | false => simp [hpa, rank] at this
      · intro a ha
        obtain ⟨i, hi, rfl⟩ := List.mem_drop_iff_getElem.1 ha
        have := h2 (b + 1 + i) _ (by omega) (List.getElem?_eq_getElem (by omega))
        simp only [f] at this
        cases hpa : p l[b + 1 + i] with
        | true => simp [hpa] at this
        | false => rfl
    | false =>
      have hfx : f x = .gt := by simp [f, hpx]
      simp only [Option.map_some, hfx]
      have hb0 : b = 0 := by
        rcases h1 with h1 | h1
        · exact h1
        · exact absurd hfx (h1 x hx)
      subst hb0
      refine ⟨by simp, ?_⟩
      intro a ha
      rw [List.drop_zero] at ha
      obtain ⟨i, hi⟩ := List.getElem?_of_mem ha
      by_cases hi0 : i = 0
      · subst hi0; rw [hi] at hx; cases hx; exact hpx
      · have := h2 i a (by omega) hi
        simp only [f] at this
        cases hpa : p a with
        | true => simp [hpa] at this
        | false => rfl

/-! ## The order of the entries -/

theorem cmpStr_eq {a b : Str} : cmpStr a b = .eq ↔ a = b :=
  ⟨LawfulEqCmp.eq_of_compare (cmp := List.compareLex (compare : Char → Char → Ordering)),
    fun h => by rw [h]; exact ReflCmp.compare_self (cmp := List.compareLex (compare : Char → Char → Ordering))⟩

instance : TransCmp cmpStr := inferInstanceAs (TransCmp (List.compareLex (compare : Char → Char → Ordering)))

theorem cmpKey_lex : cmpKey = compareLex (fun a b : Key => cmpStr a.1 b.1)
    (compareLex (fun a b : Key => cmpStr a.2.1 b.2.1) fun a b : Key => cmpStr a.2.2 b.2.2) := rfl

theorem transOn {α : Type} (g : α → Str) : TransCmp (fun a b : α => cmpStr (g a) (g b)) where
  eq_swap := OrientedCmp.eq_swap (cmp := cmpStr)
  isLE_trans := TransCmp.isLE_trans (cmp := cmpStr)

instance : TransCmp cmpKey := by
  rw [cmpKey_lex]
  have h1 := transOn (fun a : Key => a.1)
  have h2 := transOn (fun a : Key => a.2.1)
  have h3 := transOn (fun a : Key => a.2.2)
  infer_instance

instance : TransCmp cmpEntry := by
  have h : cmpEntry = compareLex (fun a b : Key × Nat => cmpKey a.1 b.1) (compareOn (·.2)) := rfl
  rw [h]
  have h1 : TransCmp (fun a b : Key × Nat => cmpKey a.1 b.1) :=
    { eq_swap := OrientedCmp.eq_swap (cmp := cmpKey), isLE_trans := TransCmp.isLE_trans (cmp := cmpKey) }
  infer_instance

theorem cmpKey_eq {a b : Key} : cmpKey a b = .eq ↔ a = b := by
  unfold cmpKey
  simp only [Ordering.then_eq_eq, cmpStr_eq]
  obtain ⟨a1, a2, a3⟩ := a
  obtain ⟨b1, b2, b3⟩ := b
  simp

theorem insert_perm (e : Key × Nat) (l : List (Key × Nat)) : (insertEntry e l).Perm (e :: l) := by
  induction l with
  | nil => exact List.Perm.refl _
  | cons x t ih =>
    unfold insertEntry
    split
    · exact List.Perm.refl _
    · exact (ih.cons x).trans (List.Perm.swap e x t)

theorem sort_perm (l : List (Key × Nat)) : (sortEntries l).Perm l := by
  induction l with
  | nil => exact List.Perm.refl _
  | cons x t ih => exact (insert_perm x _).trans (ih.cons x)

def Sorted (l : List (Key × Nat)) : Prop := l.Pairwise fun a b => (cmpEntry a b).isLE = true

theorem insert_sorted {e : Key × Nat} {l : List (Key × Nat)} (h : Sorted l) : Sorted (insertEntry e l) := by
  induction l with
  | nil => exact List.pairwise_singleton _ _
  | cons x t ih =>
    obtain ⟨h1, h2⟩ := List.pairwise_cons.1 h
    unfold insertEntry
    split
    · rename_i hle
      refine List.pairwise_cons.2 ⟨?_, h⟩
      intro y hy
      rcases List.mem_cons.1 hy with rfl | hy
      · exact hle
      · exact TransCmp.isLE_trans hle (h1 y hy)
    · rename_i hle
      refine List.pairwise_cons.2 ⟨?_, ih h2⟩
      intro y hy
      rcases List.mem_cons.1 ((insert_perm e t).mem_iff.1 hy) with rfl | hy
      · rw [OrientedCmp.eq_swap (cmp := cmpEntry)]
        cases hc : cmpEntry y x <;> simp_all [Ordering.isLE]
      · exact h1 y hy

theorem sort_sorted (l : List (Key × Nat)) : Sorted (sortEntries l) := by
  induction l with
  | nil => exact List.Pairwise.nil
  | cons x t ih => exact insert_sorted ih

theorem entries_mem {diff : List Change} {k : Key} {i : Nat} :
    (k, i) ∈ entries diff ↔ ∃ c, diff[i]? = some c ∧ splitPath c.path = k := by
  unfold entries
  rw [(sort_perm _).mem_iff, List.mem_mapIdx]
  constructor
  · rintro ⟨j, hj, h⟩
    simp only [Prod.mk.injEq] at h
    obtain ⟨h1, rfl⟩ := h
    exact ⟨diff[j], List.getElem?_eq_getElem hj, h1⟩
  · rintro ⟨c, hc, rfl⟩
    obtain ⟨hj, rfl⟩ := List.getElem?_eq_some_iff.1 hc
    exact ⟨i, hj, rfl⟩

theorem entries_idx_nodup (diff : List Change) : ((entries diff).map (·.2)).Nodup := by
  unfold entries
  rw [((sort_perm _).map _).nodup_iff]
  have : (diff.mapIdx fun i c => (splitPath c.path, i)).map (·.2) = List.range diff.length := by
    apply List.ext_getElem?
    intro i
    simp only [List.getElem?_map, List.getElem?_mapIdx]
    by_cases h : i < diff.length
    · simp [h]
    · simp [h]
  rw [this]
  exact List.nodup_range

theorem entries_sorted (diff : List Change) : Sorted (entries diff) := sort_sorted _

theorem sorted_key {l : List (Key × Nat)} (h : Sorted l) : l.Pairwise fun a b => (cmpKey a.1 b.1).isLE = true := by
  refine h.imp ?_
  intro a b hab
  unfold cmpEntry at hab
  cases hc : cmpKey a.1 b.1 <;> simp_all [Ordering.isLE, Ordering.then]

theorem sorted_first {l : List (Key × Nat)} (h : Sorted l) : l.Pairwise fun a b => (cmpStr a.1.1 b.1.1).isLE = true := by
  refine (sorted_key h).imp ?_
  intro a b hab
  unfold cmpKey at hab
  cases hc : cmpStr a.1.1 b.1.1 <;> simp_all [Ordering.isLE, Ordering.then]

/-- In a sorted list, what has the wanted value is found after the smaller elements. -/
theorem run_mem {α β : Type} {cmp : β → β → Ordering} [TransCmp cmp] (heq : ∀ a b, cmp a b = .eq ↔ a = b) [DecidableEq β]
    {g : α → β} {l : List α} (h : l.Pairwise fun a b => (cmp (g a) (g b)).isLE = true) (v : β) (x : α) :
    x ∈ ((l.drop (partitionPoint (fun e => cmp (g e) v = .lt) l)).takeWhile fun e => g e = v) ↔ x ∈ l ∧ g x = v := by
  have hpp := pp_spec (p := fun e => decide (cmp (g e) v = .lt)) (l := l) (by
    refine h.imp ?_
    intro a b hab hb
    simp only [decide_eq_true_eq] at hb ⊢
    exact TransCmp.lt_of_isLE_of_lt hab hb)
  generalize partitionPoint (fun e => decide (cmp (g e) v = .lt)) l = n at hpp ⊢
  have hsub := h.sublist (List.drop_sublist n l)
  have hmem : x ∈ l ∧ g x = v ↔ x ∈ l.drop n ∧ g x = v := by
    constructor
    · rintro ⟨hx, hv⟩
      refine ⟨?_, hv⟩
      have : x ∈ l.take n ++ l.drop n := by rw [List.take_append_drop]; exact hx
      rcases List.mem_append.1 this with hm | hm
      · have := hpp.1 x hm
        simp only [decide_eq_true_eq] at this
        rw [(heq _ _).2 hv] at this
        cases this
      · exact hm
    · rintro ⟨hx, hv⟩
      exact ⟨List.mem_of_mem_drop hx, hv⟩
  rw [hmem]
  have hge : ∀ a ∈ l.drop n, cmp (g a) v ≠ .lt := fun a ha => by simpa using hpp.2 a ha
  generalize l.drop n = m at hsub hge ⊢
  clear hpp hmem h
  induction m with
  | nil => simp
  | cons a t ih =>
    obtain ⟨h1, h2⟩ := List.pairwise_cons.1 hsub
    rw [List.takeWhile_cons]
    by_cases hav : g a = v
    · have ih' : x ∈ t.takeWhile (fun e => decide (g e = v)) ↔ x ∈ t ∧ g x = v := ih h2 fun b hb => hge b (List.mem_cons_of_mem _ hb)
      rw [if_pos (by simpa using hav), List.mem_cons, ih']
      constructor
      · rintro (rfl | ⟨hx, hv⟩)
        · exact ⟨by simp, hav⟩
        · exact ⟨by simp [hx], hv⟩
      · rintro ⟨hx, hv⟩
        rcases List.mem_cons.1 hx with rfl | hx
        · exact Or.inl rfl
        · exact Or.inr ⟨hx, hv⟩
    · rw [if_neg (by simpa using hav)]
      constructor
      · intro hx; cases hx
      · rintro ⟨hx, hv⟩
        rcases List.mem_cons.1 hx with rfl | hx
        · exact absurd hv hav
        · have h3 := h1 x hx
          rw [hv] at h3
          have h4 := hge a (by simp)
          cases hc : cmp (g a) v with
          | lt => exact absurd hc h4
          | eq => exact absurd ((heq _ _).1 hc) hav
          | gt => rw [hc] at h3; cases h3

/-! ## The segments of a path -/

/-- The first three dot-separated segments of a path, missing ones being empty. -/
def Segments (p a b c : Str) : Prop :=
  '.' ∉ a ∧ '.' ∉ b ∧ '.' ∉ c ∧
    ((p = a ∧ b = [] ∧ c = []) ∨ (p = a ++ '.' :: b ∧ c = []) ∨
      p = a ++ '.' :: (b ++ '.' :: c) ∨ ∃ rest, p = a ++ '.' :: (b ++ '.' :: (c ++ '.' :: rest)))

theorem splitDot_nodot {s : Str} : ∀ seg ∈ splitDot s, '.' ∉ seg := by
  induction s with
  | nil => simp [splitDot]
  | cons a t ih =>
    intro seg hs
    unfold splitDot at hs
    split at hs
    · rcases List.mem_cons.1 hs with rfl | hs
      · simp
      · exact ih seg hs
    · rename_i ha
      split at hs
      · rename_i s' r he
        rcases List.mem_cons.1 hs with rfl | hs
        · intro hm
          rcases List.mem_cons.1 hm with rfl | hm
          · exact ha rfl
          · exact ih s' (by simp [he]) hm
        · exact ih seg (by simp [he, hs])
      · simp only [List.mem_singleton] at hs
        subst hs
        intro hm
        simp only [List.mem_singleton] at hm
        exact ha hm.symm

theorem segments_split {p a b c : Str} (h : Segments p a b c) : splitPath p = (a, b, c) := by
  obtain ⟨ha, hb, hc, h⟩ := h
  unfold splitPath
  rcases h with ⟨rfl, rfl, rfl⟩ | ⟨rfl, rfl⟩ | rfl | ⟨rest, rfl⟩
  · simp [SchemaPath.splitDot_plain ha]
  · simp [SchemaPath.splitDot_append ha, SchemaPath.splitDot_plain hb]
  · simp [SchemaPath.splitDot_append ha, SchemaPath.splitDot_append hb, SchemaPath.splitDot_plain hc]
  · simp [SchemaPath.splitDot_append ha, SchemaPath.splitDot_append hb, SchemaPath.splitDot_append hc]

theorem segments_exist (p : Str) : ∃ a b c, Segments p a b c := by
  have hd := splitDot_nodot (s := p)
  cases h1 : splitDot p with
  | nil => exact absurd h1 (SchemaPath.splitDot_ne p)
  | cons a r1 =>
    rw [h1] at hd
    have ha : '.' ∉ a := hd a (by simp)
    rcases SchemaPath.splitDot_cons h1 with ⟨-, rfl⟩ | ⟨q, rfl, rfl⟩
    · exact ⟨p, [], [], ha, by simp, by simp, Or.inl ⟨rfl, rfl, rfl⟩⟩
    · have hd := splitDot_nodot (s := q)
      cases h2 : splitDot q with
      | nil => exact absurd h2 (SchemaPath.splitDot_ne q)
      | cons b r2 =>
        rw [h2] at hd
        have hb : '.' ∉ b := hd b (by simp)
        rcases SchemaPath.splitDot_cons h2 with ⟨-, rfl⟩ | ⟨q', rfl, rfl⟩
        · exact ⟨a, q, [], ha, hb, by simp, Or.inr (Or.inl ⟨rfl, rfl⟩)⟩
        · have hd := splitDot_nodot (s := q')
          cases h3 : splitDot q' with
          | nil => exact absurd h3 (SchemaPath.splitDot_ne q')
          | cons c r3 =>
            rw [h3] at hd
            have hc : '.' ∉ c := hd c (by simp)
            rcases SchemaPath.splitDot_cons h3 with ⟨-, rfl⟩ | ⟨q'', rfl, rfl⟩
            · exact ⟨a, b, q', ha, hb, hc, Or.inr (Or.inr (Or.inl rfl))⟩
            · exact ⟨a, b, c, ha, hb, hc, Or.inr (Or.inr (Or.inr ⟨q'', rfl⟩))⟩

theorem split_iff {p a b c : Str} : splitPath p = (a, b, c) ↔ Segments p a b c := by
  refine ⟨fun h => ?_, segments_split⟩
  obtain ⟨a', b', c', hs⟩ := segments_exist p
  rw [segments_split hs] at h
  cases h
  exact hs

theorem cmpStr_lt {a b : Str} : cmpStr a b = .lt ↔ a < b := by
  unfold cmpStr
  induction a generalizing b with
  | nil => cases b <;> simp [List.compareLex]
  | cons x t ih =>
    cases b with
    | nil => simp [List.compareLex]
    | cons y u =>
      rw [List.compareLex_cons_cons, List.cons_lt_cons_iff, Ordering.then_eq_lt, ih]
      simp only [compare, compareOfLessAndEq]
      by_cases h1 : x < y
      · simp [h1]
      · by_cases h2 : x = y
        · simp [h1, h2]
        · simp [h1, h2]

end Verif.PatchPaths
