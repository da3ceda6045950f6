import Verif.QueryMods.Lemmas
import Verif.OpChecks.TableLemmas
/-!
# Lemmas: field shapes with errors
-/
namespace Verif.QueryMods

open Verif.OpChecks (sortBy sortBy_perm sortBy_sorted)

/-! ## References -/

/-- The indexes of the field shapes of a data field; `k` shapes came before. -/
def occ (f : Nat) (k : Nat) : List FShape → List Nat
  | [] => []
  | s :: t => if s.id = some f then k :: occ f (k + 1) t else occ f (k + 1) t

theorem mem_occ {f i : Nat} {l : List FShape} {k : Nat} :
    i ∈ occ f k l ↔ ∃ j s, i = k + j ∧ l[j]? = some s ∧ s.id = some f := by
  induction l generalizing k with
  | nil => simp [occ]
  | cons s t ih =>
    have step : (∃ j s', i = k + j ∧ (s :: t)[j]? = some s' ∧ s'.id = some f) ↔
        (i = k ∧ s.id = some f) ∨ ∃ j s', i = k + 1 + j ∧ t[j]? = some s' ∧ s'.id = some f := by
      constructor
      · rintro ⟨j, s', h1, h2, h3⟩
        cases j with
        | zero => simp at h2; subst h2; exact Or.inl ⟨by omega, h3⟩
        | succ j => simp at h2; exact Or.inr ⟨j, s', by omega, h2, h3⟩
      · rintro (⟨h1, h2⟩ | ⟨j, s', h1, h2, h3⟩)
        · exact ⟨0, s, by omega, by simp, h2⟩
        · exact ⟨j + 1, s', by omega, by simpa using h2, h3⟩
    rw [step, ← ih, occ]
    split
    · rename_i h; simp [h]
    · rename_i h; simp [h]

theorem occ_append {f : Nat} {l l' : List FShape} {k : Nat} :
    occ f k (l ++ l') = occ f k l ++ occ f (k + l.length) l' := by
  induction l generalizing k with
  | nil => simp [occ]
  | cons s t ih =>
    simp only [List.cons_append, occ, List.length_cons]
    rw [ih, show k + 1 + t.length = k + (t.length + 1) by omega]
    split <;> simp

theorem occ_length_le {f k : Nat} {l : List FShape} : (occ f k l).length ≤ (l.flatMap (·.group)).count f := by
  induction l generalizing k with
  | nil => simp [occ]
  | cons s t ih =>
    rw [List.flatMap_cons, List.count_append]
    unfold occ
    split
    · rename_i h
      have : 1 ≤ s.group.count f := by
        apply List.one_le_count_iff.2
        unfold FShape.id at h
        exact List.mem_of_head? h
      have := ih (k := k + 1)
      simp only [List.length_cons]
      omega
    · have := ih (k := k + 1)
      omega

/-- The sum of the counts before `f`. -/
def before (count : Nat → Nat) (f : Nat) : Nat := ((List.range f).map count).sum

theorem before_succ (count : Nat → Nat) (f : Nat) : before count (f + 1) = before count f + count f := by
  simp [before, List.range_succ]

theorem before_mono (count : Nat → Nat) {f g : Nat} (h : f ≤ g) : before count f ≤ before count g := by
  induction h with
  | refl => exact Nat.le_refl _
  | step _ ih => rw [before_succ]; omega

theorem refStarts_get {count : Nat → Nat} {n len f g : Nat} (h : g < n) :
    (refStarts count len f n)[g]? =
      some (len + ((List.range g).map fun j => count (f + j)).sum, len + ((List.range g).map fun j => count (f + j)).sum) := by
  induction n generalizing len f g with
  | zero => omega
  | succ n ih =>
    cases g with
    | zero => simp [refStarts]
    | succ g =>
      simp only [refStarts, List.getElem?_cons_succ]
      rw [ih (by omega), List.range_succ_eq_map]
      simp only [List.map_cons, List.map_map, List.sum_cons, Nat.add_zero]
      have : ((List.range g).map fun j => count (f + 1 + j)) =
          (List.range g).map ((fun j => count (f + j)) ∘ Nat.succ) := by
        apply List.map_congr_left
        intro j _
        simp only [Function.comp_apply]
        congr 1
        omega
      rw [this]
      simp only [Option.some.injEq, Prod.mk.injEq]
      omega

theorem refStarts_length {count : Nat → Nat} {n len f : Nat} : (refStarts count len f n).length = n := by
  induction n generalizing len f with
  | zero => rfl
  | succ n ih => simp [refStarts, ih]

structure FillInv (count : Nat → Nat) (n : Nat) (pre : List FShape) (r : Refs) : Prop where
  len : r.refs.length = before count n
  ranges : ∀ f, f < n → r.ranges[f]? = some (before count f, before count f + (occ f 0 pre).length)
  refs : ∀ f, f < n → ∀ (j x : Nat), (occ f 0 pre)[j]? = some x → r.refs[before count f + j]? = some x

theorem fill_post {count : Nat → Nat} {n : Nat} {l pre : List FShape} {r : Refs}
    (hinv : FillInv count n pre r)
    (hc : ∀ f, (occ f 0 (pre ++ l)).length ≤ count f) (hn : ∀ s ∈ l, ∀ f, s.id = some f → f < n) :
    ∃ r', fill r pre.length l = some r' ∧ FillInv count n (pre ++ l) r' := by
  induction l generalizing pre r with
  | nil => exact ⟨r, rfl, by simpa using hinv⟩
  | cons s t ih =>
    have e1 : ∀ f, occ f 0 (pre ++ [s]) = occ f 0 pre ++ if s.id = some f then [pre.length] else [] := by
      intro f
      rw [occ_append]
      simp only [occ, Nat.zero_add]
    have happ : pre ++ s :: t = (pre ++ [s]) ++ t := by simp
    have hlt : ∀ f, (occ f 0 (pre ++ [s])).length ≤ count f := by
      intro f
      have := hc f
      rw [happ, occ_append, List.length_append] at this
      omega
    have hone : ∃ r1, fillOne r pre.length s = some r1 ∧ FillInv count n (pre ++ [s]) r1 := by
      unfold fillOne
      cases hid : s.id with
      | none =>
        refine ⟨r, rfl, hinv.len, ?_, ?_⟩
        · intro f hf; rw [e1, hid]; simpa using hinv.ranges f hf
        · intro f hf j x; rw [e1, hid]; simpa using hinv.refs f hf j x
      | some g =>
        have hg : g < n := hn s (by simp) g hid
        have hgl := hlt g
        rw [e1, hid] at hgl
        simp only [if_true, List.length_append, List.length_singleton] at hgl
        have hb := before_succ count g
        have hb2 := before_mono count (f := g + 1) (g := n) (by omega)
        have hpos : before count g + (occ g 0 pre).length < r.refs.length := by rw [hinv.len]; omega
        simp only [hinv.ranges g hg, Option.bind_some]
        refine ⟨_, if_pos hpos, ?_, ?_, ?_⟩
        · simpa using hinv.len
        · intro f hf
          rw [e1, hid]
          by_cases hfg : f = g
          · subst hfg
            have hl : f < r.ranges.length := by
              have := hinv.ranges f hf
              exact (List.getElem?_eq_some_iff.1 this).1
            rw [List.getElem?_set_self hl]
            simp [Nat.add_assoc]
          · rw [List.getElem?_set_ne (fun h => hfg h.symm), hinv.ranges f hf]
            simp [Ne.symm hfg]
        · intro f hf j x hj
          rw [e1, hid] at hj
          by_cases hfg : f = g
          · subst hfg
            simp only [if_true] at hj
            by_cases hjl : j < (occ f 0 pre).length
            · rw [List.getElem?_append_left hjl] at hj
              rw [List.getElem?_set_ne (by omega)]
              exact hinv.refs f hf j x hj
            · rw [List.getElem?_append_right (by omega)] at hj
              have hj0 : j - (occ f 0 pre).length = 0 := by
                cases hq : j - (occ f 0 pre).length with
                | zero => rfl
                | succ q => rw [hq] at hj; simp at hj
              have hj1 : j = (occ f 0 pre).length := by omega
              rw [hj0] at hj
              simp only [List.getElem?_cons_zero, Option.some.injEq] at hj
              subst hj1
              rw [List.getElem?_set_self hpos, hj]
          · have hne : ¬ some g = some f := by simpa using Ne.symm hfg
            rw [if_neg hne, List.append_nil] at hj
            have hjl : j < (occ f 0 pre).length := (List.getElem?_eq_some_iff.1 hj).1
            have hfl := hlt f
            rw [e1, hid, if_neg hne, List.append_nil] at hfl
            have hbf := before_succ count f
            rw [List.getElem?_set_ne ?_]
            · exact hinv.refs f hf j x hj
            · rcases Nat.lt_or_gt_of_ne hfg with h | h
              · have := before_mono count (f := f + 1) (g := g) (by omega); omega
              · have := before_mono count (f := g + 1) (g := f) (by omega); omega
    obtain ⟨r1, h1, h2⟩ := hone
    obtain ⟨r', h3, h4⟩ := ih (pre := pre ++ [s]) h2 (by rw [← happ]; exact hc) (fun x hx => hn x (by simp [hx]))
    refine ⟨r', ?_, by rw [happ]; exact h4⟩
    simp only [fill, h1, Option.bind_some]
    simpa using h3

theorem buildRefs_post {n : Nat} {bs : List Block} (hn : ∀ s ∈ allShapes bs, ∀ f, s.id = some f → f < n) :
    ∃ r, buildRefs n bs = some r ∧ ∀ f, f < n → r.shapeIds f = occ f 0 (allShapes bs) := by
  have hinv : FillInv (shapeCount bs) n []
      ⟨refStarts (shapeCount bs) 0 0 n, List.replicate ((List.range n).map (shapeCount bs)).sum 0⟩ := by
    refine ⟨by simp [before], ?_, ?_⟩
    · intro f hf
      rw [refStarts_get hf]
      simp [before, occ]
    · intro f hf j x hj
      simp [occ] at hj
  obtain ⟨r, h1, h2⟩ := fill_post (l := allShapes bs) hinv (fun f => occ_length_le) hn
  refine ⟨r, h1, ?_⟩
  intro f hf
  rw [List.nil_append] at h2
  unfold Refs.shapeIds
  rw [h2.ranges f hf]
  apply List.ext_getElem?
  intro j
  rw [List.getElem?_drop, List.getElem?_take]
  split
  · rename_i h
    have hj : j < (occ f 0 (allShapes bs)).length := by omega
    rw [List.getElem?_eq_getElem hj]
    exact h2.refs f hf j _ (List.getElem?_eq_getElem hj)
  · rename_i h
    rw [List.getElem?_eq_none (by omega)]

theorem shapeIds_out {n f : Nat} {bs : List Block} {r : Refs} (h : buildRefs n bs = some r) (hf : ¬ f < n) :
    r.shapeIds f = [] := by
  have hl : ∀ (l : List FShape) (k : Nat) (r r' : Refs), fill r k l = some r' → r'.ranges.length = r.ranges.length := by
    intro l
    induction l with
    | nil => intro k r r' h; cases h; rfl
    | cons s t ih =>
      intro k r r' h
      simp only [fill, Option.bind_eq_some_iff] at h
      obtain ⟨r1, h1, h2⟩ := h
      rw [ih _ _ _ h2]
      unfold fillOne at h1
      cases hid : s.id with
      | none => simp only [hid] at h1; cases h1; rfl
      | some g =>
        simp only [hid, Option.bind_eq_some_iff] at h1
        obtain ⟨⟨a, b⟩, -, h1⟩ := h1
        simp only at h1
        split at h1
        · cases h1; simp
        · cases h1
  have := hl _ _ _ _ h
  simp only [refStarts_length] at this
  unfold Refs.shapeIds
  rw [List.getElem?_eq_none (by omega)]

/-! ## Errors by field shape -/

theorem mem_shapeErrors {r : Refs} {denied : List (Nat × Nat)} {i e : Nat} :
    (i, e) ∈ shapeErrors r denied ↔ ∃ f, (f, e) ∈ denied ∧ i ∈ r.shapeIds f := by
  unfold shapeErrors
  rw [(sortBy_perm _ _).mem_iff, List.mem_flatMap]
  constructor
  · rintro ⟨⟨f, e'⟩, h1, h2⟩
    obtain ⟨x, hx, h3⟩ := List.mem_map.1 h2
    cases h3
    exact ⟨f, h1, hx⟩
  · rintro ⟨f, h1, h2⟩
    exact ⟨(f, e), h1, List.mem_map.2 ⟨i, h2, rfl⟩⟩

theorem shapeErrors_sorted (r : Refs) (denied : List (Nat × Nat)) :
    (shapeErrors r denied).Pairwise fun a b => a.1 ≤ b.1 := by
  have := sortBy_sorted (le := fun a b : Nat × Nat => decide (a.1 ≤ b.1))
    (fun a b c h1 h2 => by simp at *; omega) (fun a b => by simp; omega)
    (denied.flatMap fun (f, e) => (r.shapeIds f).map (·, e))
  exact this.imp (fun h => by simpa using h)

theorem mem_findAll {l : List (Nat × Nat)} (hl : l.Pairwise fun a b => a.1 ≤ b.1) {i e : Nat} :
    e ∈ findAll l i ↔ (i, e) ∈ l := by
  unfold findAll
  induction l with
  | nil => simp
  | cons x t ih =>
    obtain ⟨j, e'⟩ := x
    have ht := (List.pairwise_cons.1 hl).2
    have hx := (List.pairwise_cons.1 hl).1
    by_cases hji : j < i
    · rw [List.dropWhile_cons_of_pos (by simpa using hji), ih ht]
      simp only [List.mem_cons, Prod.mk.injEq]
      constructor
      · exact Or.inr
      · rintro (⟨h, -⟩ | h)
        · omega
        · exact h
    · rw [List.dropWhile_cons_of_neg (by simpa using hji)]
      have key : ∀ l : List (Nat × Nat), l.Pairwise (fun a b => a.1 ≤ b.1) → (∀ y ∈ l, i ≤ y.1) →
          (e ∈ (l.takeWhile fun p => decide (p.1 = i)).map (·.2) ↔ (i, e) ∈ l) := by
        intro l
        induction l with
        | nil => simp
        | cons y u ihu =>
          intro hp hle
          obtain ⟨a, b⟩ := y
          by_cases hai : a = i
          · subst hai
            rw [List.takeWhile_cons_of_pos (by simp)]
            simp only [List.map_cons, List.mem_cons, Prod.mk.injEq, true_and]
            rw [ihu (List.pairwise_cons.1 hp).2 (fun z hz => hle z (by simp [hz]))]
          · rw [List.takeWhile_cons_of_neg (by simpa using hai)]
            simp only [List.map_nil, List.not_mem_nil, false_iff]
            intro hmem
            have h1 := hle (a, b) (by simp)
            rcases List.mem_cons.1 hmem with h | h
            · cases h; exact hai rfl
            · have := (List.pairwise_cons.1 hp).1 _ h
              simp only at this h1
              omega
      apply key _ hl
      intro y hy
      rcases List.mem_cons.1 hy with rfl | hy
      · simp only; omega
      · have := hx y hy
        simp only at this
        omega

theorem mem_dedup {l : List Nat} {x : Nat} : x ∈ dedup l ↔ x ∈ l := by
  fun_induction dedup l with
  | case1 => simp
  | case2 a => simp
  | case3 b t ih => rw [ih]; simp
  | case4 a b t h ih => rw [List.mem_cons, ih]; simp

theorem dedup_sublist (l : List Nat) : (dedup l).Sublist l := by
  fun_induction dedup l with
  | case1 => simp
  | case2 a => simp
  | case3 b t ih => exact ih.cons _
  | case4 a b t h ih => exact ih.cons_cons _

theorem mem_errorShapes {l : List (Nat × Nat)} {i : Nat} : i ∈ errorShapes l ↔ ∃ e, (i, e) ∈ l := by
  unfold errorShapes
  rw [mem_dedup, List.mem_map]
  constructor
  · rintro ⟨⟨a, b⟩, h, rfl⟩; exact ⟨b, h⟩
  · rintro ⟨e, h⟩; exact ⟨(i, e), h, rfl⟩

theorem errorShapes_sorted {l : List (Nat × Nat)} (h : l.Pairwise fun a b => a.1 ≤ b.1) :
    (errorShapes l).Pairwise (· ≤ ·) := by
  unfold errorShapes
  exact (List.pairwise_map.2 h).sublist (dedup_sublist _)

/-! ## Concrete shapes -/

/-- An id lies in `a .. b`. -/
def hit (l : List Nat) (a b : Nat) : Bool := l.any fun x => decide (a ≤ x) && decide (x < b)

theorem hit_iff {l : List Nat} {a b : Nat} : hit l a b = true ↔ ∃ x ∈ l, a ≤ x ∧ x < b := by
  simp [hit]

theorem hit_eq {l l' : List Nat} {a b a' b' : Nat}
    (h : (∃ x ∈ l, a ≤ x ∧ x < b) ↔ ∃ x ∈ l', a' ≤ x ∧ x < b') : hit l a b = hit l' a' b' := by
  rw [Bool.eq_iff_iff, hit_iff, hit_iff, h]

theorem scan_spec (i stop cur : Nat) (rest : List Nat) (hs : (cur :: rest).Pairwise (· ≤ ·)) :
    (scan i stop cur rest).1 = hit (cur :: rest) i stop ∧
      ((scan i stop cur rest).2 = none → ∀ x ∈ cur :: rest, x < stop) ∧
      ∀ c r, (scan i stop cur rest).2 = some (c, r) →
        ∃ pre, cur :: rest = pre ++ c :: r ∧ ∀ x ∈ pre, x < stop := by
  fun_induction scan i stop cur rest with
  | case1 i cur rest h1 h2 ih =>
    obtain ⟨a, b, c⟩ := ih hs
    refine ⟨?_, b, c⟩
    rw [a]
    apply hit_eq
    constructor
    · rintro ⟨x, h3, h4, h5⟩; exact ⟨x, h3, by omega, h5⟩
    · rintro ⟨x, h3, h4, h5⟩
      refine ⟨x, h3, ?_, h5⟩
      have : cur ≤ x := by
        rcases List.mem_cons.1 h3 with rfl | h
        · exact Nat.le_refl _
        · exact (List.pairwise_cons.1 hs).1 x h
      omega
  | case2 cur rest h1 =>
    refine ⟨?_, by simp, ?_⟩
    · symm; rw [hit_iff]; exact ⟨cur, by simp, by omega, h1⟩
    · intro c r h
      simp only [Option.some.injEq, Prod.mk.injEq] at h
      obtain ⟨rfl, rfl⟩ := h
      exact ⟨[], by simp, by simp⟩
  | case3 i cur h1 h2 h3 =>
    refine ⟨?_, ?_, by simp⟩
    · symm
      rw [Bool.eq_false_iff, Ne, hit_iff]
      rintro ⟨x, h4, h5, h6⟩
      simp only [List.mem_singleton] at h4
      omega
    · intro _ x hx
      simp only [List.mem_singleton] at hx
      omega
  | case4 i cur h1 h2 h3 n t ih =>
    obtain ⟨a, b, c⟩ := ih (List.pairwise_cons.1 hs).2
    refine ⟨?_, ?_, ?_⟩
    · rw [a]
      apply hit_eq
      constructor
      · rintro ⟨x, h4, h5⟩; exact ⟨x, by simp [List.mem_cons.1 h4], h5⟩
      · rintro ⟨x, h4, h5, h6⟩
        rcases List.mem_cons.1 h4 with rfl | h4
        · omega
        · exact ⟨x, h4, h5, h6⟩
    · intro h x hx
      rcases List.mem_cons.1 hx with rfl | hx
      · omega
      · exact b h x hx
    · intro c' r' h
      obtain ⟨pre, hp1, hp2⟩ := c c' r' h
      refine ⟨cur :: pre, by rw [hp1]; rfl, ?_⟩
      intro x hx
      rcases List.mem_cons.1 hx with rfl | hx
      · omega
      · exact hp2 x hx
  | case5 i cur rest h1 =>
    refine ⟨?_, by simp, ?_⟩
    · symm
      rw [Bool.eq_false_iff, Ne, hit_iff]
      rintro ⟨x, h4, h5, h6⟩
      omega
    · intro c r h
      simp only [Option.some.injEq, Prod.mk.injEq] at h
      obtain ⟨rfl, rfl⟩ := h
      exact ⟨[], by simp, by simp⟩

/-- The ranges follow each other. -/
def Inc (rs : List (Nat × Nat)) : Prop := rs.Pairwise fun x y => x.2 ≤ y.1

theorem markLoop_eq {rs : List (Nat × Nat)} (hi : Inc rs) (cur : Nat) (rest : List Nat)
    (hs : (cur :: rest).Pairwise (· ≤ ·)) : markLoop cur rest rs = rs.map fun p => hit (cur :: rest) p.1 p.2 := by
  induction rs generalizing cur rest with
  | nil => rfl
  | cons x t ih =>
    obtain ⟨a, b⟩ := x
    have hit' := (List.pairwise_cons.1 hi).1
    have hit2 := (List.pairwise_cons.1 hi).2
    rw [markLoop, List.map_cons]
    split
    · obtain ⟨s1, s2, s3⟩ := scan_spec a b cur rest hs
      split
      · rename_i found heq
        rw [heq] at s1 s2
        simp only at s1 s2
        rw [s1]
        congr 1
        apply List.map_congr_left
        intro p hp
        symm
        rw [Bool.eq_false_iff, Ne, hit_iff]
        rintro ⟨y, h4, h5, h6⟩
        have := s2 trivial y h4
        have := hit' p hp
        simp only at this
        omega
      · rename_i found c r heq
        rw [heq] at s1 s3
        simp only at s1 s3
        obtain ⟨pre, hp1, hp2⟩ := s3 c r rfl
        rw [s1, ih hit2 c r (by rw [hp1] at hs; exact (List.pairwise_append.1 hs).2.1)]
        congr 1
        apply List.map_congr_left
        intro p hp
        apply hit_eq
        have hle := hit' p hp
        simp only at hle
        rw [hp1]
        constructor
        · rintro ⟨y, h4, h5⟩; exact ⟨y, List.mem_append_right _ h4, h5⟩
        · rintro ⟨y, h4, h5, h6⟩
          rcases List.mem_append.1 h4 with h4 | h4
          · have := hp2 y h4; omega
          · exact ⟨y, h4, h5, h6⟩
    · rename_i hlt
      rw [ih hit2 cur rest hs]
      congr 1
      symm
      rw [Bool.eq_false_iff, Ne, hit_iff]
      rintro ⟨y, h4, h5, h6⟩
      simp only at h6
      rcases List.mem_cons.1 h4 with rfl | h4
      · omega
      · have := (List.pairwise_cons.1 hs).1 y h4; omega

theorem hasError_eq {ids : List Nat} {rs : List (Nat × Nat)} (hi : Inc rs) (hs : ids.Pairwise (· ≤ ·)) :
    hasError ids rs = rs.map fun p => hit ids p.1 p.2 := by
  cases ids with
  | nil =>
    simp only [hasError]
    apply List.map_congr_left
    intro p _
    simp [hit]
  | cons c r => exact markLoop_eq hi c r hs

theorem ranges_ge {bs : List Block} {n : Nat} : ∀ p ∈ ranges n bs, n ≤ p.1 := by
  induction bs generalizing n with
  | nil => simp [ranges]
  | cons b t ih =>
    intro p hp
    rw [ranges] at hp
    split at hp
    · rcases List.mem_cons.1 hp with rfl | hp
      · exact Nat.le_refl _
      · have := ih p hp; omega
    · have := ih p hp; omega

theorem ranges_inc (bs : List Block) (n : Nat) : Inc (ranges n bs) := by
  induction bs generalizing n with
  | nil => exact List.Pairwise.nil
  | cons b t ih =>
    rw [ranges]
    split
    · refine List.pairwise_cons.2 ⟨?_, ih _⟩
      intro p hp
      exact ranges_ge p hp
    · exact ih _

/-- The range of a concrete shape. -/
theorem ranges_get {pre post : List Block} {b : Block} (hb : b.concrete = true) (n : Nat) :
    (ranges n (pre ++ b :: post))[(pre.filter (·.concrete)).length]? =
      some (n + (allShapes pre).length, n + (allShapes pre).length + b.shapes.length) := by
  induction pre generalizing n with
  | nil => simp [ranges, hb, allShapes]
  | cons x t ih =>
    rw [List.cons_append, ranges]
    have hl : (allShapes (x :: t)).length = x.shapes.length + (allShapes t).length := by
      simp [allShapes]
    cases hx : x.concrete with
    | true =>
      rw [if_pos rfl, List.filter_cons_of_pos hx, List.length_cons, List.getElem?_cons_succ, ih]
      rw [hl]
      simp only [Option.some.injEq, Prod.mk.injEq]
      omega
    | false =>
      rw [if_neg (by simp), List.filter_cons_of_neg (by simp [hx]), ih, hl]
      simp only [Option.some.injEq, Prod.mk.injEq]
      omega

theorem allShapes_split (pre post : List Block) (b : Block) :
    allShapes (pre ++ b :: post) = allShapes pre ++ (b.shapes ++ allShapes post) := by
  simp [allShapes]

theorem allShapes_get {pre post : List Block} {b : Block} {i : Nat} (h1 : (allShapes pre).length ≤ i)
    (h2 : i < (allShapes pre).length + b.shapes.length) :
    (allShapes (pre ++ b :: post))[i]? = b.shapes[i - (allShapes pre).length]? := by
  rw [allShapes_split, List.getElem?_append_right h1, List.getElem?_append_left (by omega)]

/-! ## Objects -/

theorem hideKey_fst {k : Nat} {l : Obj} (x : Nat) :
    x ∈ (hideKey k l).map (·.1) ↔ x ∈ l.map (·.1) ∨ x = k := by
  induction l with
  | nil => simp [hideKey]
  | cons y t ih =>
    obtain ⟨k', v⟩ := y
    rw [hideKey]
    split
    · rename_i h
      subst h
      simp only [List.map_cons, List.mem_cons]
      constructor
      · intro h; exact Or.inl h
      · rintro (h | h)
        · exact h
        · exact Or.inl h
    · simp only [List.map_cons, List.mem_cons, ih, or_assoc]

theorem hideKey_nodup {k : Nat} {l : Obj} (h : (l.map (·.1)).Nodup) : ((hideKey k l).map (·.1)).Nodup := by
  induction l with
  | nil => simp [hideKey]
  | cons y t ih =>
    obtain ⟨k', v⟩ := y
    rw [List.map_cons, List.nodup_cons] at h
    rw [hideKey]
    split
    · rw [List.map_cons, List.nodup_cons]; exact h
    · rename_i hk
      rw [List.map_cons, List.nodup_cons]
      refine ⟨?_, ih h.2⟩
      rw [hideKey_fst]
      rintro (h' | h')
      · exact h.1 h'
      · exact hk h'

theorem hideKey_other {k x : Nat} {v : Val} {l : Obj} (hx : x ≠ k) : (x, v) ∈ hideKey k l ↔ (x, v) ∈ l := by
  induction l with
  | nil => simp [hideKey, hx]
  | cons y t ih =>
    obtain ⟨k', v'⟩ := y
    rw [hideKey]
    split
    · rename_i h
      subst h
      simp [hx]
    · simp only [List.mem_cons, ih]

/-- Not shown. -/
def Hidden : Val → Prop
  | .null => True
  | .inaccessible _ => True
  | .data _ => False

theorem hidden_hide (v : Val) : Hidden v.hide := by cases v <;> trivial

theorem hideKey_self {k : Nat} {v : Val} {l : Obj} (hn : (l.map (·.1)).Nodup) (h : (k, v) ∈ hideKey k l) :
    Hidden v := by
  induction l with
  | nil => simp only [hideKey, List.mem_singleton, Prod.mk.injEq, true_and] at h; subst h; trivial
  | cons y t ih =>
    obtain ⟨k', v'⟩ := y
    rw [List.map_cons, List.nodup_cons] at hn
    rw [hideKey] at h
    split at h
    · rename_i hk
      subst hk
      rcases List.mem_cons.1 h with h | h
      · cases h; exact hidden_hide _
      · exact absurd (List.mem_map.2 ⟨(k', v), h, rfl⟩) hn.1
    · rename_i hk
      rcases List.mem_cons.1 h with h | h
      · cases h; exact absurd rfl hk
      · exact ih hn.2 h

theorem hideKey_keeps_hidden {k k' : Nat} {l : Obj} (h : ∀ v, (k, v) ∈ l → Hidden v) :
    ∀ v, (k, v) ∈ hideKey k' l → Hidden v := by
  induction l with
  | nil => intro v hv; simp only [hideKey, List.mem_singleton, Prod.mk.injEq] at hv; rw [hv.2]; trivial
  | cons y t ih =>
    obtain ⟨a, w⟩ := y
    intro v hv
    rw [hideKey] at hv
    split at hv
    · rcases List.mem_cons.1 hv with hv | hv
      · cases hv; exact hidden_hide _
      · exact h v (by simp [hv])
    · rcases List.mem_cons.1 hv with hv | hv
      · cases hv; exact h w (by simp)
      · exact ih (fun v hv => h v (by simp [hv])) v hv

structure ObjPost (errs : List (Nat × Nat)) (shapes : List OShape) (s s' : ObjSt) : Prop where
  nodup : (s'.fields.map (·.1)).Nodup
  hidden : ∀ f ∈ shapes, findAll errs f.id ≠ [] → ∀ v, (f.key, v) ∈ s'.fields → Hidden v
  present : ∀ f ∈ shapes, findAll errs f.id ≠ [] → ∃ v, (f.key, v) ∈ s'.fields
  other : ∀ k v, (∀ f ∈ shapes, f.key = k → findAll errs f.id = []) → ((k, v) ∈ s'.fields ↔ (k, v) ∈ s.fields)
  still : ∀ k, (∀ v, (k, v) ∈ s.fields → Hidden v) → ∀ v, (k, v) ∈ s'.fields → Hidden v
  keys : ∀ k, k ∈ s.fields.map (·.1) → k ∈ s'.fields.map (·.1)
  errors : s'.errors = s.errors ++ shapes.flatMap fun f => (findAll errs f.id).map (f.key, ·)
  prop : s'.propagated = true ↔ s.propagated = true ∨ ∃ f ∈ shapes, findAll errs f.id ≠ [] ∧ f.nonNull = true

theorem fold_post {errs : List (Nat × Nat)} {shapes : List OShape} {s : ObjSt} (hn : (s.fields.map (·.1)).Nodup) :
    ObjPost errs shapes s (shapes.foldl (shapeError1 errs) s) := by
  induction shapes generalizing s with
  | nil => exact ⟨hn, by simp, by simp, by simp, fun _ h => h, fun _ h => h, by simp, by simp⟩
  | cons f t ih =>
    rw [List.foldl_cons]
    cases he : findAll errs f.id with
    | nil =>
      have e0 : shapeError1 errs s f = s := by simp [shapeError1, he]
      rw [e0]
      have p := ih hn
      refine ⟨p.nodup, ?_, ?_, ?_, p.still, p.keys, ?_, ?_⟩
      · intro g hg hge
        rcases List.mem_cons.1 hg with rfl | hg
        · exact absurd he hge
        · exact p.hidden g hg hge
      · intro g hg hge
        rcases List.mem_cons.1 hg with rfl | hg
        · exact absurd he hge
        · exact p.present g hg hge
      · intro k v h; exact p.other k v (fun g hg => h g (by simp [hg]))
      · rw [p.errors]; simp [he]
      · rw [p.prop]; simp [he]
    | cons e es =>
      have hne : findAll errs f.id ≠ [] := by rw [he]; simp
      have e0 : shapeError1 errs s f = ⟨hideKey f.key s.fields, s.errors ++ (e :: es).map (f.key, ·),
          s.propagated || f.nonNull⟩ := by simp [shapeError1, he]
      rw [e0]
      have p := ih (s := ⟨hideKey f.key s.fields, s.errors ++ (e :: es).map (f.key, ·),
          s.propagated || f.nonNull⟩) (hideKey_nodup hn)
      refine ⟨p.nodup, ?_, ?_, ?_, ?_, ?_, ?_, ?_⟩
      · intro g hg hge
        rcases List.mem_cons.1 hg with rfl | hg
        · exact p.still _ (fun v hv => hideKey_self hn hv)
        · exact p.hidden g hg hge
      · intro g hg hge
        rcases List.mem_cons.1 hg with rfl | hg
        · have := p.keys g.key ((hideKey_fst g.key).2 (Or.inr rfl))
          obtain ⟨⟨a, v⟩, h1, h2⟩ := List.mem_map.1 this
          simp only at h2; subst h2
          exact ⟨v, h1⟩
        · exact p.present g hg hge
      · intro k v h
        have hk : k ≠ f.key := by
          intro hk
          exact hne (h f (by simp) hk.symm)
        rw [p.other k v (fun g hg => h g (by simp [hg]))]
        exact hideKey_other hk
      · intro k hk
        exact p.still k (hideKey_keeps_hidden hk)
      · intro k hk
        exact p.keys k ((hideKey_fst k).2 (Or.inl hk))
      · rw [p.errors]; simp [he]
      · rw [p.prop]
        simp only [Bool.or_eq_true, List.mem_cons, exists_eq_or_imp, he, ne_eq, reduceCtorEq, not_false_eq_true,
          true_and, or_assoc]

end Verif.QueryMods
