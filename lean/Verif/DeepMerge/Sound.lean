import Verif.DeepMerge.Lemmas
import Mathlib.Tactic.Tauto
/-!
# What a merge that does not panic does
-/
namespace Verif.DeepMerge

open Verif.DefaultMerge (Key)
open Verif.NullProp
open Verif.OpChecks (sortBy sortBy_perm)

/-- Merging of values is right. -/
def MV (mv : List Data → Val → Val → Option (List Data)) : Prop :=
  ∀ ps v w a b La Lb ps', Reps ps [v] [a] La → Reps ps [w] [b] Lb → (La ++ Lb).Nodup → mv ps v w = some ps' →
    ∃ t L, Joins a b t ∧ Reps ps' [v] [t] L ∧ L.Nodup ∧ (∀ id ∈ L, id ∈ La ++ Lb) ∧ Same ps ps' (La ++ Lb)

/-- No field of the list has the key. -/
def absent (X : List (Fld × Tree)) (p : Fld × Tree) : Bool := X.all fun x => decide (x.1.key ≠ p.1.key)

theorem absent_iff {X : List (Fld × Tree)} {p : Fld × Tree} : absent X p = true ↔ ∀ x ∈ X, x.1.key ≠ p.1.key := by
  simp [absent]

/-- The values of fields after a merge. -/
def After (Y : List (Fld × Tree)) (X X' : List (Fld × Tree)) : Prop :=
  ∀ (i : Nat) (x x' : Fld × Tree), X[i]? = some x → X'[i]? = some x' →
    (∀ q ∈ Y, q.1.key = x.1.key → Joins x.2 q.2 x'.2) ∧ ((∀ q ∈ Y, q.1.key ≠ x.1.key) → x'.2 = x.2)

theorem After.cons {Y X X' : List (Fld × Tree)} {x x' : Fld × Tree} (h : After Y X X')
    (h0 : (∀ q ∈ Y, q.1.key = x.1.key → Joins x.2 q.2 x'.2) ∧ ((∀ q ∈ Y, q.1.key ≠ x.1.key) → x'.2 = x.2)) : After Y (x :: X) (x' :: X') := by
  intro i a a' ha ha'
  cases i with
  | zero =>
    simp only [List.getElem?_cons_zero, Option.some.injEq] at ha ha'
    subst ha; subst ha'
    exact h0
  | succ i => exact h i a a' (by simpa using ha) (by simpa using ha')

theorem After.more {Y Y' X X' : List (Fld × Tree)} (h : After Y X X') (h1 : ∀ q ∈ Y, q ∈ Y') (h2 : ∀ q ∈ Y', q ∈ Y ∨ ∀ x ∈ X, q.1.key ≠ x.1.key) :
    After Y' X X' := by
  intro i a a' ha ha'
  obtain ⟨k1, k2⟩ := h i a a' ha ha'
  have hm := List.mem_of_getElem? ha
  refine ⟨fun q hq he => ?_, fun hq => k2 fun q hq' => hq q (h1 q hq')⟩
  rcases h2 q hq with hq | hq
  · exact k1 q hq he
  · exact absurd he (hq a hm)

theorem Before.ne {a b : Key} (h : a.Before b) : a ≠ b := by
  rintro rfl
  simp [DefaultMerge.Key.Before] at h

theorem Before.trans {a b c : Key} (h : a.Before b) (h' : b.Before c) : a.Before c := by
  unfold DefaultMerge.Key.Before at *
  omega

theorem nd {α : Type} {A B C D : List α} (h : (A ++ B ++ (C ++ D)).Nodup) :
    (A ++ B ++ D).Nodup ∧ (∀ x ∈ C, x ∉ A ++ B ++ D) ∧ C.Nodup ∧ (A ++ C).Nodup ∧ (∀ x ∈ B, x ∉ A ++ C) ∧ (∀ x ∈ D, x ∉ A ++ C) ∧ (B ++ D).Nodup ∧
      B.Nodup := by
  rw [List.nodup_append, List.nodup_append, List.nodup_append] at h
  obtain ⟨⟨a, b, ab⟩, ⟨c, d, cd⟩, e⟩ := h
  have hAC : ∀ x ∈ A, x ∉ C := fun x hx hy => e x (by simp [hx]) x (by simp [hy]) rfl
  have hAD : ∀ x ∈ A, x ∉ D := fun x hx hy => e x (by simp [hx]) x (by simp [hy]) rfl
  have hBC : ∀ x ∈ B, x ∉ C := fun x hx hy => e x (by simp [hx]) x (by simp [hy]) rfl
  have hBD : ∀ x ∈ B, x ∉ D := fun x hx hy => e x (by simp [hx]) x (by simp [hy]) rfl
  have hAB : ∀ x ∈ A, x ∉ B := fun x hx hy => ab x hx x hy rfl
  have hCD : ∀ x ∈ C, x ∉ D := fun x hx hy => cd x hx x hy rfl
  clear e ab cd
  simp only [List.nodup_append, List.mem_append]
  refine ⟨⟨⟨a, b, ?_⟩, d, ?_⟩, ?_, c, ⟨a, c, ?_⟩, ?_, ?_, ⟨b, d, ?_⟩, b⟩ <;> grind

abbrev InOrder (X : List (Fld × Tree)) : Prop := X.Pairwise fun a b => a.1.key.Before b.1.key

theorem scan_sound {mv : List Data → Val → Val → Option (List Data)} (hmv : MV mv) (n : Nat) :
    ∀ (ps : List Data) (X : List (Fld × Tree)) (y : Fld × Tree) (Y : List (Fld × Tree)) (Lx Ly : List Id) (ps' : List Data) (pushed : List Fld),
      InOrder X → InOrder (y :: Y) → Reps ps (X.map (·.1.value)) (X.map Prod.snd) Lx →
      Reps ps ((y :: Y).map (·.1.value)) ((y :: Y).map Prod.snd) Ly → (Lx ++ Ly).Nodup →
      mergeScan mv n ps (X.map Prod.fst) y.1 (Y.map Prod.fst) = some (ps', pushed) →
      ∃ X' P L, X'.map Prod.fst = X.map Prod.fst ∧ P.map Prod.fst = pushed ∧ P = (y :: Y).filter (absent X) ∧ After (y :: Y) X X' ∧
        Reps ps' ((X' ++ P).map (·.1.value)) ((X' ++ P).map Prod.snd) L ∧ L.Nodup ∧ (∀ id ∈ L, id ∈ Lx ++ Ly) ∧ Same ps ps' (Lx ++ Ly) := by
  induction n with
  | zero => intro ps X y Y Lx Ly ps' pushed _ _ _ _ _ h; simp [mergeScan] at h
  | succ n ih =>
    intro ps X y Y Lx Ly ps' pushed hX hY h1 h2 hn h
    cases X with
    | nil =>
      simp only [List.map_nil, mergeScan, Option.some.injEq, Prod.mk.injEq] at h
      obtain ⟨rfl, rfl⟩ := h
      cases h1
      refine ⟨[], y :: Y, Ly, rfl, by simp, ?_, fun i x x' hx => by simp at hx, by simpa using h2, by simpa using hn, by simp, .refl⟩
      exact (List.filter_eq_self.2 fun p _ => by simp [absent]).symm
    | cons x X =>
      obtain ⟨Lx1, Lx2, rfl, hx1, hx2⟩ := h1.uncons
      obtain ⟨hX0, hX1⟩ := List.pairwise_cons.1 hX
      obtain ⟨hY0, hY1⟩ := List.pairwise_cons.1 hY
      simp only [List.map_cons, mergeScan] at h
      cases hc : x.1.key.cmp y.1.key with
      | lt =>
        rw [hc] at h
        have hlt := DefaultMerge.Key.cmp_lt.1 hc
        have hno : ∀ q ∈ y :: Y, q.1.key ≠ x.1.key := fun q hq he => by
          rcases List.mem_cons.1 hq with rfl | hq
          · exact Before.ne hlt he.symm
          · exact Before.ne (Before.trans hlt (hY0 q hq)) he.symm
        have hn' : (Lx2 ++ Ly).Nodup := by rw [List.append_assoc] at hn; exact (List.nodup_append.1 hn).2.1
        obtain ⟨X', P, L, k1, k2, k3, k4, k5, k6, k7, k8⟩ := ih ps X y Y Lx2 Ly ps' pushed hX1 hY hx2 h2 hn' h
        have hdis : ∀ id ∈ Lx1, id ∉ Lx2 ++ Ly := fun id hi hj => by
          rw [List.append_assoc] at hn
          exact (List.nodup_append.1 hn).2.2 id hi id hj rfl
        refine ⟨x :: X', P, Lx1 ++ L, by simp [k1], k2, ?_, k4.cons ⟨fun q hq he => absurd he (hno q hq), fun _ => rfl⟩,
          (hx1.frame k8 hdis).cons k5, ?_, ?_, k8.mono fun id hi => ?_⟩
        · rw [k3]
          refine List.filter_congr fun q hq => ?_
          have := hno q hq
          simp only [absent, List.all_cons]
          rw [show decide (x.1.key ≠ q.1.key) = true by simpa using fun he => this he.symm]; simp
        · rw [List.nodup_append]
          refine ⟨(List.nodup_append.1 (List.append_assoc .. ▸ hn)).1, k6, fun a ha b hb he => ?_⟩
          subst he
          exact hdis a ha (k7 a hb)
        · intro id hi
          rcases List.mem_append.1 hi with hi | hi
          · simp [hi]
          · have := k7 id hi
            simp only [List.mem_append] at this ⊢; tauto
        · simp only [List.mem_append] at hi ⊢; tauto
      | gt =>
        rw [hc] at h
        have hgt := DefaultMerge.Key.cmp_gt.1 hc
        have hno : ∀ q ∈ x :: X, y.1.key ≠ q.1.key := fun q hq he => by
          rcases List.mem_cons.1 hq with rfl | hq
          · exact Before.ne hgt he
          · exact Before.ne (Before.trans hgt (hX0 q hq)) he
        have habs : absent (x :: X) y = true := absent_iff.2 fun q hq he => hno q hq he.symm
        cases Y with
        | nil =>
          simp only [List.map_nil, Option.some.injEq, Prod.mk.injEq] at h
          obtain ⟨rfl, rfl⟩ := h
          refine ⟨x :: X, [y], Lx1 ++ Lx2 ++ Ly, rfl, rfl, by rw [List.filter_cons, if_pos habs]; rfl, ?_, ?_, hn, fun _ h => h, .refl⟩
          · intro i a a' ha ha'
            rw [ha] at ha'
            cases ha'
            refine ⟨fun q hq he => ?_, fun _ => rfl⟩
            simp only [List.mem_singleton] at hq
            subst hq
            exact absurd he (hno a (List.mem_of_getElem? ha))
          · simp only [List.map_append]
            exact h1.append h2
        | cons y' Y =>
          simp only [List.map_cons, Option.map_eq_some_iff, Prod.mk.injEq] at h
          obtain ⟨⟨ps1, pushed'⟩, h, rfl, rfl⟩ := h
          obtain ⟨Ly1, Ly2, rfl, hy1, hy2⟩ := h2.uncons
          have hn' : (Lx1 ++ Lx2 ++ Ly2).Nodup := (nd hn).1
          obtain ⟨X', P, L, k1, k2, k3, k4, k5, k6, k7, k8⟩ := ih ps (x :: X) y' Y _ Ly2 ps1 pushed' hX hY1 h1 hy2 hn' h
          have hdis : ∀ id ∈ Ly1, id ∉ Lx1 ++ Lx2 ++ Ly2 := (nd hn).2.1
          obtain ⟨L', p1, p2⟩ := Reps.perm (X := y :: (X' ++ P)) (Y := X' ++ y :: P) List.perm_middle.symm ((hy1.frame k8 hdis).cons k5)
          refine ⟨X', y :: P, L', k1, by simp [k2], ?_, ?_, p2, p1.nodup_iff.2 ?_, fun id hi => ?_, k8.mono (by simp only [List.mem_append]; tauto)⟩
          · rw [List.filter_cons, if_pos habs, k3]
          · exact k4.more (fun q hq => by simp [hq]) fun q hq => by
              rcases List.mem_cons.1 hq with rfl | hq
              · exact .inr hno
              · exact .inl hq
          · rw [List.nodup_append]
            refine ⟨(nd hn).2.2.1, k6, fun a ha b hb he => ?_⟩
            subst he
            exact hdis a ha (k7 a hb)
          · have := p1.mem_iff.1 hi
            rcases List.mem_append.1 this with hi | hi
            · simp [hi]
            · have := k7 id hi
              simp only [List.mem_append] at this ⊢; tauto
      | eq =>
        rw [hc] at h
        have heq := DefaultMerge.Key.cmp_eq.1 hc
        obtain ⟨Ly1, Ly2, rfl, hy1, hy2⟩ := h2.uncons
        dsimp only at h
        cases hm : mv ps x.1.value y.1.value with
        | none => rw [hm] at h; cases h
        | some ps1 =>
          rw [hm] at h
          obtain ⟨t, L0, j1, j2, j3, j4, j5⟩ := hmv ps _ _ _ _ Lx1 Ly1 ps1 hx1 hy1 (nd hn).2.2.2.1 hm
          have hXno : ∀ q ∈ X, y.1.key ≠ q.1.key := fun q hq he => Before.ne (hX0 q hq) (heq.trans he)
          have hYno : ∀ q ∈ Y, q.1.key ≠ x.1.key := fun q hq he => Before.ne (hY0 q hq) (heq.symm.trans he.symm)
          have h0 : (∀ q ∈ y :: Y, q.1.key = x.1.key → Joins x.2 q.2 t) ∧ ((∀ q ∈ y :: Y, q.1.key ≠ x.1.key) → t = x.2) := by
            refine ⟨fun q hq he => ?_, fun hq => absurd heq.symm (hq y (by simp))⟩
            rcases List.mem_cons.1 hq with rfl | hq
            · exact j1
            · exact absurd he (hYno q hq)
          have hyabs : absent (x :: X) y = false := by simp [absent, heq]
          have hx2' := hx2.frame j5 (nd hn).2.2.2.2.1
          cases Y with
          | nil =>
            simp only [List.map_nil, Option.some.injEq, Prod.mk.injEq] at h
            obtain ⟨rfl, rfl⟩ := h
            refine ⟨(x.1, t) :: X, [], L0 ++ Lx2, by simp, rfl, by rw [List.filter_cons, if_neg (by simp [hyabs])]; rfl, ?_, ?_, ?_, ?_, j5.mono (by simp only [List.mem_append]; tauto)⟩
            · refine After.cons (fun i a a' ha ha' => ?_) h0
              rw [ha] at ha'
              cases ha'
              refine ⟨fun q hq he => ?_, fun _ => rfl⟩
              simp only [List.mem_singleton] at hq
              subst hq
              exact absurd he (hXno a (List.mem_of_getElem? ha))
            · rw [List.append_nil]
              exact j2.cons hx2'
            · rw [List.nodup_append]
              refine ⟨j3, (nd hn).2.2.2.2.2.2.2, fun a ha b hb he => ?_⟩
              subst he
              exact (nd hn).2.2.2.2.1 a hb (j4 a ha)
            · intro id hi
              rcases List.mem_append.1 hi with hi | hi
              · have := j4 id hi
                simp only [List.mem_append] at this ⊢
                exact this.elim (fun h => .inl (.inl h)) (fun h => .inr (.inl h))
              · simp [hi]
          | cons y' Y =>
            simp only [List.map_cons] at h
            have hy2' := hy2.frame j5 (nd hn).2.2.2.2.2.1
            obtain ⟨X', P, L, k1, k2, k3, k4, k5, k6, k7, k8⟩ := ih ps1 X y' Y Lx2 Ly2 ps' pushed hX1 hY1 hx2' hy2' (nd hn).2.2.2.2.2.2.1 h
            have hdis : ∀ id ∈ L0, id ∉ Lx2 ++ Ly2 := fun id hi hj => by
              rcases List.mem_append.1 hj with hj | hj
              · exact (nd hn).2.2.2.2.1 id hj (j4 id hi)
              · exact (nd hn).2.2.2.2.2.1 id hj (j4 id hi)
            refine ⟨(x.1, t) :: X', P, L0 ++ L, by simp [k1], k2, ?_, ?_, (j2.frame k8 hdis).cons k5, ?_, ?_,
              (j5.mono (by simp only [List.mem_append]; tauto)).trans (k8.mono (by simp only [List.mem_append]; tauto))⟩
            · rw [List.filter_cons, if_neg (by simp [hyabs]), k3]
              refine List.filter_congr fun q hq => ?_
              have := hYno q hq
              simp only [absent, List.all_cons]
              rw [show decide (x.1.key ≠ q.1.key) = true by simpa using fun he => this he.symm]; simp
            · refine After.cons (k4.more (fun q hq => by simp [hq]) fun q hq => ?_) h0
              rcases List.mem_cons.1 hq with rfl | hq
              · exact .inr hXno
              · exact .inl hq
            · rw [List.nodup_append]
              refine ⟨j3, k6, fun a ha b hb he => ?_⟩
              subst he
              exact hdis a ha (k7 a hb)
            · intro id hi
              rcases List.mem_append.1 hi with hi | hi
              · have := j4 id hi
                simp only [List.mem_append] at this ⊢; tauto
              · have := k7 id hi
                simp only [List.mem_append] at this ⊢; tauto

end Verif.DeepMerge
