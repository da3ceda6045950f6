import Verif.DeepMerge.Sound
import Verif.NullProp.ShowLemmas
/-!
# Merging of objects, lists and values
-/
namespace Verif.DeepMerge

open Verif.DefaultMerge (Key)
open Verif.NullProp
open Verif.OpChecks (sortBy sortBy_perm)

variable {ps ps' : List Data}

theorem Before.asymm {a b : Key} (h : a.Before b) : ¬ b.Before a := by
  unfold DefaultMerge.Key.Before at *
  omega

theorem Before.total {a b : Key} (h : ¬ b.Before a) (hne : a ≠ b) : a.Before b := by
  obtain ⟨p, k⟩ := a
  obtain ⟨q, l⟩ := b
  unfold DefaultMerge.Key.Before at *
  simp only [ne_eq, DefaultMerge.Key.mk.injEq] at *
  omega

/-- The fields as key and tree. -/
def kt (p : Fld × Tree) : Key × Tree := (p.1.key, p.2)

theorem InOrder.inj {X : List (Fld × Tree)} (h : InOrder X) {x y : Fld × Tree} (hx : x ∈ X) (hy : y ∈ X) (he : x.1.key = y.1.key) : x = y := by
  induction X with
  | nil => simp at hx
  | cons a X ih =>
    obtain ⟨h0, h1⟩ := List.pairwise_cons.1 h
    rcases List.mem_cons.1 hx with hx' | hx' <;> rcases List.mem_cons.1 hy with hy' | hy'
    · rw [hx', hy']
    · rw [hx'] at he; exact absurd he (Before.ne (h0 y hy'))
    · rw [hy'] at he; exact absurd he.symm (Before.ne (h0 x hx'))
    · exact ih h1 hx' hy'

theorem InOrder.of_fst {X X' : List (Fld × Tree)} (h : InOrder X) (he : X'.map Prod.fst = X.map Prod.fst) : InOrder X' := by
  have := List.pairwise_map (f := Prod.fst) (l := X) (R := fun a b : Fld => a.key.Before b.key)
  have h1 := this.2 h
  rw [← he] at h1
  exact (List.pairwise_map (f := Prod.fst) (R := fun a b : Fld => a.key.Before b.key)).1 h1

/-- The merged fields, in order. -/
theorem sorted_inOrder {Z : List (Fld × Tree)} (hn : Z.Pairwise fun a b => a.1.key ≠ b.1.key) :
    InOrder (sortBy (fun a b => fldLe a.1 b.1) Z) ∧ (sortBy (fun a b => fldLe a.1 b.1) Z).map Prod.fst = sortBy fldLe (Z.map Prod.fst) := by
  have hm := OpText.sortBy_map (le := fun a b : Fld × Tree => fldLe a.1 b.1) (le' := fldLe) Prod.fst (fun _ _ => rfl) Z
  refine ⟨?_, hm⟩
  have hs := sort_fld_sorted (Z.map Prod.fst)
  rw [← hm, List.pairwise_map] at hs
  have hp := (sortBy_perm (fun a b : Fld × Tree => fldLe a.1 b.1) Z).symm
  have hn' := hp.pairwise hn (fun h h' => h h'.symm)
  exact (hs.and hn').imp fun ⟨h1, h2⟩ => Before.total h1 h2

theorem joins_obj {X Y X' P Z : List (Fld × Tree)} (hX : InOrder X) (hY : InOrder Y) (h1 : X'.map Prod.fst = X.map Prod.fst)
    (h2 : P = Y.filter (absent X)) (h3 : After Y X X') (hZ : InOrder Z) (h4 : Z.Perm (X' ++ P)) :
    Joins (.obj (X.map kt)) (.obj (Y.map kt)) (.obj (Z.map kt)) := by
  have hX' := hX.of_fst h1
  have hat : ∀ x ∈ X, ∃ x' ∈ X', x'.1 = x.1 ∧ (∀ q ∈ Y, q.1.key = x.1.key → Joins x.2 q.2 x'.2) ∧ ((∀ q ∈ Y, q.1.key ≠ x.1.key) → x'.2 = x.2) := fun x hx => by
    obtain ⟨i, hi⟩ := List.mem_iff_getElem?.1 hx
    have hi' : (X'.map Prod.fst)[i]? = some x.1 := by rw [h1, List.getElem?_map, hi]; rfl
    rw [List.getElem?_map, Option.map_eq_some_iff] at hi'
    obtain ⟨x', h5, h6⟩ := hi'
    exact ⟨x', List.mem_of_getElem? h5, h6, h3 i x x' hi h5⟩
  have hat' : ∀ x' ∈ X', ∃ x ∈ X, x'.1 = x.1 ∧ (∀ q ∈ Y, q.1.key = x.1.key → Joins x.2 q.2 x'.2) ∧ ((∀ q ∈ Y, q.1.key ≠ x.1.key) → x'.2 = x.2) := fun x' hx => by
    obtain ⟨i, hi⟩ := List.mem_iff_getElem?.1 hx
    have hi' : (X.map Prod.fst)[i]? = some x'.1 := by rw [← h1, List.getElem?_map, hi]; rfl
    rw [List.getElem?_map, Option.map_eq_some_iff] at hi'
    obtain ⟨x, h5, h6⟩ := hi'
    exact ⟨x, List.mem_of_getElem? h5, h6.symm, h3 i x x' h5 hi⟩
  let m : Key → Tree := fun k => ((X'.find? fun p => decide (p.1.key = k)).map Prod.snd).getD .null
  have hm : ∀ x' ∈ X', m x'.1.key = x'.2 := fun x' hx => by
    cases hf : X'.find? fun p => decide (p.1.key = x'.1.key) with
    | none => exact absurd (List.find?_eq_none.1 hf x' hx) (by simp)
    | some z =>
      have hz := List.find?_some hf
      have hz' := List.mem_of_find?_eq_some hf
      simp only [decide_eq_true_eq] at hz
      simp only [m, hf, Option.map_some, Option.getD_some]
      rw [hX'.inj hz' hx hz]
  refine .obj m ?_ ?_ ?_
  · exact List.pairwise_map.2 (hZ.imp fun h => h)
  · intro k a b ha hb
    obtain ⟨x, hx, hx'⟩ := List.mem_map.1 ha
    obtain ⟨y, hy, hy'⟩ := List.mem_map.1 hb
    simp only [kt, Prod.mk.injEq] at hx' hy'
    obtain ⟨rfl, rfl⟩ := hx'
    obtain ⟨hk, rfl⟩ := hy'
    obtain ⟨x', g1, g2, g3, -⟩ := hat x hx
    rw [← show m x.1.key = x'.2 by rw [← g2]; exact hm x' g1] at g3
    exact g3 y hy hk
  · intro k t
    have keyX : k ∈ (X.map kt).map Prod.fst ↔ ∃ x ∈ X, x.1.key = k := by simp [kt]
    have keyY : k ∈ (Y.map kt).map Prod.fst ↔ ∃ y ∈ Y, y.1.key = k := by simp [kt]
    have memX : ∀ W : List (Fld × Tree), (k, t) ∈ W.map kt ↔ ∃ x ∈ W, x.1.key = k ∧ x.2 = t := fun W => by simp [kt]
    rw [keyX, keyY, memX, memX, memX]
    constructor
    · rintro ⟨z, hz, rfl, rfl⟩
      rcases List.mem_append.1 (h4.mem_iff.1 hz) with hz | hz
      · obtain ⟨x, g1, g2, g3, g4⟩ := hat' z hz
        by_cases hy : ∃ y ∈ Y, y.1.key = z.1.key
        · exact .inr (.inr ⟨⟨x, g1, by rw [g2]⟩, hy, (hm z hz).symm⟩)
        · exact .inl ⟨⟨x, g1, by rw [g2], (g4 fun q hq he => hy ⟨q, hq, by rw [g2]; exact he⟩).symm⟩, hy⟩
      · rw [h2, List.mem_filter, absent_iff] at hz
        exact .inr (.inl ⟨⟨z, hz.1, rfl, rfl⟩, fun ⟨x, hx, he⟩ => hz.2 x hx he⟩)
    · rintro (⟨⟨x, hx, rfl, rfl⟩, hn⟩ | ⟨⟨y, hy, rfl, rfl⟩, hn⟩ | ⟨⟨x, hx, rfl⟩, hy, rfl⟩)
      · obtain ⟨x', g1, g2, -, g4⟩ := hat x hx
        exact ⟨x', h4.mem_iff.2 (by simp [g1]), by rw [g2], g4 fun q hq he => hn ⟨q, hq, he⟩⟩
      · refine ⟨y, h4.mem_iff.2 (List.mem_append.2 (.inr ?_)), rfl, rfl⟩
        rw [h2, List.mem_filter, absent_iff]
        exact ⟨hy, fun x hx he => hn ⟨x, hx, he⟩⟩
      · obtain ⟨x', g1, g2, -, -⟩ := hat x hx
        exact ⟨x', h4.mem_iff.2 (by simp [g1]), by rw [g2], by rw [← g2]; exact (hm x' g1).symm⟩

theorem mergeObj_sound {mv : List Data → Val → Val → Option (List Data)} (hmv : MV mv) {id : Id} {X Y : List (Fld × Tree)} {Lx Ly : List Id}
    (hg : getObj ps id = some (X.map Prod.fst)) (hX : InOrder X) (hY : InOrder Y) (h1 : Reps ps (X.map (·.1.value)) (X.map Prod.snd) Lx)
    (h2 : Reps ps (Y.map (·.1.value)) (Y.map Prod.snd) Ly) (hi : id ∉ Lx ++ Ly) (hn : (Lx ++ Ly).Nodup)
    (h : mergeObj mv ps id (Y.map Prod.fst) = some ps') :
    ∃ Z L, getObj ps' id = some (Z.map Prod.fst) ∧ InOrder Z ∧ Joins (.obj (X.map kt)) (.obj (Y.map kt)) (.obj (Z.map kt)) ∧
      Reps ps' (Z.map (·.1.value)) (Z.map Prod.snd) L ∧ L.Nodup ∧ (∀ i ∈ L, i ∈ Lx ++ Ly) ∧ Same ps ps' (id :: (Lx ++ Ly)) := by
  cases Y with
  | nil =>
    simp only [List.map_nil, mergeObj, Option.some.injEq] at h
    subst h
    cases h2
    refine ⟨X, Lx, hg, hX, ?_, h1, by simpa using hn, by simp, .refl⟩
    refine .obj (fun _ => .null) (List.pairwise_map.2 (hX.imp fun h => h)) (by simp) (by simp)
  | cons y Y =>
    simp only [List.map_cons, mergeObj, hg] at h
    cases hs : mergeScan mv ((X.map Prod.fst).length + (Y.map Prod.fst).length + 1) (setObj ps id []) (X.map Prod.fst) y.1 (Y.map Prod.fst) with
    | none => rw [hs] at h; cases h
    | some r =>
      obtain ⟨ps2, pushed⟩ := r
      rw [hs] at h
      simp only [Option.some.injEq] at h
      subst h
      have hs1 : Same ps (setObj ps id []) [id] := set_same
      have hd : ∀ i ∈ Lx ++ Ly, i ∉ [id] := fun i hi' hc => by
        simp only [List.mem_singleton] at hc
        subst hc; exact hi hi'
      obtain ⟨X', P, L, k1, k2, k3, k4, k5, k6, k7, k8⟩ := scan_sound hmv _ _ X y Y Lx Ly ps2 pushed hX hY
        (h1.frame hs1 fun i h => hd i (by simp [h])) (h2.frame hs1 fun i h => hd i (by simp [h])) hn hs
      have hX' := hX.of_fst k1
      have hne : (X' ++ P).Pairwise fun a b => a.1.key ≠ b.1.key := by
        rw [List.pairwise_append]
        refine ⟨hX'.imp fun h => Before.ne h, ?_, ?_⟩
        · rw [k3]
          exact (List.Pairwise.filter _ hY).imp fun h => Before.ne h
        · intro a ha b hb he
          rw [k3, List.mem_filter, absent_iff] at hb
          have : a.1 ∈ X.map Prod.fst := by rw [← k1]; exact List.mem_map.2 ⟨a, ha, rfl⟩
          obtain ⟨x, hx, hxa⟩ := List.mem_map.1 this
          exact hb.2 x hx (by rw [hxa]; exact he)
      obtain ⟨z1, z2⟩ := sorted_inOrder hne
      have hp := sortBy_perm (fun a b : Fld × Tree => fldLe a.1 b.1) (X' ++ P)
      obtain ⟨L', p1, p2⟩ := Reps.perm hp.symm k5
      have hg2 : getObj ps2 id = some [] := (k8.obj id hi).trans (getObj_set_self hg)
      have hfst : sortBy fldLe (X.map Prod.fst ++ pushed) = (sortBy (fun a b : Fld × Tree => fldLe a.1 b.1) (X' ++ P)).map Prod.fst := by
        rw [z2, List.map_append, k1, k2]
      refine ⟨_, L', ?_, z1, joins_obj hX hY k1 k3 k4 z1 hp, p2.frame (set_same (F := _)) ?_, p1.nodup_iff.2 k6, fun i hi' => k7 i (p1.mem_iff.1 hi'), ?_⟩
      · rw [hfst]; exact getObj_set_self hg2
      · intro i hi'
        exact hd i (k7 i (p1.mem_iff.1 hi'))
      · exact ((hs1.mono (by simp)).trans (k8.mono fun i hi' => List.mem_cons_of_mem _ hi')).trans (set_same.mono (by simp))

theorem mergeList_sound {mv : List Data → Val → Val → Option (List Data)} (hmv : MV mv) (vs : List Val) :
    ∀ (ps : List Data) (ws : List Val) (as bs : List Tree) (La Lb : List Id) (ps' : List Data), Reps ps vs as La → Reps ps ws bs Lb → (La ++ Lb).Nodup →
      mergeList mv ps vs ws = some ps' →
      ∃ cs L, cs.length = as.length ∧ (∀ (i : Nat) (a b c : Tree), as[i]? = some a → bs[i]? = some b → cs[i]? = some c → Joins a b c) ∧
        (∀ i, bs.length ≤ i → cs[i]? = as[i]?) ∧ Reps ps' vs cs L ∧ L.Nodup ∧ (∀ id ∈ L, id ∈ La ++ Lb) ∧ Same ps ps' (La ++ Lb) := by
  induction vs with
  | nil =>
    intro ps ws as bs La Lb ps' h1 h2 hn h
    cases h1
    simp only [mergeList, Option.some.injEq] at h
    subst h
    exact ⟨[], [], rfl, by simp, by simp, .nil, by simp, by simp, .refl⟩
  | cons v vs ih =>
    intro ps ws as bs La Lb ps' h1 h2 hn h
    have hla := h1.length
    have hlb := h2.length
    cases ws with
    | nil =>
      simp only [mergeList, Option.some.injEq] at h
      subst h
      cases h2
      exact ⟨as, La, rfl, by simp, by simp, h1, by simpa using hn, by simp, .refl⟩
    | cons w ws =>
      cases as with
      | nil => simp at hla
      | cons a as =>
        cases bs with
        | nil => simp at hlb
        | cons b bs =>
          obtain ⟨L1, L2, rfl, g1, g2⟩ := h1.uncons
          obtain ⟨L3, L4, rfl, g3, g4⟩ := h2.uncons
          simp only [mergeList] at h
          cases hm : mv ps v w with
          | none => rw [hm] at h; cases h
          | some ps1 =>
            rw [hm] at h
            obtain ⟨t, L0, j1, j2, j3, j4, j5⟩ := hmv ps v w a b L1 L3 ps1 g1 g3 (nd hn).2.2.2.1 hm
            obtain ⟨cs, L, k1, k2, k3, k4, k5, k6, k7⟩ := ih ps1 ws as bs L2 L4 ps' (g2.frame j5 (nd hn).2.2.2.2.1) (g4.frame j5 (nd hn).2.2.2.2.2.1)
              (nd hn).2.2.2.2.2.2.1 h
            have hdis : ∀ id ∈ L0, id ∉ L2 ++ L4 := fun id hi hj => by
              rcases List.mem_append.1 hj with hj | hj
              · exact (nd hn).2.2.2.2.1 id hj (j4 id hi)
              · exact (nd hn).2.2.2.2.2.1 id hj (j4 id hi)
            refine ⟨t :: cs, L0 ++ L, by simp [k1], ?_, ?_, (j2.frame k7 hdis).cons k4, ?_, ?_, ?_⟩
            · intro i x y z hx hy hz
              cases i with
              | zero =>
                simp only [List.getElem?_cons_zero, Option.some.injEq] at hx hy hz
                subst hx; subst hy; subst hz
                exact j1
              | succ i => exact k2 i x y z (by simpa using hx) (by simpa using hy) (by simpa using hz)
            · intro i hi
              cases i with
              | zero => simp at hi
              | succ i => simpa using k3 i (by simpa using hi)
            · rw [List.nodup_append]
              refine ⟨j3, k5, fun a ha b hb he => ?_⟩
              subst he
              exact hdis a ha (k6 a hb)
            · intro id hi
              rcases List.mem_append.1 hi with hi | hi
              · have := j4 id hi
                simp only [List.mem_append] at this ⊢; tauto
              · have := k6 id hi
                simp only [List.mem_append] at this ⊢; tauto
            · exact (j5.mono (by simp only [List.mem_append]; tauto)).trans (k7.mono (by simp only [List.mem_append]; tauto))

/-- The value is not a hidden one. -/
def open? : Val → Bool
  | .inacc _ => false
  | _ => true

theorem mergeVal_left {n : Nat} {i : Id} {u w : Val} (hi : getInacc ps i = some u) (hw : open? w = true) :
    mergeVal (n + 1) ps (.inacc i) w = mergeVal n ps u w := by
  cases w <;> simp_all [mergeVal, open?]

theorem mergeVal_right {n : Nat} {i : Id} {v u : Val} (hi : getInacc ps i = some u) (hv : open? v = true) :
    mergeVal (n + 1) ps v (.inacc i) = mergeVal n ps v u := by
  cases v <;> simp_all [mergeVal, open?]

theorem Reps.single_nil {v : Val} {t : Tree} {L L' : List Id} (h : Reps ps [v] [t] L) (h' : Reps ps [] [] L') : Reps ps [v] [t] (L ++ L') := by
  cases h'; simpa using h

theorem mv_sound (n : Nat) : MV (mergeVal n) := by
  induction n with
  | zero => intro ps v w a b La Lb ps' _ _ _ h; simp [mergeVal] at h
  | succ n ih =>
    intro ps v w a b La Lb ps' h1 h2 hn h
    have right : ∀ (i : Id) (u : Val) (c : Tree) (L : List Id), w = .inacc i → b = .hidden c → Lb = L → getInacc ps i = some u → Reps ps [u] [c] L →
        open? v = true → ∃ t L, Joins a b t ∧ Reps ps' [v] [t] L ∧ L.Nodup ∧ (∀ id ∈ L, id ∈ La ++ Lb) ∧ Same ps ps' (La ++ Lb) := by
      rintro i u c L rfl rfl rfl hi hu ho
      rw [mergeVal_right hi ho] at h
      obtain ⟨t, L0, j1, j2⟩ := ih ps v u a c La Lb ps' h1 hu hn h
      exact ⟨t, L0, .new j1, j2⟩
    cases h1 with
    | null h1 =>
      cases h1
      cases h2 with
      | null h2 =>
        cases h2
        simp only [mergeVal, Option.some.injEq] at h
        subst h
        exact ⟨.null, [], .null, .null .nil, by simp, by simp, .refl⟩
      | scalar hv h2 => cases w <;> simp [mergeVal, isScalar] at h hv
      | list g1 g2 g3 => simp [mergeVal] at h
      | obj g1 g2 g3 g4 => simp [mergeVal] at h
      | hidden g1 g2 g3 => cases g3; exact right _ _ _ _ rfl rfl (by simp) g1 g2 rfl
    | scalar hv h1 =>
      cases h1
      cases h2 with
      | null h2 => cases v <;> simp [mergeVal, isScalar] at h hv
      | scalar hw h2 => cases v <;> cases w <;> simp [mergeVal, isScalar] at h hv hw
      | list g1 g2 g3 => cases v <;> simp [mergeVal, isScalar] at h hv
      | obj g1 g2 g3 g4 => cases v <;> simp [mergeVal, isScalar] at h hv
      | hidden g1 g2 g3 => cases g3; exact right _ _ _ _ rfl rfl (by simp) g1 g2 (by cases v <;> simp_all [open?, isScalar])
    | @list id vs _ as _ L _ f1 f2 f3 =>
      cases f3
      cases h2 with
      | null h2 => simp [mergeVal] at h
      | scalar hv h2 => cases w <;> simp [mergeVal, isScalar] at h hv
      | @list id' ws _ bs _ L' _ g1 g2 g3 =>
        cases g3
        rw [List.append_nil, List.append_nil] at hn ⊢
        simp only [mergeVal, f1, g1] at h
        obtain ⟨cs, M, k1, k2, k3, k4, k5, k6, k7⟩ := mergeList_sound ih vs ps ws as bs L L' ps' f2 g2 hn h
        exact ⟨.list cs, M ++ [], .list k1 k2 k3, .list ((k7.list _).trans f1) k4 .nil, by simpa using k5, by simpa using k6, k7⟩
      | obj g1 g2 g3 g4 => simp [mergeVal] at h
      | hidden g1 g2 g3 => cases g3; exact right _ _ _ _ rfl rfl (by simp) g1 g2 rfl
    | @obj id X _ _ L _ f1 f2 f3 f4 =>
      cases f4
      cases h2 with
      | null h2 => simp [mergeVal] at h
      | scalar hv h2 => cases w <;> simp [mergeVal, isScalar] at h hv
      | list g1 g2 g3 => simp [mergeVal] at h
      | @obj id' Y _ _ L' _ g1 g2 g3 g4 =>
        cases g4
        rw [List.append_nil, List.append_nil] at hn ⊢
        simp only [mergeVal, g1] at h
        have hn' := hn
        rw [List.cons_append, List.nodup_cons, List.nodup_append] at hn'
        obtain ⟨n1, n2, n3, n4⟩ := hn'
        rw [List.nodup_cons] at n3
        have hs : Same ps (setObj ps id' []) [id'] := set_same
        have hdis : ∀ i ∈ id :: L ++ L', i ∉ [id'] := fun i hi hc => by
          simp only [List.mem_singleton] at hc
          subst hc
          simp only [List.cons_append, List.mem_cons, List.mem_append] at hi n1
          rcases hi with rfl | hi | hi
          · exact n1 (.inr (.inl rfl))
          · exact n4 i hi i (by simp) rfl
          · exact n3.1 hi
        obtain ⟨Z, M, k1, k2, k3, k4, k5, k6, k7⟩ := mergeObj_sound (ps := setObj ps id' []) ih ((hs.obj id (hdis id (by simp))).trans f1) f2 g2
          (f3.frame hs fun i hi => hdis i (by simp [hi])) (g3.frame hs fun i hi => hdis i (by simp [hi]))
          (fun hc => n1 (by simp only [List.mem_append, List.mem_cons] at hc ⊢; tauto))
          (List.nodup_append.2 ⟨n2, n3.2, fun a ha b hb => n4 a ha b (by simp [hb])⟩) h
        refine ⟨.obj (Z.map kt), id :: (M ++ []), k3, .obj k1 k2 k4 .nil, ?_, ?_, ?_⟩
        · rw [List.append_nil, List.nodup_cons]
          exact ⟨fun hc => n1 (by have := k6 id hc; simp only [List.mem_append, List.mem_cons] at this ⊢; tauto), k5⟩
        · intro i hi
          rw [List.append_nil, List.mem_cons] at hi
          rcases hi with rfl | hi
          · simp
          · have := k6 i hi
            simp only [List.mem_append, List.mem_cons] at this ⊢; tauto
        · exact (hs.mono (by simp)).trans (k7.mono (by simp only [List.mem_append, List.mem_cons]; tauto))
      | hidden g1 g2 g3 => cases g3; exact right _ _ _ _ rfl rfl (by simp) g1 g2 rfl
    | @hidden id u _ a _ L _ f1 f2 f3 =>
      cases f3
      rw [List.append_nil] at hn ⊢
      by_cases hw : open? w = true
      · rw [mergeVal_left f1 hw] at h
        obtain ⟨t, L0, j1, j2, j3, j4, j5⟩ := ih ps u w a b L Lb ps' f2 h2 hn h
        exact ⟨.hidden t, L0 ++ [], .hidden j1, .hidden ((j5.inacc _).trans f1) j2 .nil, by simpa using j3, by simpa using j4, j5⟩
      · cases h2 with
        | null => simp [open?] at hw
        | scalar hv => cases w <;> simp [open?, isScalar] at hw hv
        | list => simp [open?] at hw
        | obj => simp [open?] at hw
        | @hidden id' u' _ b' _ L' _ g1 g2 g3 =>
          cases g3
          rw [List.append_nil] at hn ⊢
          simp only [mergeVal, f1, g1] at h
          obtain ⟨t, L0, j1, j2, j3, j4, j5⟩ := ih ps u u' a b' L L' ps' f2 g2 hn h
          exact ⟨.hidden t, L0 ++ [], .hidden (.new j1), .hidden ((j5.inacc _).trans f1) j2 .nil, by simpa using j3, by simpa using j4, j5⟩

end Verif.DeepMerge
