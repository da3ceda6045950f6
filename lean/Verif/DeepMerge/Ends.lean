import Verif.DeepMerge.Objects
/-!
# When a merge does not panic
-/
namespace Verif.DeepMerge

open Verif.DefaultMerge (Key)
open Verif.NullProp
open Verif.OpChecks (sortBy sortBy_perm)

variable {ps ps' : List Data}

/-- The value that was hidden. -/
def core : Tree → Tree
  | .hidden t => core t
  | t => t

/-- How often a value was hidden. -/
def layers : Tree → Nat
  | .hidden t => layers t + 1
  | _ => 0

/-- Values of these trees are merged without a panic. -/
def Fine (mv : List Data → Val → Val → Option (List Data)) (a b : Tree) : Prop :=
  ∀ ps v w La Lb, Reps ps [v] [a] La → Reps ps [w] [b] Lb → (La ++ Lb).Nodup → ∃ ps', mv ps v w = some ps'

/-- Merging ends however often the values were hidden. -/
def Done (a b : Tree) : Prop :=
  ∃ N, ∀ a' b' n, core a' = core a → core b' = core b → N + layers a' + layers b' ≤ n → Fine (mergeVal n) a' b'

theorem layers_core {t : Tree} (h : layers t = 0) : core t = t := by
  cases t <;> simp_all [layers, core]

theorem open_of {v : Val} {t : Tree} {L : List Id} (h : Reps ps [v] [t] L) (ht : layers t = 0) : open? v = true := by
  cases h with
  | null => rfl
  | scalar hv => cases v <;> simp_all [open?, isScalar]
  | list => rfl
  | obj => rfl
  | hidden => simp [layers] at ht

theorem done_of {a b : Tree} (ha : core a = a) (hb : core b = b) (h : ∃ N, ∀ n, N ≤ n → Fine (mergeVal n) a b) : Done a b := by
  obtain ⟨N, h⟩ := h
  refine ⟨N, ?_⟩
  have key : ∀ m a' b' n, layers a' + layers b' = m → core a' = core a → core b' = core b → N + layers a' + layers b' ≤ n → Fine (mergeVal n) a' b' := by
    intro m
    induction m using Nat.strongRecOn with
    | ind m ih =>
      intro a' b' n hm h1 h2 hn ps v w La Lb r1 r2 hd
      by_cases z1 : layers a' = 0
      · by_cases z2 : layers b' = 0
        · have e1 : a' = a := by rw [← layers_core z1, h1, ha]
          have e2 : b' = b := by rw [← layers_core z2, h2, hb]
          subst e1; subst e2
          exact h n (by omega) ps v w La Lb r1 r2 hd
        · cases b' with
          | hidden t =>
            obtain ⟨n, rfl⟩ : ∃ k, n = k + 1 := ⟨n - 1, by simp only [layers] at hn; omega⟩
            have ho := open_of r1 z1
            cases r2 with
            | @hidden id u _ _ _ L _ g1 g2 g3 =>
              cases g3
              rw [List.append_nil] at hd
              rw [mergeVal_right g1 ho]
              simp only [layers] at hm hn
              exact ih _ (by omega) a' t n rfl h1 h2 (by omega) ps v u La L r1 g2 hd
          | null => simp [layers] at z2
          | scalar => simp [layers] at z2
          | list => simp [layers] at z2
          | obj => simp [layers] at z2
      · cases a' with
        | hidden t =>
          obtain ⟨n, rfl⟩ : ∃ k, n = k + 1 := ⟨n - 1, by simp only [layers] at hn; omega⟩
          cases r1 with
          | @hidden id u _ _ _ L _ g1 g2 g3 =>
            cases g3
            rw [List.append_nil] at hd
            simp only [layers] at hm hn
            by_cases z2 : layers b' = 0
            · rw [mergeVal_left g1 (open_of r2 z2)]
              exact ih _ (by omega) t b' n rfl h1 h2 (by omega) ps u w L Lb g2 r2 hd
            · cases b' with
              | hidden t' =>
                cases r2 with
                | @hidden id' u' _ _ _ L' _ k1 k2 k3 =>
                  cases k3
                  rw [List.append_nil] at hd
                  simp only [layers] at hm hn
                  simp only [mergeVal, g1, k1]
                  exact ih _ (by omega) t t' n rfl h1 h2 (by omega) ps u u' L L' g2 k2 hd
              | null => simp [layers] at z2
              | scalar => simp [layers] at z2
              | list => simp [layers] at z2
              | obj => simp [layers] at z2
        | null => simp [layers] at z1
        | scalar => simp [layers] at z1
        | list => simp [layers] at z1
        | obj => simp [layers] at z1
  exact fun a' b' n h1 h2 hn => key _ a' b' n rfl h1 h2 hn

theorem Done.fine {a b : Tree} (h : Done a b) : ∃ N, ∀ n, N ≤ n → Fine (mergeVal n) a b := by
  obtain ⟨N, h⟩ := h
  exact ⟨N + layers a + layers b, fun n hn => h a b n rfl rfl hn⟩

/-- A common bound. -/
theorem bound {α : Type} {Q : α → Nat → Prop} (l : List α) (h : ∀ x ∈ l, ∃ N, ∀ n, N ≤ n → Q x n) : ∃ N, ∀ x ∈ l, ∀ n, N ≤ n → Q x n := by
  induction l with
  | nil => exact ⟨0, by simp⟩
  | cons a l ih =>
    obtain ⟨N, hN⟩ := ih fun x hx => h x (by simp [hx])
    obtain ⟨K, hK⟩ := h a (by simp)
    refine ⟨N + K, fun x hx n hn => ?_⟩
    rcases List.mem_cons.1 hx with rfl | hx
    · exact hK n (by omega)
    · exact hN x hx n (by omega)

theorem scan_fine {mv : List Data → Val → Val → Option (List Data)} (hmv : MV mv) (n : Nat) :
    ∀ (ps : List Data) (X : List (Fld × Tree)) (y : Fld × Tree) (Y : List (Fld × Tree)) (Lx Ly : List Id),
      X.length + Y.length < n → Reps ps (X.map (·.1.value)) (X.map Prod.snd) Lx →
      Reps ps ((y :: Y).map (·.1.value)) ((y :: Y).map Prod.snd) Ly → (Lx ++ Ly).Nodup →
      (∀ x ∈ X, ∀ q ∈ y :: Y, x.1.key = q.1.key → Fine mv x.2 q.2) →
      ∃ r, mergeScan mv n ps (X.map Prod.fst) y.1 (Y.map Prod.fst) = some r := by
  induction n with
  | zero => intro ps X y Y Lx Ly h; omega
  | succ n ih =>
    intro ps X y Y Lx Ly hl h1 h2 hn hf
    cases X with
    | nil => exact ⟨_, rfl⟩
    | cons x X =>
      obtain ⟨Lx1, Lx2, rfl, hx1, hx2⟩ := h1.uncons
      simp only [List.map_cons, mergeScan]
      simp only [List.length_cons] at hl
      cases hc : x.1.key.cmp y.1.key with
      | lt =>
        exact ih ps X y Y Lx2 Ly (by omega) hx2 h2 (by rw [List.append_assoc] at hn; exact (List.nodup_append.1 hn).2.1)
          fun x' hx' => hf x' (by simp [hx'])
      | gt =>
        cases Y with
        | nil => exact ⟨_, rfl⟩
        | cons y' Y =>
          obtain ⟨Ly1, Ly2, rfl, hy1, hy2⟩ := h2.uncons
          simp only [List.length_cons] at hl
          obtain ⟨r, hr⟩ := ih ps (x :: X) y' Y _ Ly2 (by simp only [List.length_cons]; omega) h1 hy2 (nd hn).1
            fun x' hx' q hq => hf x' hx' q (List.mem_cons_of_mem _ hq)
          exact ⟨_, by simp only [List.map_cons] at hr ⊢; rw [hr]; rfl⟩
      | eq =>
        have heq := DefaultMerge.Key.cmp_eq.1 hc
        obtain ⟨Ly1, Ly2, rfl, hy1, hy2⟩ := h2.uncons
        obtain ⟨ps1, hm⟩ := hf x (by simp) y (by simp) heq ps _ _ Lx1 Ly1 hx1 hy1 (nd hn).2.2.2.1
        simp only [hm]
        obtain ⟨t, L0, j1, j2, j3, j4, j5⟩ := hmv ps _ _ _ _ Lx1 Ly1 ps1 hx1 hy1 (nd hn).2.2.2.1 hm
        cases Y with
        | nil => exact ⟨_, rfl⟩
        | cons y' Y =>
          simp only [List.length_cons] at hl
          exact ih ps1 X y' Y Lx2 Ly2 (by omega) (hx2.frame j5 (nd hn).2.2.2.2.1) (hy2.frame j5 (nd hn).2.2.2.2.2.1) (nd hn).2.2.2.2.2.2.1
            fun x' hx' q hq => hf x' (by simp [hx']) q (List.mem_cons_of_mem _ hq)

theorem mergeObj_fine {mv : List Data → Val → Val → Option (List Data)} (hmv : MV mv) {id : Id} {X Y : List (Fld × Tree)} {Lx Ly : List Id}
    (hg : getObj ps id = some (X.map Prod.fst)) (h1 : Reps ps (X.map (·.1.value)) (X.map Prod.snd) Lx)
    (h2 : Reps ps (Y.map (·.1.value)) (Y.map Prod.snd) Ly) (hi : id ∉ Lx ++ Ly) (hn : (Lx ++ Ly).Nodup)
    (hf : ∀ x ∈ X, ∀ q ∈ Y, x.1.key = q.1.key → Fine mv x.2 q.2) : ∃ ps', mergeObj mv ps id (Y.map Prod.fst) = some ps' := by
  cases Y with
  | nil => exact ⟨_, rfl⟩
  | cons y Y =>
    have hs1 : Same ps (setObj ps id []) [id] := set_same
    have hd : ∀ i ∈ Lx ++ Ly, i ∉ [id] := fun i hi' hc => by
      simp only [List.mem_singleton] at hc
      subst hc; exact hi hi'
    obtain ⟨r, hr⟩ := scan_fine hmv ((X.map Prod.fst).length + (Y.map Prod.fst).length + 1) (setObj ps id []) X y Y Lx Ly (by simp)
      (h1.frame hs1 fun i h => hd i (by simp [h])) (h2.frame hs1 fun i h => hd i (by simp [h])) hn hf
    simp only [List.map_cons, mergeObj, hg, hr]
    exact ⟨_, rfl⟩

theorem mergeList_fine {mv : List Data → Val → Val → Option (List Data)} (hmv : MV mv) (vs : List Val) :
    ∀ (ps : List Data) (ws : List Val) (as bs : List Tree) (La Lb : List Id), Reps ps vs as La → Reps ps ws bs Lb → (La ++ Lb).Nodup →
      (∀ (i : Nat) (a b : Tree), as[i]? = some a → bs[i]? = some b → Fine mv a b) → ∃ ps', mergeList mv ps vs ws = some ps' := by
  induction vs with
  | nil => intros; exact ⟨_, rfl⟩
  | cons v vs ih =>
    intro ps ws as bs La Lb h1 h2 hn hf
    have hla := h1.length
    have hlb := h2.length
    cases ws with
    | nil => exact ⟨_, rfl⟩
    | cons w ws =>
      cases as with
      | nil => simp at hla
      | cons a as =>
        cases bs with
        | nil => simp at hlb
        | cons b bs =>
          obtain ⟨L1, L2, rfl, g1, g2⟩ := h1.uncons
          obtain ⟨L3, L4, rfl, g3, g4⟩ := h2.uncons
          simp only [mergeList]
          obtain ⟨ps1, hm⟩ := hf 0 a b rfl rfl ps v w L1 L3 g1 g3 (nd hn).2.2.2.1
          rw [hm]
          obtain ⟨t, L0, j1, j2, j3, j4, j5⟩ := hmv ps v w a b L1 L3 ps1 g1 g3 (nd hn).2.2.2.1 hm
          exact ih ps1 ws as bs L2 L4 (g2.frame j5 (nd hn).2.2.2.2.1) (g4.frame j5 (nd hn).2.2.2.2.2.1) (nd hn).2.2.2.2.2.2.1
            fun i x y hx hy => hf (i + 1) x y (by simpa using hx) (by simpa using hy)

theorem Meets.done {a b : Tree} (h : Meets a b) : Done a b := by
  induction h with
  | null =>
    refine done_of rfl rfl ⟨1, fun n hn ps v w La Lb r1 r2 _ => ?_⟩
    obtain ⟨n, rfl⟩ : ∃ k, n = k + 1 := ⟨n - 1, by omega⟩
    cases r1 with
    | null =>
      cases r2 with
      | null => exact ⟨ps, rfl⟩
  | @list as bs _ ih =>
    have hb : ∃ N, ∀ i ∈ List.range as.length, ∀ n, N ≤ n → ∀ a b, as[i]? = some a → bs[i]? = some b → Fine (mergeVal n) a b := by
      refine bound _ fun i hi => ?_
      rw [List.mem_range] at hi
      by_cases hj : i < bs.length
      · obtain ⟨N, hN⟩ := (ih i as[i] bs[i] (by simp [hi]) (by simp [hj])).fine
        refine ⟨N, fun n hn a b ha hb => ?_⟩
        rw [List.getElem?_eq_getElem hi, Option.some.injEq] at ha
        rw [List.getElem?_eq_getElem hj, Option.some.injEq] at hb
        subst ha; subst hb
        exact hN n hn
      · exact ⟨0, fun n _ a b _ hb => absurd (List.getElem?_eq_some_iff.1 hb).1 hj⟩
    obtain ⟨N, hN⟩ := hb
    refine done_of rfl rfl ⟨N + 1, fun n hn ps v w La Lb r1 r2 hd => ?_⟩
    obtain ⟨n, rfl⟩ : ∃ k, n = k + 1 := ⟨n - 1, by omega⟩
    cases r1 with
    | @list id vs _ _ _ L _ f1 f2 f3 =>
      cases f3
      cases r2 with
      | @list id' ws _ _ _ L' _ g1 g2 g3 =>
        cases g3
        rw [List.append_nil, List.append_nil] at hd
        simp only [mergeVal, f1, g1]
        exact mergeList_fine (mv_sound n) vs ps ws as bs L L' f2 g2 hd fun i a b ha hb =>
          hN i (List.mem_range.2 (List.getElem?_eq_some_iff.1 ha).1) n (by omega) a b ha hb
  | @obj fs gs _ ih =>
    have hb : ∃ N, ∀ p ∈ fs.flatMap (fun x => gs.map fun y => (x, y)), ∀ n, N ≤ n → p.1.1 = p.2.1 → Fine (mergeVal n) p.1.2 p.2.2 := by
      refine bound _ fun p hp => ?_
      obtain ⟨x, hx, hp⟩ := List.mem_flatMap.1 hp
      obtain ⟨y, hy, rfl⟩ := List.mem_map.1 hp
      by_cases he : x.1 = y.1
      · obtain ⟨N, hN⟩ := (ih x.1 x.2 y.2 hx (by rw [he]; exact hy)).fine
        exact ⟨N, fun n hn _ => hN n hn⟩
      · exact ⟨0, fun n _ h => absurd h he⟩
    obtain ⟨N, hN⟩ := hb
    refine done_of rfl rfl ⟨N + 1, fun n hn ps v w La Lb r1 r2 hd => ?_⟩
    obtain ⟨n, rfl⟩ : ∃ k, n = k + 1 := ⟨n - 1, by omega⟩
    cases r1 with
    | @obj id X _ _ L _ f1 f2 f3 f4 =>
      cases f4
      cases r2 with
      | @obj id' Y _ _ L' _ g1 g2 g3 g4 =>
        cases g4
        rw [List.append_nil, List.append_nil] at hd
        simp only [mergeVal, g1]
        rw [List.cons_append, List.nodup_cons, List.nodup_append] at hd
        obtain ⟨n1, n2, n3, n4⟩ := hd
        rw [List.nodup_cons] at n3
        have hs : Same ps (setObj ps id' []) [id'] := set_same
        have hdis : ∀ i ∈ id :: L ++ L', i ∉ [id'] := fun i hi hc => by
          simp only [List.mem_singleton] at hc
          subst hc
          simp only [List.cons_append, List.mem_cons, List.mem_append] at hi n1
          rcases hi with rfl | hi | hi
          · exact n1 (.inr (.inl rfl))
          · exact n4 i hi i (by simp) rfl
          · exact n3.1 hi
        refine mergeObj_fine (ps := setObj ps id' []) (mv_sound n) ((hs.obj id (hdis id (by simp))).trans f1)
          (f3.frame hs fun i hi => hdis i (by simp [hi])) (g3.frame hs fun i hi => hdis i (by simp [hi]))
          (fun hc => n1 (by simp only [List.mem_append, List.mem_cons] at hc ⊢; tauto))
          (List.nodup_append.2 ⟨n2, n3.2, fun a ha b hb => n4 a ha b (by simp [hb])⟩) fun x hx q hq he => ?_
        exact hN (kt x, kt q) (List.mem_flatMap.2 ⟨kt x, List.mem_map.2 ⟨x, hx, rfl⟩, List.mem_map.2 ⟨kt q, List.mem_map.2 ⟨q, hq, rfl⟩, rfl⟩⟩) n (by omega) he
  | hidden _ ih =>
    obtain ⟨N, hN⟩ := ih
    exact ⟨N, fun a' b' n h1 h2 hn => hN a' b' n h1 h2 hn⟩
  | new _ ih =>
    obtain ⟨N, hN⟩ := ih
    exact ⟨N, fun a' b' n h1 h2 hn => hN a' b' n h1 h2 hn⟩

theorem Joins.meets {a b t : Tree} (h : Joins a b t) : Meets a b := by
  induction h with
  | null => exact .null
  | @list as bs cs hl _ _ ih =>
    exact .list fun i a b ha hb => by
      have hi := (List.getElem?_eq_some_iff.1 ha).1
      exact ih i a b (cs[i]'(by omega)) ha hb (by simp [hl, hi])
  | obj m _ _ _ ih => exact .obj ih
  | hidden _ ih => exact .hidden ih
  | new _ ih => exact .new ih

theorem Fit.meets {a b : Tree} (h : Fit a b) : Meets a b := by
  induction h with
  | null => exact .null
  | list _ _ ih => exact .list ih
  | obj _ ih => exact .obj ih

/-- Where everything fits, the code merges as it should. -/
theorem Fit.merges {a b : Tree} (h : Fit a b) : ∀ t, Joins a b t → Merges a b t := by
  induction h with
  | null => intro t j; cases j; exact .null
  | list hl _ ih =>
    intro t j
    cases j with
    | list h1 h2 _ => exact .list hl h1 fun i a b c ha hb hc => ih i a b ha hb c (h2 i a b c ha hb hc)
  | obj _ ih =>
    intro t j
    cases j with
    | obj m h1 h2 h3 => exact .obj m h1 (fun k a b ha hb => ih k a b ha hb _ (h2 k a b ha hb)) h3

theorem Joins.of_hidden {a' b t : Tree} (h : Joins a' b t) : ∀ a, a' = .hidden a → ∃ d, t = .hidden d ∧ Joins a b d := by
  induction h with
  | hidden h _ => rintro _ ⟨⟩; exact ⟨_, rfl, h⟩
  | new _ ih =>
    intro a e
    obtain ⟨d, e1, e2⟩ := ih a e
    exact ⟨d, e1, .new e2⟩
  | null => rintro _ ⟨⟩
  | list => rintro _ ⟨⟩
  | obj => rintro _ ⟨⟩

theorem Joins.of_new {a b' t : Tree} (h : Joins a b' t) : ∀ b, b' = .hidden b → Joins a b t := by
  induction h with
  | hidden _ ih => intro b e; exact .hidden (ih b e)
  | new h _ => rintro _ ⟨⟩; exact h
  | null => rintro _ ⟨⟩
  | list => rintro _ ⟨⟩
  | obj => rintro _ ⟨⟩

theorem before_irrefl {k : Key} : ¬ k.Before k := fun h => Before.ne h rfl

/-- The values decide the result. -/
theorem Joins.unique {a b t : Tree} (h : Joins a b t) : ∀ t', Joins a b t' → t = t' := by
  induction h with
  | null => intro t' j; cases j; rfl
  | @list as bs cs hl h1 h2 ih =>
    intro t' j
    cases j with
    | @list _ _ cs' hl' h1' h2' =>
      congr 1
      refine List.ext_getElem? fun i => ?_
      by_cases hi : i < as.length
      · by_cases hj : i < bs.length
        · have e1 : cs[i]? = some (cs[i]'(by omega)) := by simp [hl, hi]
          have e2 : cs'[i]? = some (cs'[i]'(by omega)) := by simp [hl', hi]
          have ea : as[i]? = some as[i] := by simp [hi]
          have eb : bs[i]? = some bs[i] := by simp [hj]
          rw [e1, e2, ih i _ _ _ ea eb e1 _ (h1' i _ _ _ ea eb e2)]
        · rw [h2 i (by omega), h2' i (by omega)]
      · rw [List.getElem?_eq_none (by omega), List.getElem?_eq_none (by omega)]
  | @obj fs gs hs m h1 h2 h3 ih =>
    intro t' j
    cases j with
    | @obj _ _ hs' m' h1' h2' h3' =>
      congr 1
      have hm : ∀ k, k ∈ fs.map Prod.fst → k ∈ gs.map Prod.fst → m k = m' k := fun k ha hb => by
        obtain ⟨x, hx, rfl⟩ := List.mem_map.1 ha
        obtain ⟨y, hy, e⟩ := List.mem_map.1 hb
        exact ih x.1 x.2 y.2 hx (by rw [← e]; exact hy) _ (h2' x.1 x.2 y.2 hx (by rw [← e]; exact hy))
      have key : ∀ p, p ∈ hs ↔ p ∈ hs' := fun p => by
        rw [show p = (p.1, p.2) from rfl, h3, h3']
        refine or_congr_right (or_congr_right ⟨fun ⟨x, y, z⟩ => ⟨x, y, ?_⟩, fun ⟨x, y, z⟩ => ⟨x, y, ?_⟩⟩)
        · rw [← hm _ x y]; exact z
        · rw [hm _ x y]; exact z
      have nd1 : hs.Nodup := List.Pairwise.imp (fun {a b} h (e : a = b) => Before.ne h (by rw [e])) h1
      have nd2 : hs'.Nodup := List.Pairwise.imp (fun {a b} h (e : a = b) => Before.ne h (by rw [e])) h1'
      have hp := (List.perm_ext_iff_of_nodup nd1 nd2).2 key
      exact hp.eq_of_pairwise (le := fun a b => a.1.Before b.1) (fun x y _ _ hxy hyx => absurd (Before.trans hxy hyx) before_irrefl) h1 h1'
  | hidden _ ih =>
    intro t' j
    obtain ⟨d, rfl, j'⟩ := j.of_hidden _ rfl
    rw [ih d j']
  | new _ ih => intro t' j; exact ih t' (j.of_new _ rfl)

end Verif.DeepMerge
