import Verif.DefaultMerge.Spec
import Mathlib.Data.List.Forall2
/-! # Lemmas on the two merge loops -/
namespace Verif.DefaultMerge
variable {V : Type}

theorem Key.cmp_lt {a b : Key} : a.cmp b = .lt ↔ a.Before b := by
  unfold Key.cmp Key.Before
  rcases Nat.lt_trichotomy a.pos b.pos with h | h | h
  · simp [Nat.compare_eq_lt.2 h, h]
  · simp [Nat.compare_eq_eq.2 h, Nat.compare_eq_lt, h]
  · simp [Nat.compare_eq_gt.2 h]; omega

theorem Key.cmp_gt {a b : Key} : a.cmp b = .gt ↔ b.Before a := by
  unfold Key.cmp Key.Before
  rcases Nat.lt_trichotomy a.pos b.pos with h | h | h
  · simp [Nat.compare_eq_lt.2 h]; omega
  · simp [Nat.compare_eq_eq.2 h, Nat.compare_eq_gt, h]
  · simp [Nat.compare_eq_gt.2 h, h]

theorem Key.cmp_eq {a b : Key} : a.cmp b = .eq ↔ a = b := by
  obtain ⟨p, k⟩ := a
  obtain ⟨q, l⟩ := b
  unfold Key.cmp
  rcases Nat.lt_trichotomy p q with h | h | h
  · simp [Nat.compare_eq_lt.2 h]; omega
  · simp [Nat.compare_eq_eq.2 h, h]
  · simp [Nat.compare_eq_gt.2 h]; omega

theorem Key.Before.trans {a b c : Key} (h : a.Before b) (h' : b.Before c) : a.Before c := by
  unfold Key.Before at *; omega

theorem Key.Before.irrefl (a : Key) : ¬ a.Before a := by
  unfold Key.Before; omega

theorem Key.Before.ne {a b : Key} (h : a.Before b) : a ≠ b := by
  rintro rfl; exact h.irrefl _ 

theorem Key.Before.asymm {a b : Key} (h : a.Before b) : ¬ b.Before a := by
  unfold Key.Before at *; omega

theorem Key.trichotomy (a b : Key) : a.Before b ∨ a = b ∨ b.Before a := by
  cases h : a.cmp b
  · exact .inl (Key.cmp_lt.1 h)
  · exact .inr (.inl (Key.cmp_eq.1 h))
  · exact .inr (.inr (Key.cmp_gt.1 h))

theorem ordered_cons {a : Field V} {l : List (Field V)} :
    Ordered (a :: l) ↔ (∀ b ∈ l, a.key.Before b.key) ∧ Ordered l := List.pairwise_cons

/-- Is the key of `x` absent from `es`? -/
def absent (es : List (Field V)) (x : Field V) : Bool := es.all fun e => e.key ≠ x.key

theorem scan_pushed (es : List (Field V)) (d : Field V) (ds : List (Field V))
    (he : Ordered es) (hd : Ordered (d :: ds)) :
    (scan es d ds).pushed ++ (scan es d ds).rest = (d :: ds).filter (absent es) := by
  induction es, d, ds using scan.induct with
  | case1 d ds =>
    have : (absent ([] : List (Field V))) = fun _ => true := by funext x; rfl
    simp only [scan, this]; simp [List.filter_eq_self.2]
  | case2 e es d ds h ih =>
    have h' := Key.cmp_lt.1 h
    rw [scan.eq_def]; simp only [h]
    rw [ih (ordered_cons.1 he).2 hd]
    apply List.filter_congr
    intro x hx
    have : e.key ≠ x.key := by
      rcases List.mem_cons.1 hx with rfl | hx
      · exact h'.ne
      · exact (h'.trans ((ordered_cons.1 hd).1 x hx)).ne
    simp [absent, this]
  | case3 e es d h =>
    have h' := Key.cmp_gt.1 h
    rw [scan.eq_def]; simp only [h]
    have : absent (e :: es) d = true := by
      simp only [absent, List.all_eq_true, decide_eq_true_eq]
      intro x hx
      rcases List.mem_cons.1 hx with rfl | hx
      · exact h'.ne.symm
      · exact (h'.trans ((ordered_cons.1 he).1 x hx)).ne.symm
    simp [this]
  | case4 e es d h d' ds' ih =>
    have h' := Key.cmp_gt.1 h
    rw [scan.eq_def]; simp only [h]
    have : absent (e :: es) d = true := by
      simp only [absent, List.all_eq_true, decide_eq_true_eq]
      intro x hx
      rcases List.mem_cons.1 hx with rfl | hx
      · exact h'.ne.symm
      · exact (h'.trans ((ordered_cons.1 he).1 x hx)).ne.symm
    rw [List.filter_cons_of_pos this, ← ih he (ordered_cons.1 hd).2]
    rfl
  | case5 e es d h =>
    have h' := Key.cmp_eq.1 h
    rw [scan.eq_def]; simp only [h]
    simp [absent, h']
  | case6 e es d h d' ds' ih =>
    have h' := Key.cmp_eq.1 h
    rw [scan.eq_def]; simp only [h]
    rw [ih (ordered_cons.1 he).2 (ordered_cons.1 hd).2]
    rw [List.filter_cons_of_neg (a := d) (by simp [absent, h'])]
    apply List.filter_congr
    intro x hx
    have : e.key ≠ x.key := by rw [h']; exact ((ordered_cons.1 hd).1 x hx).ne
    simp [absent, this]

/-- A default that comes before the first existing key is not trailing. -/
theorem not_trailing {e : Field V} {es : List (Field V)} {d : Field V}
    (h : ¬ e.key.Before d.key) : ((e :: es).all fun e => e.key.Before d.key) = false := by
  simp [h]

theorem scan_rest (es : List (Field V)) (d : Field V) (ds : List (Field V))
    (he : Ordered es) (hd : Ordered (d :: ds)) :
    (scan es d ds).rest = (trailing es (d :: ds)).tail := by
  induction es, d, ds using scan.induct with
  | case1 d ds =>
    have : (fun d : Field V => ([] : List (Field V)).all fun e => decide (e.key.Before d.key)) =
      fun _ => true := by funext x; rfl
    simp only [scan, trailing, this]; simp [List.filter_eq_self.2]
  | case2 e es d ds h ih =>
    have h' := Key.cmp_lt.1 h
    rw [scan.eq_def]; simp only [h]
    rw [ih (ordered_cons.1 he).2 hd]
    congr 1
    apply List.filter_congr
    intro x hx
    have : e.key.Before x.key := by
      rcases List.mem_cons.1 hx with rfl | hx
      · exact h'
      · exact h'.trans ((ordered_cons.1 hd).1 x hx)
    simp [this]
  | case3 e es d h =>
    have h' := Key.cmp_gt.1 h
    rw [scan.eq_def]; simp only [h]
    simp [trailing, h'.asymm]
  | case4 e es d h d' ds' ih =>
    have h' := Key.cmp_gt.1 h
    rw [scan.eq_def]; simp only [h]
    rw [ih he (ordered_cons.1 hd).2]
    simp [trailing, h'.asymm]
  | case5 e es d h =>
    have h' := Key.cmp_eq.1 h
    rw [scan.eq_def]; simp only [h]
    simp [trailing, h', Key.Before.irrefl]
  | case6 e es d h d' ds' ih =>
    have h' := Key.cmp_eq.1 h
    rw [scan.eq_def]; simp only [h]
    rw [ih (ordered_cons.1 he).2 (ordered_cons.1 hd).2]
    unfold trailing
    rw [List.filter_cons_of_neg (a := d) (by simp [h', Key.Before.irrefl])]
    congr 1
    apply List.filter_congr
    intro x hx
    have : e.key.Before x.key := by rw [h']; exact (ordered_cons.1 hd).1 x hx
    simp [this]

theorem scan_key (es : List (Field V)) (d : Field V) (ds : List (Field V))
    (h : (scan es d ds).rest ≠ []) :
    ∃ f ∈ (scan es d ds).pushed, f.key = (scan es d ds).key := by
  induction es, d, ds using scan.induct with
  | case1 d ds => exact ⟨d, by simp [scan], by simp [scan]⟩
  | case2 e es d ds hc ih =>
    rw [scan.eq_def] at h ⊢; simp only [hc] at h ⊢; exact ih h
  | case3 e es d hc => rw [scan.eq_def] at h; simp [hc] at h
  | case4 e es d hc d' ds' ih =>
    rw [scan.eq_def] at h ⊢; simp only [hc] at h ⊢
    obtain ⟨f, hf, hk⟩ := ih h
    exact ⟨f, List.mem_cons_of_mem _ hf, hk⟩
  | case5 e es d hc => rw [scan.eq_def] at h; simp [hc] at h
  | case6 e es d hc d' ds' ih =>
    rw [scan.eq_def] at h ⊢; simp only [hc] at h ⊢; exact ih h

theorem valuesAt_append (l l' : List (Field V)) (k : Key) :
    valuesAt (l ++ l') k = valuesAt l k ++ valuesAt l' k := by simp [valuesAt]

theorem valuesAt_cons (f : Field V) (l : List (Field V)) (k : Key) :
    valuesAt (f :: l) k = if f.key = k then f.value :: valuesAt l k else valuesAt l k := by
  by_cases h : f.key = k <;> simp [valuesAt, h]

theorem valuesAt_eq_nil {l : List (Field V)} {k : Key} :
    valuesAt l k = [] ↔ ∀ f ∈ l, f.key ≠ k := by
  simp [valuesAt, List.filter_eq_nil_iff]

theorem valuesAt_ordered {l : List (Field V)} (h : Ordered l) {f : Field V} (hf : f ∈ l) :
    valuesAt l f.key = [f.value] := by
  induction l with
  | nil => cases hf
  | cons a l ih =>
    rw [ordered_cons] at h
    rw [valuesAt_cons]
    rcases List.mem_cons.1 hf with rfl | hf
    · rw [if_pos rfl, valuesAt_eq_nil.2 fun x hx => (h.1 x hx).ne.symm]
    · rw [if_neg (h.1 f hf).ne, ih h.2 hf]

theorem valuesAt_ordered' {l : List (Field V)} (h : Ordered l) (k : Key) :
    valuesAt l k = [] ∨ ∃ f ∈ l, f.key = k ∧ valuesAt l k = [f.value] := by
  by_cases h' : valuesAt l k = []
  · exact .inl h'
  · right
    obtain ⟨f, hf, rfl⟩ : ∃ f ∈ l, f.key = k := Classical.byContradiction fun hn =>
      h' (valuesAt_eq_nil.2 fun f hf hk => hn ⟨f, hf, hk⟩)
    exact ⟨f, hf, rfl, valuesAt_ordered h hf⟩

theorem valuesAt_filter_absent (es ds : List (Field V)) (k : Key) :
    valuesAt (ds.filter (absent es)) k = if valuesAt es k = [] then valuesAt ds k else [] := by
  induction ds with
  | nil => simp [valuesAt]
  | cons d ds ih =>
    by_cases ha : absent es d = true
    · rw [List.filter_cons_of_pos ha, valuesAt_cons, valuesAt_cons, ih]
      by_cases hk : d.key = k
      · subst hk
        have : valuesAt es d.key = [] := valuesAt_eq_nil.2 (by simpa [absent] using ha)
        simp [this]
      · simp [hk]
    · rw [List.filter_cons_of_neg ha, ih, valuesAt_cons]
      by_cases hk : d.key = k
      · subst hk
        have : valuesAt es d.key ≠ [] := by
          intro h; exact ha (by simpa [absent] using valuesAt_eq_nil.1 h)
        simp [this]
      · simp [hk]

theorem valuesAt_perm_length {l l' : List (Field V)} (h : l.Perm l') (k : Key) :
    (valuesAt l k).Perm (valuesAt l' k) := (h.filter _).map _

/-- A sorted list in which every key occurs at most once is strictly ordered. -/
theorem ordered_of_sorted {l : List (Field V)} (hs : Sorted l)
    (hu : ∀ k, (valuesAt l k).length ≤ 1) : Ordered l := by
  induction l with
  | nil => exact List.Pairwise.nil
  | cons a l ih =>
    have hs' := List.pairwise_cons.1 hs
    rw [ordered_cons]
    refine ⟨fun b hb => ?_, ih hs'.2 fun k => ?_⟩
    · rcases Key.trichotomy a.key b.key with h | h | h
      · exact h
      · exfalso
        have := hu a.key
        rw [valuesAt_cons, if_pos rfl, List.length_cons] at this
        have hne : valuesAt l a.key ≠ [] := fun hn => valuesAt_eq_nil.1 hn b hb h.symm
        have := List.length_pos_iff.2 hne
        omega
      · exact absurd h (hs'.1 b hb)
    · have := hu k
      rw [valuesAt_cons] at this
      split at this
      · rw [List.length_cons] at this; omega
      · exact this


/-! ### `recursive_merge_object` -/

theorem forall₂_self {R : Field V → Field V → Prop} {l : List (Field V)}
    (h : ∀ x ∈ l, R x x) : List.Forall₂ R l l := by
  induction l with
  | nil => exact .nil
  | cons a l ih =>
    exact .cons (h a (List.mem_cons_self ..)) (ih fun x hx => h x (List.mem_cons_of_mem _ hx))

theorem forall₂_imp_left {R S : Field V → Field V → Prop} {l l' : List (Field V)}
    (h : List.Forall₂ R l l') (hi : ∀ x o, x ∈ l → R x o → S x o) : List.Forall₂ S l l' := by
  induction h with
  | nil => exact .nil
  | @cons a b l l' hab _ ih =>
    exact .cons (hi a b (List.mem_cons_self ..) hab)
      (ih fun x o hx => hi x o (List.mem_cons_of_mem _ hx))


theorem mergeLoop_pushed (mv : V → V → Option V) (es : List (Field V)) (d : Field V)
    (ds : List (Field V)) (he : Ordered es) (hd : Ordered (d :: ds)) (r) 
    (hr : mergeLoop mv es d ds = some r) : r.2 = (d :: ds).filter (absent es) := by
  induction es, d, ds using mergeLoop.induct (mergeV := mv) generalizing r with
  | case1 d ds =>
    have : (absent ([] : List (Field V))) = fun _ => true := by funext x; rfl
    simp only [mergeLoop, Option.some.injEq] at hr
    subst hr
    simp [this, List.filter_eq_self.2]
  | case2 e es d ds h ih =>
    have h' := Key.cmp_lt.1 h
    rw [mergeLoop.eq_def] at hr; simp only [h, Option.map_eq_some_iff] at hr
    obtain ⟨r', hr', rfl⟩ := hr
    rw [ih (ordered_cons.1 he).2 hd r' hr']
    apply List.filter_congr
    intro x hx
    have : e.key ≠ x.key := by
      rcases List.mem_cons.1 hx with rfl | hx
      · exact h'.ne
      · exact (h'.trans ((ordered_cons.1 hd).1 x hx)).ne
    simp [absent, this]
  | case3 e es d h =>
    have h' := Key.cmp_gt.1 h
    rw [mergeLoop.eq_def] at hr; simp only [h, Option.some.injEq] at hr
    subst hr
    have : absent (e :: es) d = true := by
      simp only [absent, List.all_eq_true, decide_eq_true_eq]
      intro x hx
      rcases List.mem_cons.1 hx with rfl | hx
      · exact h'.ne.symm
      · exact (h'.trans ((ordered_cons.1 he).1 x hx)).ne.symm
    simp [this]
  | case4 e es d h d' ds' ih =>
    have h' := Key.cmp_gt.1 h
    rw [mergeLoop.eq_def] at hr; simp only [h, Option.map_eq_some_iff] at hr
    obtain ⟨r', hr', rfl⟩ := hr
    have : absent (e :: es) d = true := by
      simp only [absent, List.all_eq_true, decide_eq_true_eq]
      intro x hx
      rcases List.mem_cons.1 hx with rfl | hx
      · exact h'.ne.symm
      · exact (h'.trans ((ordered_cons.1 he).1 x hx)).ne.symm
    rw [List.filter_cons_of_pos this, ← ih he (ordered_cons.1 hd).2 r' hr']
  | case5 e es d ds h hv =>
    rw [mergeLoop.eq_def] at hr; simp [h, hv] at hr
  | case6 e es d h v hv =>
    have h' := Key.cmp_eq.1 h
    rw [mergeLoop.eq_def] at hr; simp only [h, hv, Option.some.injEq] at hr
    subst hr
    simp [absent, h']
  | case7 e es d h v hv d' ds' ih =>
    have h' := Key.cmp_eq.1 h
    rw [mergeLoop.eq_def] at hr; simp only [h, hv, Option.map_eq_some_iff] at hr
    obtain ⟨r', hr', rfl⟩ := hr
    dsimp only
    rw [ih (ordered_cons.1 he).2 (ordered_cons.1 hd).2 r' hr']
    rw [List.filter_cons_of_neg (a := d) (by simp [absent, h'])]
    apply List.filter_congr
    intro x hx
    have : e.key ≠ x.key := by rw [h']; exact ((ordered_cons.1 hd).1 x hx).ne
    simp [absent, this]

theorem mergeLoop_kept (mv : V → V → Option V) (es : List (Field V)) (d : Field V)
    (ds : List (Field V)) (he : Ordered es) (hd : Ordered (d :: ds)) (r)
    (hr : mergeLoop mv es d ds = some r) :
    List.Forall₂ (fun e o => o.key = e.key ∧
      match valuesAt (d :: ds) e.key with
      | [] => o.value = e.value
      | n :: _ => mv e.value n = some o.value) es r.1 := by
  induction es, d, ds using mergeLoop.induct (mergeV := mv) generalizing r with
  | case1 d ds =>
    simp only [mergeLoop, Option.some.injEq] at hr
    subst hr
    exact List.Forall₂.nil
  | case2 e es d ds h ih =>
    have h' := Key.cmp_lt.1 h
    rw [mergeLoop.eq_def] at hr; simp only [h, Option.map_eq_some_iff] at hr
    obtain ⟨r', hr', rfl⟩ := hr
    refine List.Forall₂.cons ⟨rfl, ?_⟩ (ih (ordered_cons.1 he).2 hd r' hr')
    have : valuesAt (d :: ds) e.key = [] := valuesAt_eq_nil.2 fun x hx => by
      rcases List.mem_cons.1 hx with rfl | hx
      · exact h'.ne.symm
      · exact (h'.trans ((ordered_cons.1 hd).1 x hx)).ne.symm
    rw [this]
  | case3 e es d h =>
    have h' := Key.cmp_gt.1 h
    rw [mergeLoop.eq_def] at hr; simp only [h, Option.some.injEq] at hr
    subst hr
    apply forall₂_self
    intro x hx
    refine ⟨rfl, ?_⟩
    have : valuesAt [d] x.key = [] := valuesAt_eq_nil.2 fun y hy => by
      rw [List.mem_singleton] at hy
      subst hy
      rcases List.mem_cons.1 hx with rfl | hx
      · exact h'.ne
      · exact (h'.trans ((ordered_cons.1 he).1 x hx)).ne
    rw [this]
  | case4 e es d h d' ds' ih =>
    have h' := Key.cmp_gt.1 h
    rw [mergeLoop.eq_def] at hr; simp only [h, Option.map_eq_some_iff] at hr
    obtain ⟨r', hr', rfl⟩ := hr
    refine forall₂_imp_left (ih he (ordered_cons.1 hd).2 r' hr') fun x o hx hxo => ?_
    refine ⟨hxo.1, ?_⟩
    have hne : d.key ≠ x.key := by
      rcases List.mem_cons.1 hx with rfl | hx
      · exact h'.ne
      · exact (h'.trans ((ordered_cons.1 he).1 x hx)).ne
    rw [valuesAt_cons, if_neg hne]
    exact hxo.2
  | case5 e es d ds h hv =>
    rw [mergeLoop.eq_def] at hr; simp [h, hv] at hr
  | case6 e es d h v hv =>
    have h' := Key.cmp_eq.1 h
    rw [mergeLoop.eq_def] at hr; simp only [h, hv, Option.some.injEq] at hr
    subst hr
    refine List.Forall₂.cons ⟨rfl, ?_⟩ (forall₂_self fun x hx => ⟨rfl, ?_⟩)
    · rw [valuesAt_cons, if_pos h'.symm]; exact hv
    · rw [valuesAt_cons, if_neg (by rw [← h']; exact ((ordered_cons.1 he).1 x hx).ne)]
      rfl
  | case7 e es d h v hv d' ds' ih =>
    have h' := Key.cmp_eq.1 h
    rw [mergeLoop.eq_def] at hr; simp only [h, hv, Option.map_eq_some_iff] at hr
    obtain ⟨r', hr', rfl⟩ := hr
    refine List.Forall₂.cons ⟨rfl, ?_⟩ ?_
    · rw [valuesAt_cons, if_pos h'.symm]; exact hv
    · refine forall₂_imp_left (ih (ordered_cons.1 he).2 (ordered_cons.1 hd).2 r' hr')
        fun x o hx hxo => ⟨hxo.1, ?_⟩
      rw [valuesAt_cons, if_neg (by rw [← h']; exact ((ordered_cons.1 he).1 x hx).ne)]
      exact hxo.2

theorem forall₂_key {R : Field V → Field V → Prop} {l l' : List (Field V)}
    (h : List.Forall₂ (fun e o => o.key = e.key ∧ R e o) l l') (ho : Ordered l) (k : Key) :
    (valuesAt l k = [] → valuesAt l' k = []) ∧
      (∀ v, valuesAt l k = [v] → ∃ w, valuesAt l' k = [w] ∧ R ⟨k, v⟩ ⟨k, w⟩) := by
  induction h with
  | nil => simp [valuesAt]
  | @cons a b l l' hab _ ih =>
    have ih := ih (ordered_cons.1 ho).2
    rw [valuesAt_cons, valuesAt_cons, hab.1]
    by_cases hk : a.key = k
    · subst hk
      have hn : valuesAt l a.key = [] := valuesAt_eq_nil.2 fun x hx =>
        ((ordered_cons.1 ho).1 x hx).ne.symm
      simp only [if_pos, hn, ih.1 hn]
      refine ⟨by simp, ?_⟩
      rintro v hv
      simp only [List.cons.injEq, and_true] at hv
      subst hv
      refine ⟨b.value, rfl, ?_⟩
      have := hab.2
      rw [← hab.1]
      obtain ⟨bk, bv⟩ := b
      obtain ⟨ak, av⟩ := a
      obtain rfl : bk = ak := hab.1
      exact this
    · simp only [if_neg hk]; exact ih

end Verif.DefaultMerge
