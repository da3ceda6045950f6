import Verif.Flac.Inv
/-!
# Runs
-/
namespace Verif.Flac

section
variable {g : Graph}

/-! ## Initialisation -/

theorem init_fold {t : Tree} (L : List Nat) (s r : State) (hnd : s.heap.Nodup)
    (h : L.foldl (initTerminal g t) (some s) = some r) :
    r.saturated = s.saturated ∧ r.marked = s.marked ∧ r.rootFeeding = s.rootFeeding ∧ r.rootLen = s.rootLen ∧
      (∀ ix ∈ L, ∃ n, t.terminals[ix]? = some n) ∧
      (∀ x ix, ix ∈ r.feeding x ↔ ix ∈ s.feeding x ∨ ix ∈ L ∧ t.terminals[ix]? = some x ∧ findNext g s.marked x ≠ none) ∧
      (∀ f, f ∈ r.heap ↔ f ∈ s.heap ∨ ∃ ix ∈ L, ∃ x, t.terminals[ix]? = some x ∧ findNext g s.marked x = some f) ∧
      (∀ x, r.rate x ≠ 0 → s.rate x ≠ 0 ∨ ∃ ix ∈ L, t.terminals[ix]? = some x ∧ findNext g s.marked x ≠ none) ∧ r.heap.Nodup := by
  induction L generalizing s with
  | nil => simp only [List.foldl_nil, Option.some.injEq] at h; subst h; simp [hnd]
  | cons i L ih =>
    rw [List.foldl_cons] at h
    cases hi : t.terminals[i]? with
    | none =>
      exfalso
      have h0 : initTerminal g t (some s) i = none := by simp [initTerminal, hi]
      rw [h0] at h
      have : ∀ L : List Nat, L.foldl (initTerminal g t) none = none := by
        intro L; induction L with
        | nil => rfl
        | cons x L ih => simpa [initTerminal] using ih
      rw [this] at h; cases h
    | some n =>
      cases hn : findNext g s.marked n with
      | none =>
        have h0 : initTerminal g t (some s) i = some s := by simp [initTerminal, hi, hn]
        rw [h0] at h
        obtain ⟨h1, h2, h3, h4, h5, h6, h7, h8, h9⟩ := ih s hnd h
        refine ⟨h1, h2, h3, h4, ?_, ?_, ?_, ?_, h9⟩
        · intro ix hix
          rcases List.mem_cons.1 hix with rfl | hix
          · exact ⟨n, hi⟩
          · exact h5 ix hix
        · intro x ix
          rw [h6]
          constructor
          · rintro (h | ⟨a, b⟩)
            · exact Or.inl h
            · exact Or.inr ⟨by simp [a], b⟩
          · rintro (h | ⟨a, b, c⟩)
            · exact Or.inl h
            · rcases List.mem_cons.1 a with rfl | a
              · rw [hi] at b; cases b; exact absurd hn c
              · exact Or.inr ⟨a, b, c⟩
        · intro f
          rw [h7]
          constructor
          · rintro (h | ⟨a, b, c⟩)
            · exact Or.inl h
            · exact Or.inr ⟨a, by simp [b], c⟩
          · rintro (h | ⟨a, b, x, c, d⟩)
            · exact Or.inl h
            · rcases List.mem_cons.1 b with rfl | b
              · rw [hi] at c; cases c; rw [hn] at d; cases d
              · exact Or.inr ⟨a, b, x, c, d⟩
        · intro x hx
          rcases h8 x hx with h | ⟨a, b, c⟩
          · exact Or.inl h
          · exact Or.inr ⟨a, by simp [b], c⟩
      | some e =>
        have h0 : initTerminal g t (some s) i = some { s with heap := put e s.heap, feeding := upd s.feeding n (put i (s.feeding n)), rate := upd s.rate n 1 } := by
          simp [initTerminal, hi, hn]
        rw [h0] at h
        obtain ⟨h1, h2, h3, h4, h5, h6, h7, h8, h9⟩ := ih _ (nodup_put hnd) h
        simp only at h1 h2 h3 h4 h5 h6 h7 h8 h9
        refine ⟨h1, h2, h3, h4, ?_, ?_, ?_, ?_, h9⟩
        · intro ix hix
          rcases List.mem_cons.1 hix with rfl | hix
          · exact ⟨n, hi⟩
          · exact h5 ix hix
        · intro x ix
          rw [h6]
          have : ix ∈ upd s.feeding n (put i (s.feeding n)) x ↔ ix ∈ s.feeding x ∨ ix = i ∧ x = n := by
            by_cases hx : x = n
            · rw [hx, upd_same, mem_put]; simp [or_comm]
            · rw [upd_ne hx]; simp [hx]
          rw [this]
          constructor
          · rintro ((h | ⟨rfl, rfl⟩) | ⟨a, b⟩)
            · exact Or.inl h
            · exact Or.inr ⟨by simp, hi, by simp [hn]⟩
            · exact Or.inr ⟨by simp [a], b⟩
          · rintro (h | ⟨a, b, c⟩)
            · exact Or.inl (Or.inl h)
            · rcases List.mem_cons.1 a with rfl | a
              · rw [hi] at b; cases b; exact Or.inl (Or.inr ⟨rfl, rfl⟩)
              · exact Or.inr ⟨a, b, c⟩
        · intro f
          rw [h7, mem_put]
          constructor
          · rintro ((rfl | h) | ⟨a, b, c⟩)
            · exact Or.inr ⟨i, by simp, n, hi, hn⟩
            · exact Or.inl h
            · exact Or.inr ⟨a, by simp [b], c⟩
          · rintro (h | ⟨a, b, x, c, d⟩)
            · exact Or.inl (Or.inr h)
            · rcases List.mem_cons.1 b with rfl | b
              · rw [hi] at c; cases c; rw [hn] at d; cases d; exact Or.inl (Or.inl rfl)
              · exact Or.inr ⟨a, b, x, c, d⟩
        · intro x hx
          rcases h8 x hx with h | ⟨a, b, c⟩
          · by_cases hxn : x = n
            · subst hxn; exact Or.inr ⟨i, by simp, hi, by simp [hn]⟩
            · rw [upd_ne hxn] at h; exact Or.inl h
          · exact Or.inr ⟨a, by simp [b], c⟩

theorem mem_zeroes {s : State} {n ix : Nat} : ix ∈ s.zeroes n ↔ (ix < s.rootLen ∨ ix < n) ∧ ix ∉ s.rootFeeding := by
  simp only [State.zeroes, List.mem_filter, List.mem_range, Bool.not_eq_true', List.contains_eq_mem, decide_eq_false_iff_not]
  refine and_congr_left fun _ => ?_
  omega

/-- The terminals water flows from. -/
abbrev Act (s : State) (ix : Nat) : Prop := ix ∉ s.rootFeeding

theorem inv_init {t : Tree} {s0 s : State} (h : init g t s0 = some s) :
    Inv g t.terminals (Act s0) t s ∧ s.rootFeeding = s0.rootFeeding ∧ s.rootLen = max s0.rootLen t.terminals.length ∧ s.marked = [] ∧
      ∀ ix, ix < s.rootLen → ix ∉ s0.rootFeeding → ix < t.terminals.length := by
  obtain ⟨h1, h2, h3, h4, h5, h6, h7, h8, h9⟩ := init_fold _ _ _ (by simp) h
  simp only at h1 h2 h3 h4 h6 h7 h8
  have hmz : ∀ {ix x}, t.terminals[ix]? = some x → ix ∉ s0.rootFeeding → ix ∈ s0.zeroes t.terminals.length := by
    intro ix x hx hn
    obtain ⟨hlt, -⟩ := List.getElem?_eq_some_iff.1 hx
    exact mem_zeroes.2 ⟨Or.inr hlt, hn⟩
  refine ⟨?_, h3, h4, h2, ?_⟩
  · constructor
    · simp [h1]
    · simp [h2]
    · simp [h2]
    · intro e he
      rcases (h7 e).1 he with he | ⟨ix, -, x, -, hx⟩
      · simp at he
      · obtain ⟨-, hd, -⟩ := findNext_some hx
        rw [hd, h2]; exact hx
    · intro e he
      rcases (h7 e).1 he with he | ⟨ix, hix, x, hT, hx⟩
      · simp at he
      · obtain ⟨-, hd, -⟩ := findNext_some hx
        rw [hd]
        exact List.ne_nil_of_mem ((h6 x ix).2 (Or.inr ⟨hix, hT, by simp [hx]⟩))
    · exact h9
    · intro x e hx hf hn
      rw [h2] at hn
      obtain ⟨ix, hix⟩ := List.exists_mem_of_ne_nil _ hf
      rcases (h6 x ix).1 hix with h | ⟨a, b, -⟩
      · simp at h
      · exact (h7 e).2 (Or.inr ⟨ix, a, x, b, hn⟩)
    · intro x hx
      rcases h8 x hx with h | ⟨ix, a, b, c⟩
      · simp at h
      · exact List.ne_nil_of_mem ((h6 x ix).2 (Or.inr ⟨a, b, c⟩))
    · simp [h2]
    · simp [h2]
    · simp [h2]
    · intro ix n hA hT ⟨i, hi, hd, hw⟩
      obtain ⟨e, he⟩ := findNext_usable (m := []) hi hd (by simp) hw
      exact List.ne_nil_of_mem ((h6 n ix).2 (Or.inr ⟨hmz hT hA, hT, by simp [he]⟩))
    · intro x hx hn ix
      rw [h6, h1]
      rw [h2] at hn
      constructor
      · rintro (h | ⟨a, b, -⟩)
        · simp at h
        · exact ⟨(mem_zeroes.1 a).2, x, b, .refl _⟩
      · rintro ⟨a, n, b, c⟩
        rcases c.first with rfl | ⟨e, he, -⟩
        · exact Or.inr ⟨hmz b a, b, hn⟩
        · simp at he
    · intro x hx hn a ha; rw [h1] at ha; simp at ha
    · intro a ha; rw [h1] at ha; simp at ha
    · intro a ha; rw [h1] at ha; simp at ha
    · intro a ha; rw [h1] at ha; simp at ha
    · intro a ha; rw [h1] at ha; simp at ha
  · intro ix hlt hn
    rw [h4] at hlt
    obtain ⟨n, hn⟩ := h5 ix (mem_zeroes.2 ⟨by omega, hn⟩)
    exact (List.getElem?_eq_some_iff.1 hn).1

theorem init_total {t : Tree} {s0 : State} (h : s0.rootLen ≤ t.terminals.length) : ∃ s, init g t s0 = some s := by
  unfold init
  generalize ({ saturated := [], marked := [], rootFeeding := s0.rootFeeding, rootLen := max s0.rootLen t.terminals.length, feeding := fun _ => [], rate := fun _ => 0, heap := [] } : State) = s
  have : ∀ L : List Nat, (∀ ix ∈ L, ix < t.terminals.length) → ∀ s, ∃ r, L.foldl (initTerminal g t) (some s) = some r := by
    intro L
    induction L with
    | nil => exact fun _ s => ⟨s, rfl⟩
    | cons x L ih =>
      intro hL s
      rw [List.foldl_cons]
      have hx : t.terminals[x]? = some (t.terminals[x]'(hL x (by simp))) := List.getElem?_eq_getElem _
      simp only [initTerminal, hx, Option.bind_some, Option.map_some]
      exact ih (fun ix hix => hL ix (by simp [hix])) _
  refine this _ (fun ix hix => ?_) s
  rcases (mem_zeroes.1 hix).1 with h' | h' <;> omega

/-! ## A subtree is found -/

theorem Ext.refl (t : Tree) : Ext g t t :=
  ⟨⟨rfl, rfl⟩, fun _ h => h, [], by simp, by simp, by simp [Graph.sum], by simp, by simp, fun n hn => ⟨n, hn, .refl _⟩,
    fun n hn hn' => absurd hn hn'⟩

theorem Ext.trans {t t1 t2 : Tree} (h : Ext g t t1) (h' : Ext g t1 t2) : Ext g t t2 := by
  obtain ⟨a1, a2, n1, a3, a4, a5, a6, a7, a8, a9⟩ := h
  obtain ⟨b1, b2, n2, b3, b4, b5, b6, b7, b8, b9⟩ := h'
  refine ⟨⟨b1.1.trans a1.1, b1.2.trans a1.2⟩, fun n hn => b2 n (a2 n hn), n2 ++ n1, by rw [b3, a3, List.append_assoc], ?_, ?_, ?_, ?_, ?_, ?_⟩
  · rw [List.nodup_append]
    refine ⟨b4, a4, fun x hx y hy hxy => ?_⟩
    subst hxy
    exact (b6 x hx).2.2.2 (a6 x hy).2.2.1
  · simp only [Graph.sum, List.map_append, List.sum_append] at *
    omega
  · intro e he
    rcases List.mem_append.1 he with he | he
    · obtain ⟨c1, c2, c3, c4⟩ := b6 e he
      exact ⟨c1, c2, c3, fun h => c4 (a2 _ h)⟩
    · obtain ⟨c1, c2, c3, c4⟩ := a6 e he
      exact ⟨c1, b2 _ c2, b2 _ c3, c4⟩
  · intro e he e' he' hd
    rcases List.mem_append.1 he with he | he <;> rcases List.mem_append.1 he' with he' | he'
    · exact b7 e he e' he' hd
    · exact absurd (hd ▸ (a6 e' he').2.2.1) (b6 e he).2.2.2
    · exact absurd (hd ▸ (a6 e he).2.2.1) (b6 e' he').2.2.2
    · exact a7 e he e' he' hd
  · intro n hn
    obtain ⟨a, ha, hp⟩ := b8 n hn
    obtain ⟨b, hb, hq⟩ := a8 a ha
    exact ⟨b, hb, (hq.mono fun e he => by simp [he]).trans (hp.mono fun e he => by simp [he])⟩
  · intro n hn hn'
    by_cases h1 : n ∈ t1.nodes
    · obtain ⟨x, hx, hp⟩ := a9 n h1 hn'
      exact ⟨x, hx, hp.mono fun e he => by simp [he]⟩
    · obtain ⟨x, hx, hp⟩ := b9 n hn h1
      rw [a1.1] at hx
      exact ⟨x, hx, hp.mono fun e he => by simp [he]⟩

theorem path_restrict {es es' : List Nat} {v w : Nat} (h : ∀ e ∈ es, Path g es v (g.src e) → e ∈ es') (hp : Path g es v w) :
    Path g es' v w :=
  hp.snocInd (P := fun w => Path g es' v w) (.refl _) fun e he hq ih => ih.trans (.edge (h e he hq))

variable {T : List Nat} {A : Nat → Prop} {t t' : Tree} {s : State} {e : Nat}

/-- Nothing below the head of the edge is in the tree. -/
theorem Inv.below (h : Inv g T A t s) (he : e ∈ s.heap) (hv : g.dst e ∉ t.nodes)
    (hd : disjoint s.rootFeeding (s.feeding (g.dst e)) = true) {w : Nat} (hp : Path g s.saturated (g.dst e) w) : w ∉ t.nodes := by
  intro hw
  rcases hp.last with rfl | ⟨f, hf, rfl, -⟩
  · exact hv hw
  · obtain ⟨ix, n, hA, hT, hq⟩ := h.satTerm f hf
    exact disjoint_iff.1 hd ix (h.treeSat f hf hw ix n hA hT hq) (((h.head he hv).1 ix).2 ⟨hA, n, hT, hp.trans hq⟩)

theorem found_ext (h : Inv g t.terminals A t s) (he : e ∈ s.heap) (hv : g.dst e ∉ t.nodes) (hu : g.src e ∈ t.nodes)
    (hd : disjoint s.rootFeeding (s.feeding (g.dst e)) = true) (hends : Ends g t) {n : Nat}
    (hs : subtree g s.saturated n [g.dst e] (addEdge g t e) = some t') :
    Ext g t t' ∧ Ends g t' ∧ ∀ x, x ∈ t'.nodes ↔ x ∈ t.nodes ∨ Path g s.saturated (g.dst e) x := by
  obtain ⟨h1, h2, h3, -⟩ := h.top he
  obtain ⟨hx, harb, ix0, n0, hix0, hA0, hT0, hP0⟩ := h.head he hv
  have hbel := fun w => h.below he hv hd (w := w)
  have heT : e ∉ t.edges := fun hm => hv (hends e hm)
  have hedges : (addEdge g t e).edges = e :: t.edges := by simp [addEdge, put, heT]
  obtain ⟨m1, m2, m3, m4⟩ := subtree_mem h.satLen hs
  simp only [List.mem_singleton, exists_eq_left] at m3 m4
  have hnd : ∀ f ∈ s.saturated, Path g s.saturated (g.dst e) (g.src f) → f ∉ e :: t.edges := by
    intro f hf hp hm
    rcases List.mem_cons.1 hm with rfl | hm
    · exact h2 (h.satMark f hf)
    · exact hbel _ (hp.trans (.edge hf)) (hends f hm)
  obtain ⟨new, w1, w2, w3, w4⟩ := subtree_total h.satLen h.acyc hs (by simpa using harb) (by simp)
    (by simpa [hedges] using hnd)
  simp only [List.mem_singleton, exists_eq_left] at w4
  have w5 : ∀ f, f ∈ new ↔ f ∈ s.saturated ∧ Path g s.saturated (g.dst e) (g.src f) := by
    intro f
    refine ⟨w4 f, fun hf => ?_⟩
    have := (m4 f).2 (Or.inr hf)
    rw [w1, List.mem_append] at this
    rcases this with h | h
    · exact h
    · rw [hedges] at h; exact absurd h (hnd f hf.1 hf.2)
  have hpath : ∀ {a w}, Path g s.saturated (g.dst e) a → Path g s.saturated a w → Path g (new ++ [e]) a w := by
    intro a w ha hp
    exact path_restrict (fun f hf hq => by simp [(w5 f).2 ⟨hf, ha.trans hq⟩]) hp
  have heN : e ∉ new := fun hm => h2 (h.satMark e ((w5 e).1 hm).1)
  refine ⟨⟨⟨m1, m2⟩, fun n hn => (m3 n).2 (Or.inl hn), new ++ [e], ?_, ?_, ?_, ?_, ?_, ?_, ?_⟩, ?_, m3⟩
  · rw [w1, hedges]; simp
  · rw [List.nodup_append]
    refine ⟨w2, by simp, fun x hx y hy hxy => ?_⟩
    rw [List.mem_singleton.1 hy] at hxy
    exact heN (hxy ▸ hx)
  · rw [w3]
    simp only [addEdge, Graph.sum, List.map_append, List.sum_append, List.map_cons, List.map_nil, List.sum_cons, List.sum_nil]
    omega
  · intro f hf
    rcases List.mem_append.1 hf with hf | hf
    · obtain ⟨hf1, hf2⟩ := (w5 f).1 hf
      refine ⟨?_, (m3 _).2 (Or.inr hf2), (m3 _).2 (Or.inr (hf2.trans (.edge hf1))), hbel _ (hf2.trans (.edge hf1))⟩
      simp [Graph.usable, h.satLen f hf1, h.markUse f (h.satMark f hf1)]
    · simp only [List.mem_singleton] at hf
      subst hf
      exact ⟨by simp [Graph.usable, h1, h3], (m3 _).2 (Or.inl hu), (m3 _).2 (Or.inr (.refl _)), hv⟩
  · have key : ∀ f ∈ new, g.dst f ≠ g.dst e := by
      intro f hf hd'
      obtain ⟨hf1, hf2⟩ := (w5 f).1 hf
      exact h.acyc f hf1 (hd' ▸ hf2)
    intro f hf f' hf' hd'
    rcases List.mem_append.1 hf with hf | hf <;> rcases List.mem_append.1 hf' with hf' | hf'
    · obtain ⟨a1, a2⟩ := (w5 f).1 hf
      obtain ⟨b1, b2⟩ := (w5 f').1 hf'
      exact harb f a1 f' b1 a2 b2 hd'
    · simp only [List.mem_singleton] at hf'
      exact absurd (hf' ▸ hd') (key f hf)
    · simp only [List.mem_singleton] at hf
      exact absurd (hf ▸ hd'.symm) (key f' hf')
    · simp only [List.mem_singleton] at hf hf'
      rw [hf, hf']
  · intro w hw
    rcases (m3 w).1 hw with hw | hw
    · exact ⟨w, hw, .refl _⟩
    · exact ⟨g.src e, hu, (Path.edge (by simp)).trans (hpath (.refl _) hw)⟩
  · intro w hw hw'
    rcases (m3 w).1 hw with hw | hw
    · exact absurd hw hw'
    · have : ∃ ix n, A ix ∧ t.terminals[ix]? = some n ∧ Path g s.saturated w n := by
        rcases hw.last with rfl | ⟨f, hf, rfl, -⟩
        · exact ⟨ix0, n0, hA0, hT0, hP0⟩
        · exact h.satTerm f hf
      obtain ⟨ix, n, -, hT, hp⟩ := this
      exact ⟨n, List.mem_of_getElem? hT, hpath hw hp⟩
  · intro f hf
    rcases (m4 f).1 hf with hf | ⟨hf, hp⟩
    · rw [hedges] at hf
      rcases List.mem_cons.1 hf with rfl | hf
      · exact (m3 _).2 (Or.inr (.refl _))
      · exact (m3 _).2 (Or.inl (hends f hf))
    · exact (m3 _).2 (Or.inr (hp.trans (.edge hf)))

/-- A found subtree keeps the invariant. -/
theorem Inv.found (h : Inv g T A t s) (he : e ∈ s.heap) (hv : g.dst e ∉ t.nodes)
    (hn : ∀ x, x ∈ t'.nodes ↔ x ∈ t.nodes ∨ Path g s.saturated (g.dst e) x) :
    Inv g T A t' { popped s e with rootFeeding := union s.rootFeeding (s.feeding (g.dst e)) } := by
  obtain ⟨h1, h2, h3, h4, h5, h6, h7, h8⟩ := h.top he
  have hsub : ∀ x, x ∉ t'.nodes → x ∉ t.nodes := fun x hx hm => hx ((hn x).2 (Or.inl hm))
  have hvt : g.dst e ∈ t'.nodes := (hn _).2 (Or.inr (.refl _))
  constructor
  · intro f hf; exact mem_put.2 (Or.inr (h.satMark f hf))
  · intro f hf
    rcases mem_put.1 hf with rfl | hf
    · exact h1
    · exact h.markLen f hf
  · intro f hf
    rcases mem_put.1 hf with rfl | hf
    · exact h3
    · exact h.markUse f hf
  · intro f hf
    obtain ⟨a, b⟩ := (mem_erase_nodup h.heapNodup).1 hf
    show findNext g (put e s.marked) _ = _
    rw [h6 _ fun hd => a (h7 f b hd)]
    exact h.heapNext f b
  · intro f hf
    exact h.heapFed f ((mem_erase_nodup h.heapNodup).1 hf).2
  · exact h.heapNodup.erase _
  · intro x f hx hfd hnx
    have hxe : x ≠ g.dst e := by rintro rfl; exact hx hvt
    have hnx' : findNext g s.marked x = some f := (h6 x hxe) ▸ hnx
    refine (mem_erase_nodup h.heapNodup).2 ⟨?_, h.fedHeap x f (hsub x hx) hfd hnx'⟩
    rintro rfl
    exact hxe (findNext_some hnx').2.1.symm
  · exact h.rateFed
  · intro f hf
    rcases mem_put.1 hf with rfl | hf
    · exact h4
    · exact h.markFed f hf
  · intro f hf hdf hsf hin
    rcases mem_put.1 hf with rfl | hf
    · exact absurd hvt hdf
    · exact h.markSrc f hf (hsub _ hdf) (hsub _ hsf) hin
  · intro f hf i hi hdi him
    have him' : ¬ (i = e ∨ i ∈ s.marked) := fun hm => him (mem_put.2 hm)
    rw [not_or] at him'
    rcases mem_put.1 hf with rfl | hf
    · exact h5 i hi hdi him'.2
    · exact h.markMin f hf i hi hdi him'.2
  · exact h.termFed
  · exact fun x hx hnx => h.exact x (hsub x hx) (h8 x hnx)
  · exact fun x hx hnx => h.arb x (hsub x hx) (h8 x hnx)
  · exact h.acyc
  · exact h.satTerm
  · intro f hf hsf
    rcases (hn _).1 hsf with hs | hs
    · exact (hn _).2 (Or.inl (h.closed f hf hs))
    · exact (hn _).2 (Or.inr (hs.trans (.edge hf)))
  · intro f hf hdf ix n hA hT hp
    show ix ∈ union _ _
    rw [mem_union]
    rcases (hn _).1 hdf with hs | hs
    · exact Or.inl (h.treeSat f hf hs ix n hA hT hp)
    · exact Or.inr (((h.head he hv).1 ix).2 ⟨hA, n, hT, hs.trans hp⟩)

end

end Verif.Flac
