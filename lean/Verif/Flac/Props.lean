import Verif.Flac.Loop
/-!
# C62: growing the Steiner tree

`Reach g root T t s`: the tree `t` was grown from `root` by any number of runs, with any choice of the edges
that saturate at the same time, and terminals were added in between.
-/
namespace Verif.Flac

section
variable {g : Graph} {root inner outer : Nat} {T : List Nat} {t t' : Tree} {s s' : State} {pick : Nat → Nat} {b : Bool}

theorem run_done (he : Ends g t) (h : run g inner outer pick t s = .done b t' s') :
    Grown g t s t' s' ∧ s'.rootLen = max s.rootLen t.terminals.length ∧ b = s'.isFull ∧
      (Fed s s' ∨ t' = t ∧ s'.rootFeeding = s.rootFeeding ∧ ∀ ix n, t.terminals[ix]? = some n → ix ∉ s.rootFeeding → n ∉ t.nodes →
        ¬ ∃ a ∈ t.nodes, Path g g.usable a n) := by
  unfold run at h
  split at h
  · next hz =>
    cases h
    have hz' : ∀ ix, ix ∉ s.zeroes t.terminals.length := by
      rw [List.isEmpty_iff] at hz; simp [hz]
    refine ⟨⟨Ext.refl _, he, fun _ h => h, fun ix h h' => absurd h h', fun _ _ _ _ h => h, by simp⟩, rfl, ?_, Or.inr ⟨rfl, rfl, ?_⟩⟩
    · simp only [State.isFull, Eq.comm (a := true), List.all_eq_true, List.mem_range, List.contains_eq_mem, decide_eq_true_eq]
      intro ix hix
      apply Classical.byContradiction
      intro hn
      exact hz' ix (mem_zeroes.2 ⟨by omega, hn⟩)
    · intro ix n h1 h2
      exact absurd (mem_zeroes.2 ⟨Or.inr (List.getElem?_eq_some_iff.1 h1).1, h2⟩) (hz' ix)
  · split at h
    · cases h
    · next s1 hi =>
      split at h
      · cases h
      · next t2 s2 hl =>
        cases h
        obtain ⟨h1, h2, h3, h4, -⟩ := inv_init hi
        have hg : Grown g t s t s1 := ⟨Ext.refl _, he, h2 ▸ fun _ h => h, fun ix h h' => absurd (h2 ▸ h) h', fun _ _ _ _ h => h,
          fun e hm => by have := h1.satMark e hm; rw [h4] at this; simp at this⟩
        obtain ⟨r1, r2, r3⟩ := loop_grown hg h1 (Or.inl ⟨rfl, h2, by simp [h4]⟩) hl
        exact ⟨r1, r2.trans h3, rfl, r3⟩

theorem extend_keep (t : Tree) (new : List Nat) :
    (t.extend new).2.nodes = t.nodes ∧ (t.extend new).2.edges = t.edges ∧ (t.extend new).2.total = t.total ∧
      ∃ l, (t.extend new).2.terminals = t.terminals ++ l ∧ ∀ n ∈ l, n ∉ t.nodes := by
  unfold Tree.extend
  simp only
  induction new generalizing t with
  | nil => simp
  | cons n new ih =>
    rw [List.foldl_cons]
    obtain ⟨h1, h2, h3, l, h4, h5⟩ := ih (addTerminal t n)
    rw [h1, h2, h3, h4]
    rw [h1] at h1
    unfold addTerminal at h5 ⊢
    split
    · next h => rw [if_pos h] at h5; exact ⟨rfl, rfl, rfl, l, rfl, h5⟩
    · next h =>
      rw [if_neg h] at h5
      split
      · next h' => rw [if_pos h'] at h5; exact ⟨rfl, rfl, rfl, l, rfl, h5⟩
      · next h' =>
        rw [if_neg h'] at h5
        refine ⟨rfl, rfl, rfl, n :: l, by simp, ?_⟩
        intro m hm
        rcases List.mem_cons.1 hm with rfl | hm
        · simpa using h'
        · exact h5 m hm

/-- What holds for every tree that can come up. -/
theorem reach_all (h : Reach g root T t s) :
    IsTree g root t ∧ t.edges.Nodup ∧ t.total % 65536 = g.sum t.edges % 65536 ∧
      (∀ n ∈ t.nodes, n ≠ root → ∃ x ∈ t.terminals, Path g t.edges n x) ∧
      (∀ ix ∈ s.rootFeeding, ∃ n, t.terminals[ix]? = some n ∧ n ∈ t.nodes) ∧
      s.rootLen ≤ t.terminals.length ∧ (∀ e ∈ t.edges, e ∈ g.usable) ∧
      (root ∉ T → ∀ n, Unfed t s n → n ∉ t.nodes) := by
  induction h with
  | new =>
    refine ⟨⟨by simp [Tree.new], by simp [Tree.new], by simp [Tree.new], ?_⟩, by simp [Tree.new], by simp [Tree.new, Graph.sum], ?_,
      by simp [State.new], by simp [State.new], by simp [Tree.new], ?_⟩
    · intro n hn; simp only [Tree.new, List.mem_singleton] at hn; subst hn; exact .refl _
    · intro n hn hne; simp only [Tree.new, List.mem_singleton] at hn; exact absurd hn hne
    · rintro hr n ⟨ix, hix, -⟩ hn
      simp only [Tree.new, List.mem_singleton] at hn hix
      subst hn
      exact hr (List.mem_of_getElem? hix)
  | run h0 h ih =>
    obtain ⟨a1, a2, a3, a4, a5, a6, a7, a8⟩ := ih
    obtain ⟨⟨⟨⟨b1, -⟩, b2, new, c1, c2, c3, c4, c5, c6, c7⟩, -, b4, b5, b6, -⟩, d1, d2, -⟩ := run_done (fun e he => (a1.edge e he).2.2.1) h
    refine ⟨⟨b2 _ a1.start, ?_, ?_, ?_⟩, ?_, ?_, ?_, ?_, ?_, ?_, ?_⟩
    · intro e he
      rw [c1] at he
      rcases List.mem_append.1 he with he | he
      · obtain ⟨e1, e2, e3, e4⟩ := c4 e he
        refine ⟨?_, e2, e3, fun hr => e4 (hr ▸ a1.start)⟩
        simp only [Graph.usable, List.mem_filter, List.mem_range] at e1; exact e1.1
      · obtain ⟨e1, e2, e3, e4⟩ := a1.edge e he
        exact ⟨e1, b2 _ e2, b2 _ e3, e4⟩
    · intro e he e' he' hd
      rw [c1] at he he'
      rcases List.mem_append.1 he with he | he <;> rcases List.mem_append.1 he' with he' | he'
      · exact c5 e he e' he' hd
      · exact absurd (hd ▸ (a1.edge e' he').2.2.1) (c4 e he).2.2.2
      · exact absurd (hd ▸ (a1.edge e he).2.2.1) (c4 e' he').2.2.2
      · exact a1.one e he e' he' hd
    · intro n hn
      obtain ⟨a, ha, hp⟩ := c6 n hn
      exact ((a1.reach a ha).mono (fun e he => by rw [c1]; simp [he])).trans (hp.mono fun e he => by rw [c1]; simp [he])
    · rw [c1, List.nodup_append]
      refine ⟨c2, a2, fun x hx y hy hxy => ?_⟩
      subst hxy
      exact (c4 x hx).2.2.2 (a1.edge x hy).2.2.1
    · rw [c1]
      simp only [Graph.sum, List.map_append, List.sum_append] at *
      omega
    · intro n hn hne
      rw [b1]
      rename_i t1 _ _ _ _ _ _ _
      by_cases hn' : n ∈ t1.nodes
      · obtain ⟨x, hx, hp⟩ := a4 n hn' hne
        exact ⟨x, hx, hp.mono fun e he => by rw [c1]; simp [he]⟩
      · obtain ⟨x, hx, hp⟩ := c7 n hn hn'
        exact ⟨x, hx, hp.mono fun e he => by rw [c1]; simp [he]⟩
    · intro ix hix
      rename_i s1 _ _ _ _ _
      rw [b1]
      by_cases hix' : ix ∈ s1.rootFeeding
      · obtain ⟨n, e1, e2⟩ := a5 ix hix'
        exact ⟨n, e1, b2 n e2⟩
      · obtain ⟨n, e1, e2, -⟩ := b5 ix hix hix'
        exact ⟨n, e1, e2⟩
    · rw [d1, b1]; omega
    · intro e he
      rw [c1] at he
      rcases List.mem_append.1 he with he | he
      · exact (c4 e he).1
      · exact a7 e he
    · rintro hr n ⟨ix, hix, hf⟩ hn
      rw [b1] at hix
      exact a8 hr n ⟨ix, hix, fun h => hf (b4 ix h)⟩ (b6 ix n hix hf hn)
  | extend new h0 ih =>
    obtain ⟨a1, a2, a3, a4, a5, a6, a7, a8⟩ := ih
    rename_i t s
    obtain ⟨e1, e2, e3, l, e4, e5⟩ := extend_keep t new
    refine ⟨⟨e1 ▸ a1.start, ?_, e2 ▸ a1.one, ?_⟩, e2 ▸ a2, by rw [e2, e3]; exact a3, ?_, ?_, ?_, e2 ▸ a7, ?_⟩
    · rw [e1, e2]; exact a1.edge
    · rw [e1, e2]; exact a1.reach
    · rw [e1, e2, e4]; intro n hn hne
      obtain ⟨x, hx, hp⟩ := a4 n hn hne
      exact ⟨x, by simp [hx], hp⟩
    · intro ix hix
      obtain ⟨n, h1, h2⟩ := a5 ix hix
      rw [e1, e4]
      exact ⟨n, by rw [List.getElem?_append_left (List.getElem?_eq_some_iff.1 h1).1]; exact h1, h2⟩
    · rw [e4, List.length_append]; omega
    · rintro hr n ⟨ix, hix, hf⟩
      rw [e1]
      rw [e4] at hix
      by_cases hlt : ix < t.terminals.length
      · rw [List.getElem?_append_left hlt] at hix
        exact a8 hr n ⟨ix, hix, hf⟩
      · rw [List.getElem?_append_right (by omega)] at hix
        exact e5 n (List.mem_of_getElem? hix)

/-- The result is a tree: every node but the root has one edge of the tree to it and is reached from the
root; no edge has the weight `u16::MAX`. -/
theorem C62_tree (h : Reach g root T t s) : IsTree g root t ∧ t.edges.Nodup ∧ ∀ e ∈ t.edges, e ∈ g.usable :=
  let r := reach_all h
  ⟨r.1, r.2.1, r.2.2.2.2.2.2.1⟩

/-- Nothing superfluous: every node leads to a terminal. -/
theorem C62_useful (h : Reach g root T t s) : ∀ n ∈ t.nodes, n ≠ root → ∃ x ∈ t.terminals, Path g t.edges n x :=
  (reach_all h).2.2.2.1

/-- The weight is that of the edges, modulo 2^16. -/
theorem C62_weight (h : Reach g root T t s) : t.total % 65536 = g.sum t.edges % 65536 :=
  (reach_all h).2.2.1

/-- A run keeps what there is; the edges added are to new nodes. -/
theorem C62_grows (h : Reach g root T t s) (hr : run g inner outer pick t s = .done b t' s') : Ext g t t' :=
  (run_done (fun e he => ((reach_all h).1.edge e he).2.2.1) hr).1.ext

/-- If a run says that it is done all terminals are in the tree. -/
theorem C62_all (h : Reach g root T t s) (hr : run g inner outer pick t s = .done true t' s') :
    t'.terminals = t.terminals ∧ ∀ x ∈ t.terminals, x ∈ t'.nodes ∧ Path g t'.edges root x := by
  obtain ⟨-, -, -, -, h5, -⟩ := reach_all (.run h hr)
  obtain ⟨h1, h2, h3, -⟩ := run_done (fun e he => ((reach_all h).1.edge e he).2.2.1) hr
  have ht := h1.ext.terminals.1
  refine ⟨ht, fun x hx => ?_⟩
  obtain ⟨ix, hlt, hix⟩ := List.getElem_of_mem hx
  have hf : ix ∈ s'.rootFeeding := by
    have := h3.symm
    simp only [State.isFull, List.all_eq_true, List.mem_range, List.contains_eq_mem, decide_eq_true_eq] at this
    exact this ix (by omega)
  obtain ⟨n, hn, hm⟩ := h5 ix hf
  rw [ht, List.getElem?_eq_getElem hlt, hix] at hn
  cases hn
  exact ⟨hm, (reach_all (.run h hr)).1.reach _ hm⟩

/-- A run that does not say it is done has left a terminal. -/
theorem C62_left (h : Reach g root T t s) (hr : run g inner outer pick t s = .done false t' s') :
    ∃ x ∈ t'.terminals, Unfed t' s' x := by
  obtain ⟨h1, h2, h3, -⟩ := run_done (fun e he => ((reach_all h).1.edge e he).2.2.1) hr
  have ht := h1.ext.terminals.1
  have hl := (reach_all h).2.2.2.2.2.1
  have h3 := h3.symm
  rw [State.isFull, List.all_eq_false] at h3
  obtain ⟨ix, hix, hf⟩ := h3
  simp only [List.mem_range] at hix
  have hlt : ix < t'.terminals.length := by rw [ht]; omega
  exact ⟨t'.terminals[ix], List.getElem_mem _, ix, List.getElem?_eq_getElem hlt, by simpa using hf⟩

/-- Every run connects a terminal if there is one outside of the tree to which usable edges lead. -/
theorem C62_progress (h : Reach g root T t s) (hr : run g inner outer pick t s = .done b t' s') {n : Nat}
    (hn : Unfed t s n) (ho : n ∉ t.nodes) (hp : Path g g.usable root n) :
    (∀ ix ∈ s.rootFeeding, ix ∈ s'.rootFeeding) ∧ ∃ ix x, ix ∈ s'.rootFeeding ∧ ix ∉ s.rootFeeding ∧
      t.terminals[ix]? = some x ∧ x ∈ t'.nodes ∧ x ∉ t.nodes := by
  obtain ⟨h1, -, -, h4⟩ := run_done (fun e he => ((reach_all h).1.edge e he).2.2.1) hr
  refine ⟨h1.keep, ?_⟩
  rcases h4 with ⟨ix, a, b⟩ | ⟨-, -, h4⟩
  · obtain ⟨x, c, d, e⟩ := h1.fed ix a b
    exact ⟨ix, x, a, b, c, d, e⟩
  · obtain ⟨ix, a, b⟩ := hn
    exact absurd ⟨root, (reach_all h).1.start, hp⟩ (h4 ix n a b ho)

/-- A run never panics, and ends after each edge was popped once. -/
theorem C62_run_ends (h : Reach g root T t s) (hl : g.edges.length ≤ outer) :
    ∃ N b t' s', ∀ inner, N ≤ inner → run g inner outer pick t s = .done b t' s' := by
  obtain ⟨a1, -, -, -, -, a6, -⟩ := reach_all h
  unfold run
  split
  · exact ⟨0, _, _, _, fun _ _ => rfl⟩
  · obtain ⟨s1, hi⟩ := init_total (g := g) a6
    obtain ⟨h1, h2, h3, h4, -⟩ := inv_init hi
    have hg : Grown g t s t s1 := ⟨Ext.refl _, fun e he => (a1.edge e he).2.2.1, h2 ▸ fun _ h => h, fun ix h h' => absurd (h2 ▸ h) h',
      fun _ _ _ _ h => h, fun e hm => by have := h1.satMark e hm; rw [h4] at this; simp at this⟩
    obtain ⟨N, ⟨t2, s2⟩, hN⟩ := loop_ends (pick := pick) (n := outer) hg h1 (Or.inl ⟨rfl, h2, by simp [h4]⟩) (by
      have : rest g s1.marked ≤ g.edges.length := by
        unfold rest
        exact Nat.le_trans (List.length_filter_le _ _) (by simp)
      omega)
    exact ⟨N, s2.isFull, t2, s2, fun i hi' => by rw [hi]; simp only [hN i hi']⟩

/-- The terminals left. -/
def left (t : Tree) (s : State) : Nat := ((List.range t.terminals.length).filter fun ix => !s.rootFeeding.contains ix).length

theorem left_lt (hT : t'.terminals = t.terminals) (hk : ∀ ix ∈ s.rootFeeding, ix ∈ s'.rootFeeding) {ix : Nat}
    (h1 : ix ∈ s'.rootFeeding) (h2 : ix ∉ s.rootFeeding) (h3 : ix < t.terminals.length) : left t' s' < left t s := by
  unfold left
  rw [hT]
  have : ∀ l : List Nat, l.Nodup → (l.filter fun ix => !s'.rootFeeding.contains ix).length ≤ (l.filter fun ix => !s.rootFeeding.contains ix).length ∧
      (ix ∈ l → (l.filter fun ix => !s'.rootFeeding.contains ix).length < (l.filter fun ix => !s.rootFeeding.contains ix).length) := by
    intro l
    induction l with
    | nil => simp
    | cons x l ih =>
      intro hl
      rw [List.nodup_cons] at hl
      obtain ⟨i1, i2⟩ := ih hl.2
      simp only [List.filter_cons, List.contains_eq_mem]
      simp only [List.contains_eq_mem] at i1 i2
      by_cases hx : x ∈ s.rootFeeding
      · have hx' := hk x hx
        simp only [hx, hx', decide_true, Bool.not_true, Bool.false_eq_true, if_false, List.mem_cons]
        exact ⟨i1, fun h => i2 (h.resolve_left (fun h => h2 (h ▸ hx)))⟩
      · by_cases hx' : x ∈ s'.rootFeeding
        · simp only [hx, hx', decide_true, Bool.not_true, Bool.false_eq_true, if_false, decide_false, Bool.not_false, if_true, List.length_cons]
          exact ⟨by omega, fun _ => by omega⟩
        · have : ix ≠ x := fun h => hx' (h ▸ h1)
          simp only [hx, hx', decide_false, Bool.not_false, if_true, List.length_cons, List.mem_cons, this, false_or]
          exact ⟨by omega, fun h => by have := i2 h; omega⟩
  exact (this _ List.nodup_range).2 (by simpa using h3)

/-- The tree is completed if usable edges lead to every terminal: after at most one run for each terminal,
and all are connected. -/
theorem C62_ends {pick : Nat → Nat → Nat} (h : Reach g root T t s) (hr : root ∉ T) (hp : ∀ x ∈ t.terminals, Path g g.usable root x)
    (hl : g.edges.length ≤ outer) {n : Nat} (hn : t.terminals.length < n) :
    ∃ N t' s', (∀ inner, N ≤ inner → greedy g inner outer pick n t s = .done true t' s') ∧ IsTree g root t' ∧ t'.terminals = t.terminals ∧
      ∀ x ∈ t.terminals, Path g t'.edges root x := by
  have key : ∀ n {t s}, Reach g root T t s → (∀ x ∈ t.terminals, Path g g.usable root x) → left t s < n →
      ∃ N t' s', (∀ inner, N ≤ inner → greedy g inner outer pick n t s = .done true t' s') ∧ IsTree g root t' ∧ t'.terminals = t.terminals ∧
        ∀ x ∈ t.terminals, Path g t'.edges root x := by
    intro n
    induction n with
    | zero => intro t s _ _ h; omega
    | succ n ih =>
      intro t s h hp hlt
      obtain ⟨N, b, t', s', hN⟩ := C62_run_ends (pick := pick n) h hl
      have hrun := hN N (Nat.le_refl _)
      cases b with
      | true =>
        refine ⟨N, t', s', fun i hi => ?_, (reach_all (.run h hrun)).1, (C62_all h hrun).1, fun x hx => ((C62_all h hrun).2 x hx).2⟩
        unfold greedy; rw [hN i hi]
      | false =>
        obtain ⟨x, hx, ix, h1, h2⟩ := C62_left h hrun
        have ht := (C62_grows h hrun).terminals.1
        have hg := (run_done (fun e he => ((reach_all h).1.edge e he).2.2.1) hrun).1
        have hun : Unfed t s x := ⟨ix, ht ▸ h1, fun hm => h2 (hg.keep ix hm)⟩
        obtain ⟨p1, jx, y, p2, p3, p4, -⟩ := C62_progress h hrun hun ((reach_all h).2.2.2.2.2.2.2 hr x hun) (hp x (ht ▸ hx))
        have hdec := left_lt ht p1 p2 p3 (List.getElem?_eq_some_iff.1 p4).1
        obtain ⟨M, t2, s2, q1, q2, q3, q4⟩ := ih (.run h hrun) (ht.symm ▸ hp) (by omega)
        refine ⟨max N M, t2, s2, fun i hi => ?_, q2, q3.trans ht, ht ▸ q4⟩
        unfold greedy; rw [hN i (by omega)]
        exact q1 i (by omega)
  refine key n h hp ?_
  have : left t s ≤ t.terminals.length := by
    unfold left; exact Nat.le_trans (List.length_filter_le _ _) (by simp)
  omega

/-- Otherwise it never ends: a terminal no usable edges lead to, or one that was in the tree before. -/
theorem C62_forever {pick : Nat → Nat → Nat} (h : Reach g root T t s) {n : Nat} (hn : Unfed t s n)
    (hb : n ∈ t.nodes ∨ ¬ Path g g.usable root n) (m : Nat) : ∀ b t' s', greedy g inner outer pick m t s ≠ .done b t' s' := by
  induction m generalizing t s with
  | zero => intro b t' s' h; unfold greedy at h; cases h
  | succ m ih =>
    intro b t' s' hg
    unfold greedy at hg
    cases hrun : run g inner outer (pick m) t s with
    | panic => rw [hrun] at hg; cases hg
    | timeout => rw [hrun] at hg; cases hg
    | done c t1 s1 =>
      have h1 := run_done (fun e he => ((reach_all h).1.edge e he).2.2.1) hrun
      have ht := h1.1.ext.terminals.1
      obtain ⟨ix, hx, hf⟩ := hn
      have hreach : ¬ Path g g.usable root n → n ∉ t1.nodes := fun hnp hm =>
        hnp (((reach_all (.run h hrun)).1.reach n hm).mono (reach_all (.run h hrun)).2.2.2.2.2.2.1)
      have hf1 : ix ∉ s1.rootFeeding := by
        intro hm
        obtain ⟨x, a, b, d⟩ := h1.1.fed ix hm hf
        rw [hx] at a; cases a
        rcases hb with hb | hb
        · exact d hb
        · exact hreach hb b
      cases c with
      | true =>
        have := h1.2.2.1.symm
        simp only [State.isFull, List.all_eq_true, List.mem_range, List.contains_eq_mem, decide_eq_true_eq] at this
        have hlt := (List.getElem?_eq_some_iff.1 hx).1
        have hlen := h1.2.1
        exact hf1 (this ix (by omega))
      | false =>
        rw [hrun] at hg
        exact ih (.run h hrun) ⟨ix, ht ▸ hx, hf1⟩ (hb.imp (h1.1.ext.nodes n) id) b t' s' hg

/-- With the terminals of the start and those added through `extend_terminals` no unfed terminal is in the
tree. -/
theorem C62_unfed (h : Reach g root T t s) (hr : root ∉ T) {n : Nat} (hn : Unfed t s n) : n ∉ t.nodes :=
  (reach_all h).2.2.2.2.2.2.2 hr n hn

/-- `reset` keeps the length of the set of fed terminals: with fewer terminals than before the next run
panics. -/
theorem C62_reset_panics (h : t.terminals.length < s.rootLen) : run g inner outer pick t s.reset = .panic := by
  have hz : ∀ ix, ix ∈ s.reset.zeroes t.terminals.length ↔ ix < s.rootLen ∨ ix < t.terminals.length := by
    intro ix; rw [mem_zeroes]; simp [State.reset]
  unfold run
  rw [if_neg (by
    rw [List.isEmpty_iff]
    intro h0
    have := (hz t.terminals.length).2 (Or.inl h)
    rw [h0] at this; simp at this)]
  cases hi : init g t s.reset with
  | none => rfl
  | some s1 =>
    exfalso
    obtain ⟨-, -, h3, -, h5⟩ := inv_init hi
    have := h5 t.terminals.length (by rw [h3]; simp only [State.reset]; omega) (by simp [State.reset])
    omega

theorem during_inv {t0 : Tree} {s0 : State} (he : Ends g t0) (h : During g t0 s0 t s) :
    Grown g t0 s0 t s ∧ Inv g t0.terminals (Act s0) t s ∧ (Idle g t0 s0 t s ∨ Fed s0 s) := by
  induction h with
  | start h =>
    obtain ⟨h1, h2, h3, h4, -⟩ := inv_init h
    exact ⟨⟨Ext.refl _, he, h2 ▸ fun _ h => h, fun ix h h' => absurd (h2 ▸ h) h', fun _ _ _ _ h => h,
          fun e hm => by have := h1.satMark e hm; rw [h4] at this; simp at this⟩, h1, Or.inl ⟨rfl, h2, by simp [h4]⟩⟩
  | go _ hi hu ih =>
    obtain ⟨a, b, c⟩ := ih
    rw [eraseIdx_eq_erase b.heapNodup hi] at hu
    obtain ⟨d, e, f, -⟩ := step_continue a b (List.mem_of_getElem? hi) c hu
    exact ⟨d, e, f⟩
  | found _ hi hu hs ih =>
    obtain ⟨a, b, c⟩ := ih
    rw [eraseIdx_eq_erase b.heapNodup hi] at hu
    have hm := List.mem_of_getElem? hi
    rcases upd_iff.1 hu with ⟨_, c, _⟩ | ⟨a1, a2, a3, c, rfl⟩ | ⟨_, _, _, c, _⟩ | ⟨_, _, _, c, _⟩ | ⟨l, _, _, _, c, _⟩
    · cases c
    · cases c
      obtain ⟨d1, d2, d3⟩ := a.found b hm a1 a2 a3 hs
      exact ⟨d1, d2, Or.inr d3⟩
    · cases c
    · cases c
    · cases c

/-- The next edge to a node weighs at least as much as the one that saturated, so the subtraction of the
weights (greedy_flac.rs:541) does not underflow; and an edge that saturates has water to lead. -/
theorem C62_no_underflow {t0 : Tree} {s0 : State} (h0 : Reach g root T t0 s0) (h : During g t0 s0 t s) {e k : Nat}
    (hm : e ∈ s.heap) :
    (findNext g (put e s.marked) (g.dst e) = some k → g.weight e ≤ g.weight k) ∧ s.feeding (g.dst e) ≠ [] ∧ e ∉ s.marked := by
  obtain ⟨-, hi, -⟩ := during_inv (fun e he => ((reach_all h0).1.edge e he).2.2.1) h
  obtain ⟨a1, a2, a3, a4, a5, -⟩ := hi.top hm
  refine ⟨fun hk => ?_, a4, a2⟩
  obtain ⟨b1, b2, b3, -⟩ := findNext_some hk
  rw [mem_put, not_or] at b3
  exact a5 k b1 b2 b3.2

/-- In a run every node outside of the tree feeds a terminal through one way only, as long as it has an edge
left. -/
theorem C62_one_way {t0 : Tree} {s0 : State} (h0 : Reach g root T t0 s0) (h : During g t0 s0 t s) {x : Nat} (hx : x ∉ t.nodes)
    (hn : findNext g s.marked x ≠ none) :
    (∀ e ∈ s.saturated, ∀ e' ∈ s.saturated, Path g s.saturated x (g.src e) → Path g s.saturated x (g.src e') → g.dst e = g.dst e' → e = e') ∧
      (∀ e ∈ s.saturated, ¬ Path g s.saturated (g.dst e) (g.src e)) ∧
      ∀ ix, ix ∈ s.feeding x ↔ ix ∉ s0.rootFeeding ∧ ∃ n, t0.terminals[ix]? = some n ∧ Path g s.saturated x n := by
  obtain ⟨-, hi, -⟩ := during_inv (fun e he => ((reach_all h0).1.edge e he).2.2.1) h
  exact ⟨hi.arb x hx hn, hi.acyc, hi.exact x hx hn⟩

end

/-! ## Cases -/

/-- Two terminals with a common way through `1`, and a direct edge to each. -/
def ex : Graph := ⟨[⟨0, 1, 10⟩, ⟨1, 2, 1⟩, ⟨1, 3, 1⟩, ⟨0, 2, 13⟩, ⟨0, 3, 13⟩]⟩

/-- In the order of time the common way is found. -/
example : (greedy ex 10 10 (fun _ _ => 1) 3 (Tree.new 0 [2, 3]) .new).tree =
    some (true, ⟨[3, 2, 1, 0], [2, 1, 0], 12, [2, 3], [2, 3]⟩) := by decide +kernel

/-- In another order the direct edges are. -/
example : (greedy ex 10 10 (fun _ _ => 0) 3 (Tree.new 0 [2, 3]) .new).tree =
    some (true, ⟨[2, 3, 0], [3, 4], 26, [2, 3], [2, 3]⟩) := by decide +kernel

/-- The hypotheses of `C62_ends`. -/
example : 0 ∉ [2, 3] ∧ ∀ x ∈ (Tree.new 0 [2, 3]).terminals, Path ex ex.usable 0 x := by
  refine ⟨by simp, ?_⟩
  intro x hx
  simp only [Tree.new, List.mem_cons, List.not_mem_nil, or_false] at hx
  rcases hx with rfl | rfl
  · exact .step (e := 3) (by decide) (.refl _)
  · exact .step (e := 4) (by decide) (.refl _)

/-- The hypotheses of `C62_progress` and a tree that was extended. -/
example : ∃ t s, Reach ex 0 [2] t s ∧ Unfed t s 3 ∧ 3 ∉ t.nodes ∧ 2 ∈ t.nodes := by
  have h0 : Reach ex 0 [2] (Tree.new 0 [2]) .new := .new
  cases hrun : run ex 10 5 (fun _ => 0) (Tree.new 0 [2]) .new with
  | panic => exact absurd (congrArg Outcome.tree hrun) (by decide +kernel)
  | timeout => exact absurd (congrArg Outcome.tree hrun) (by decide +kernel)
  | done b t s =>
    have ht : t = ⟨[2, 0], [3], 13, [2], [2]⟩ := by
      have := congrArg Outcome.tree hrun
      have hc : (run ex 10 5 (fun _ => 0) (Tree.new 0 [2]) .new).tree = some (true, ⟨[2, 0], [3], 13, [2], [2]⟩) := by decide +kernel
      rw [hc] at this
      simp only [Outcome.tree, Option.some.injEq, Prod.mk.injEq] at this
      exact this.2.symm
    have hr1 := Reach.extend [3] (.run h0 hrun)
    subst ht
    have hf := (reach_all (.run h0 hrun)).2.2.2.2.1
    refine ⟨_, _, hr1, ⟨1, rfl, fun hm => ?_⟩, by decide, by decide⟩
    obtain ⟨n, hn, -⟩ := hf 1 hm
    simp at hn

/-- An edge with the weight `u16::MAX` is never taken: the terminal behind it is waited for forever. -/
theorem C62_max_weight (inner outer : Nat) (pick : Nat → Nat → Nat) (m : Nat) :
    ∀ b t' s', greedy ⟨[⟨0, 1, 65535⟩]⟩ inner outer pick m (Tree.new 0 [1]) .new ≠ .done b t' s' :=
  C62_forever (g := ⟨[⟨0, 1, 65535⟩]⟩) (T := [1]) .new ⟨0, rfl, by simp [State.new]⟩ (Or.inr fun hp => by
    have hu : Graph.usable ⟨[⟨0, 1, 65535⟩]⟩ = [] := by decide
    rw [hu] at hp
    rcases hp.last with h | ⟨e, he, -⟩
    · cases h
    · simp at he) m

/-- As is a terminal that is in the tree from the start. -/
theorem C62_in_tree (g : Graph) (inner outer : Nat) (pick : Nat → Nat → Nat) (m root : Nat) (T : List Nat) (h : root ∈ T) :
    ∀ b t' s', greedy g inner outer pick m (Tree.new root T) .new ≠ .done b t' s' := by
  obtain ⟨ix, hlt, hix⟩ := List.getElem_of_mem h
  exact C62_forever (T := T) .new ⟨ix, (List.getElem?_eq_getElem hlt).trans (congrArg some hix), by simp [State.new]⟩ (Or.inl (by simp [Tree.new])) m

/-- The weight of a tree wraps. -/
theorem C62_weight_wraps : (greedy ⟨[⟨0, 1, 40000⟩, ⟨1, 2, 40000⟩]⟩ 10 10 (fun _ _ => 0) 3 (Tree.new 0 [2]) .new).tree.map (·.2.total) =
    some 14464 := by decide +kernel

/-- After two terminals and a reset one terminal leads to a panic. -/
theorem C62_estimate_panics :
    (match greedy ex 10 10 (fun _ _ => 0) 3 (Tree.new 0 [2, 3]) .new with
      | .done _ t s => (run ex 10 10 (fun _ => 0) (t.cloneWith [4]).2 s.reset).isPanic
      | _ => false) = true := by decide +kernel

end Verif.Flac
