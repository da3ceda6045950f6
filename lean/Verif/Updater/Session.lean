import Verif.Updater.Lemmas
/-!
# What holds between runs
-/
namespace Verif.Updater

open Verif.Flac

/-- A tree with the state of its growth. -/
structure TreeInv (g : Graph) (root : Nat) (t : Tree) (s : State) : Prop where
  tree : IsTree g root t
  useful : ∀ n ∈ t.nodes, n ≠ root → ∃ x ∈ t.terminals, Path g t.edges n x
  fed : ∀ ix ∈ s.rootFeeding, ∃ n, t.terminals[ix]? = some n ∧ n ∈ t.nodes
  rootLen : s.rootLen ≤ t.terminals.length
  unfed : ∀ n, Unfed t s n → n ∉ t.nodes
  isTerm : ∀ n ∈ t.isTerminal, n ∈ t.terminals ∨ n ∈ t.nodes

theorem TreeInv.same {g g' : Graph} {root : Nat} {t : Tree} {s : State} (hs : Same g g') (h : TreeInv g root t s) : TreeInv g' root t s where
  tree := isTree_same hs h.tree
  useful n hn hr := by obtain ⟨x, hx, hp⟩ := h.useful n hn hr; exact ⟨x, hx, path_same hs hp⟩
  fed := h.fed
  rootLen := h.rootLen
  unfed := h.unfed
  isTerm := h.isTerm

theorem treeInv_new (g : Graph) {root : Nat} {T : List Nat} (hr : root ∉ T) : TreeInv g root (Tree.new root T) .new := by
  obtain ⟨h1, -, -, h2, h3, h4, -, h5⟩ := reach_all (Reach.new (g := g) (root := root) (T := T))
  exact ⟨h1, h2, h3, h4, h5 hr, fun n hn => Or.inl hn⟩

theorem TreeInv.run {g : Graph} {root inner outer : Nat} {t t' : Tree} {s s' : State} {pick : Nat → Nat} {b : Bool}
    (a : TreeInv g root t s) (h : run g inner outer pick t s = .done b t' s') :
    TreeInv g root t' s' ∧ Ext g t t' ∧ (b = true → ∀ x ∈ t'.terminals, x ∈ t'.nodes) := by
  have hd := run_done (fun e he => (a.tree.edge e he).2.2.1) h
  have he := hd.1.ext
  obtain ⟨⟨⟨⟨b1, b1'⟩, b2, new, c1, c2, c3, c4, c5, c6, c7⟩, -, b4, b5, b6, -⟩, d1, d2, -⟩ := hd
  obtain ⟨a1, a4, a5, a6, a8, a9⟩ := a
  have f5 : ∀ ix ∈ s'.rootFeeding, ∃ n, t'.terminals[ix]? = some n ∧ n ∈ t'.nodes := by
    intro ix hix
    rw [b1]
    by_cases hix' : ix ∈ s.rootFeeding
    · obtain ⟨n, e1, e2⟩ := a5 ix hix'
      exact ⟨n, e1, b2 n e2⟩
    · obtain ⟨n, e1, e2, -⟩ := b5 ix hix hix'
      exact ⟨n, e1, e2⟩
  refine ⟨⟨⟨b2 _ a1.start, ?_, ?_, ?_⟩, ?_, f5, ?_, ?_, ?_⟩, he, ?_⟩
  · intro e he
    rw [c1] at he
    rcases List.mem_append.1 he with he | he
    · obtain ⟨e1, e2, e3, e4⟩ := c4 e he
      refine ⟨?_, e2, e3, fun hr => e4 (hr ▸ a1.start)⟩
      simp only [Graph.usable, List.mem_filter, List.mem_range] at e1; exact e1.1
    · obtain ⟨e1, e2, e3, e4⟩ := a1.edge e he
      exact ⟨e1, b2 _ e2, b2 _ e3, e4⟩
  · intro e he e' he' hd
    rw [c1] at he he'
    rcases List.mem_append.1 he with he | he <;> rcases List.mem_append.1 he' with he' | he'
    · exact c5 e he e' he' hd
    · exact absurd (hd ▸ (a1.edge e' he').2.2.1) (c4 e he).2.2.2
    · exact absurd (hd ▸ (a1.edge e he).2.2.1) (c4 e' he').2.2.2
    · exact a1.one e he e' he' hd
  · intro n hn
    obtain ⟨a, ha, hp⟩ := c6 n hn
    exact ((a1.reach a ha).mono (fun e he => by rw [c1]; simp [he])).trans (hp.mono fun e he => by rw [c1]; simp [he])
  · intro n hn hne
    rw [b1]
    by_cases hn' : n ∈ t.nodes
    · obtain ⟨x, hx, hp⟩ := a4 n hn' hne
      exact ⟨x, hx, hp.mono fun e he => by rw [c1]; simp [he]⟩
    · obtain ⟨x, hx, hp⟩ := c7 n hn hn'
      exact ⟨x, hx, hp.mono fun e he => by rw [c1]; simp [he]⟩
  · rw [d1, b1]; omega
  · rintro n ⟨ix, hix, hf⟩ hn
    rw [b1] at hix
    exact a8 n ⟨ix, hix, fun h => hf (b4 ix h)⟩ (b6 ix n hix hf hn)
  · intro n hn
    rw [b1'] at hn
    rw [b1]
    rcases a9 n hn with h | h
    · exact Or.inl h
    · exact Or.inr (b2 n h)
  · rintro rfl x hx
    obtain ⟨ix, hlt, hix⟩ := List.getElem_of_mem hx
    have hf : ix ∈ s'.rootFeeding := by
      have := d2.symm
      simp only [State.isFull, List.all_eq_true, List.mem_range, List.contains_eq_mem, decide_eq_true_eq] at this
      refine this ix ?_
      rw [b1] at hlt
      omega
    obtain ⟨n, hn, hm⟩ := f5 ix hf
    rw [List.getElem?_eq_getElem hlt, hix] at hn
    cases hn
    exact hm

theorem extend_terms : ∀ (new : List Nat) (t : Tree),
    (∀ x ∈ new, x ∈ (new.foldl addTerminal t).isTerminal) ∧ (∀ x ∈ t.isTerminal, x ∈ (new.foldl addTerminal t).isTerminal) ∧
    (∀ x ∈ (new.foldl addTerminal t).isTerminal, x ∈ t.isTerminal ∨ x ∈ (new.foldl addTerminal t).terminals ∨ x ∈ t.nodes) ∧
    (∀ x ∈ t.terminals, x ∈ (new.foldl addTerminal t).terminals) ∧
    (∀ x ∈ (new.foldl addTerminal t).terminals, x ∈ t.terminals ∨ x ∈ new) := by
  intro new
  induction new with
  | nil => intro t; exact ⟨fun x h => (by cases h), fun _ h => h, fun _ h => Or.inl h, fun _ h => h, fun _ h => Or.inl h⟩
  | cons y new ih =>
    intro t
    obtain ⟨h1, h2, h3, h4, h5⟩ := ih (addTerminal t y)
    simp only [List.foldl_cons]
    have k1 : ∀ x ∈ t.isTerminal, x ∈ (addTerminal t y).isTerminal := by
      intro x hx; unfold addTerminal; (repeat' split) <;> simp [hx]
    have k2 : y ∈ (addTerminal t y).isTerminal := by
      unfold addTerminal
      split
      · next h => simpa using h
      · split <;> simp
    have k3 : ∀ x ∈ (addTerminal t y).isTerminal, x ∈ t.isTerminal ∨ x ∈ (addTerminal t y).terminals ∨ x ∈ t.nodes := by
      intro x hx
      unfold addTerminal at hx ⊢
      split at hx
      · exact Or.inl hx
      · next h =>
        rw [if_neg h]
        split at hx
        · next hn =>
          rcases List.mem_cons.1 hx with rfl | hx
          · exact Or.inr (Or.inr (by simpa using hn))
          · exact Or.inl hx
        · next hn =>
          rw [if_neg hn]
          rcases List.mem_cons.1 hx with rfl | hx
          · exact Or.inr (Or.inl (by simp))
          · exact Or.inl hx
    have k4 : ∀ x ∈ t.terminals, x ∈ (addTerminal t y).terminals := by
      intro x hx; unfold addTerminal; (repeat' split) <;> simp [hx]
    have k5 : ∀ x ∈ (addTerminal t y).terminals, x ∈ t.terminals ∨ x = y := by
      intro x hx
      unfold addTerminal at hx
      split at hx
      · exact Or.inl hx
      · split at hx
        · exact Or.inl hx
        · simpa using hx
    have k6 : (addTerminal t y).nodes = t.nodes := by unfold addTerminal; (repeat' split) <;> rfl
    refine ⟨?_, fun x hx => h2 x (k1 x hx), ?_, fun x hx => h4 x (k4 x hx), ?_⟩
    · intro x hx
      rcases List.mem_cons.1 hx with rfl | hx
      · exact h2 _ k2
      · exact h1 x hx
    · intro x hx
      rcases h3 x hx with h | h | h
      · rcases k3 x h with h | h | h
        · exact Or.inl h
        · exact Or.inr (Or.inl (h4 x h))
        · exact Or.inr (Or.inr h)
      · exact Or.inr (Or.inl h)
      · exact Or.inr (Or.inr (k6 ▸ h))
    · intro x hx
      rcases h5 x hx with h | h
      · rcases k5 x h with h | rfl
        · exact Or.inl h
        · exact Or.inr (by simp)
      · exact Or.inr (by simp [h])

theorem TreeInv.extend {g : Graph} {root : Nat} {t t' : Tree} {s : State} {new : List Nat} {go : Bool} (a : TreeInv g root t s)
    (h : t.extend new = (go, t')) :
    TreeInv g root t' s ∧ t'.nodes = t.nodes ∧ t'.edges = t.edges ∧ (∀ x ∈ new, x ∈ t'.isTerminal) ∧
      (∀ x ∈ t.isTerminal, x ∈ t'.isTerminal) ∧ (∀ x ∈ t.terminals, x ∈ t'.terminals) ∧
      (∀ x ∈ t'.terminals, x ∈ t.terminals ∨ x ∈ new) ∧ (go = false → t'.terminals = t.terminals) := by
  obtain ⟨e1, e2, -, l, e4, e5⟩ := extend_keep t new
  obtain ⟨h1, h2, h3, h4, h5⟩ := extend_terms new t
  have h' := congrArg Prod.snd h
  have hgo := congrArg Prod.fst h
  simp only at h' hgo
  have h'' : new.foldl addTerminal t = t' := h'
  rw [h''] at h1 h2 h3 h4 h5
  rw [h'] at e1 e2 e4
  obtain ⟨a1, a4, a5, a6, a8, a9⟩ := a
  refine ⟨⟨⟨e1 ▸ a1.start, ?_, e2 ▸ a1.one, ?_⟩, ?_, ?_, ?_, ?_, ?_⟩, e1, e2, h1, h2, h4, h5, ?_⟩
  · rw [e1, e2]; exact a1.edge
  · rw [e1, e2]; exact a1.reach
  · rw [e1, e2]
    intro n hn hr
    obtain ⟨x, hx, hp⟩ := a4 n hn hr
    exact ⟨x, h4 x hx, hp⟩
  · intro ix hix
    obtain ⟨n, b1, b2⟩ := a5 ix hix
    refine ⟨n, ?_, e1 ▸ b2⟩
    rw [e4, List.getElem?_append_left (List.getElem?_eq_some_iff.1 b1).1]
    exact b1
  · rw [e4]; simp; omega
  · rintro n ⟨ix, hix, hf⟩ hn
    rw [e4] at hix
    rw [e1] at hn
    by_cases hlt : ix < t.terminals.length
    · rw [List.getElem?_append_left hlt] at hix
      exact a8 n ⟨ix, hix, hf⟩ hn
    · rw [List.getElem?_append_right (by omega)] at hix
      exact e5 n (List.mem_of_getElem? hix) hn
  · intro n hn
    rcases h3 n hn with h | h | h
    · rcases a9 n h with h | h
      · exact Or.inl (h4 n h)
      · exact Or.inr (e1 ▸ h)
    · exact Or.inl h
    · exact Or.inr (e1 ▸ h)
  · rintro rfl
    have hlen : t'.terminals.length = t.terminals.length := by
      simpa [Tree.extend, h''] using hgo
    rw [e4] at hlen ⊢
    have : l = [] := List.eq_nil_of_length_eq_zero (by rw [List.length_append] at hlen; omega)
    simp [this]

/-- What holds of the tree and the requirements. -/
structure Inv (inp : Input) (root : Nat) (T : List Nat) (t : Tree) (s : State) (st : St) : Prop where
  ti : TreeInv inp.graph root t s
  same : Same inp.graph st.inp.graph
  byEdge : st.inp.byEdge = inp.byEdge
  subN : ∀ f ∈ st.inp.byNode, f ∈ inp.byNode
  subR : ∀ r ∈ st.inp.byReq, r ∈ inp.byReq
  doneN : ∀ f ∈ inp.byNode, f ∈ st.inp.byNode ∨ (∀ x ∈ f.req, x ∈ t.isTerminal) ∧ ∀ x ∈ f.space, x ∈ st.inp.space
  doneR : ∀ r ∈ inp.byReq, r ∈ st.inp.byReq ∨ (∀ x ∈ r.req, x ∈ t.isTerminal) ∧ ∀ x ∈ r.space, x ∈ st.inp.space
  terms : st.terms = []
  spaceTerms : st.spaceTerms = []
  src : ∀ x ∈ t.terminals, x ∈ T ∨ (∃ f ∈ inp.byNode, f.key ∈ t.nodes ∧ x ∈ f.req) ∨
    ∃ r ∈ inp.byReq, (∃ p ∈ r.deps, p.1 ∈ t.edges) ∧ x ∈ r.req
  srcS : ∀ x ∈ st.inp.space, x ∈ inp.space ∨ (∃ f ∈ inp.byNode, f.key ∈ t.nodes ∧ x ∈ f.space) ∨
    ∃ r ∈ inp.byReq, (∃ p ∈ r.deps, p.1 ∈ t.edges) ∧ x ∈ r.space
  keepT : ∀ x ∈ T, x ∈ t.terminals
  keepS : ∀ x ∈ inp.space, x ∈ st.inp.space

theorem inv_new (inp : Input) {root : Nat} {T : List Nat} (hr : root ∉ T) (flac : State) (o : Option Bool) (b : Bool) :
    Inv inp root T (Tree.new root T) .new ⟨inp, o, [], [], flac, b⟩ :=
  ⟨treeInv_new _ hr, Same.refl _, rfl, fun _ h => h, fun _ h => h, fun _ h => Or.inl h, fun _ h => Or.inl h, rfl, rfl,
    fun _ h => Or.inl h, fun _ h => Or.inl h, fun _ h => h, fun _ h => h⟩

theorem Inv.run {inp : Input} {root inner outer : Nat} {T : List Nat} {t t' : Tree} {s s' : State} {st : St} {pick : Nat → Nat} {b : Bool}
    (a : Inv inp root T t s st) (h : run st.inp.graph inner outer pick t s = .done b t' s') :
    Inv inp root T t' s' st ∧ Ext st.inp.graph t t' ∧ (b = true → ∀ x ∈ t'.terminals, x ∈ t'.nodes) := by
  obtain ⟨h1, h2, h3⟩ := (a.ti.same a.same).run h
  refine ⟨⟨h1.same a.same.symm, a.same, a.byEdge, a.subN, a.subR, ?_, ?_, a.terms, a.spaceTerms, ?_, ?_, ?_, a.keepS⟩, h2, h3⟩
  · rw [h2.terminals.2]; exact a.doneN
  · rw [h2.terminals.2]; exact a.doneR
  · rw [h2.terminals.1]
    obtain ⟨new, hnew, -⟩ := h2.edges
    intro x hx
    rcases a.src x hx with h | ⟨f, k1, k2, k3⟩ | ⟨r, k1, ⟨p, k2, k3⟩, k4⟩
    · exact Or.inl h
    · exact Or.inr (Or.inl ⟨f, k1, h2.nodes _ k2, k3⟩)
    · exact Or.inr (Or.inr ⟨r, k1, ⟨p, k2, by rw [hnew]; simp [k3]⟩, k4⟩)
  · obtain ⟨new, hnew, -⟩ := h2.edges
    intro x hx
    rcases a.srcS x hx with h | ⟨f, k1, k2, k3⟩ | ⟨r, k1, ⟨p, k2, k3⟩, k4⟩
    · exact Or.inl h
    · exact Or.inr (Or.inl ⟨f, k1, h2.nodes _ k2, k3⟩)
    · exact Or.inr (Or.inr ⟨r, k1, ⟨p, k2, by rw [hnew]; simp [k3]⟩, k4⟩)
  · rw [h2.terminals.1]; exact a.keepT

theorem Inv.fixedPoint {c : Cfg} {inp : Input} {root : Nat} {T : List Nat} {t t' : Tree} {s : State} {st st' : St} {go : Bool}
    (a : Inv inp root T t s st) (h : fixedPoint c t st = .ok (go, t', st')) :
    Inv inp root T t' s st' ∧ Clear t' st' ∧ t'.nodes = t.nodes ∧ t'.edges = t.edges ∧ (go = false → t'.terminals = t.terminals) ∧
      (go = true → st'.inp.byNode.length + st'.inp.byReq.length < st.inp.byNode.length + st.inp.byReq.length) ∧
      st'.inp.byNode.length + st'.inp.byReq.length ≤ st.inp.byNode.length + st.inp.byReq.length := by
  obtain ⟨s1, b, cl, he, hi, h1, h2⟩ := fixedPoint_spec h
  obtain ⟨k1, k2, k3, k4, k5, k6, k7, k8⟩ := a.ti.extend he
  have i1 : st'.inp.graph = s1.inp.graph := by rw [hi]
  have i2 : st'.inp.byNode = s1.inp.byNode := by rw [hi]
  have i3 : st'.inp.byEdge = s1.inp.byEdge := by rw [hi]
  have i4 : st'.inp.byReq = s1.inp.byReq := by rw [hi]
  have i5 : st'.inp.space = s1.inp.space ++ s1.spaceTerms := by rw [hi]
  refine ⟨⟨k1, ?_, ?_, ?_, ?_, ?_, ?_, h1, h2, ?_, ?_, ?_, ?_⟩, ?_, k2, k3, k8, ?_, ?_⟩
  · rw [i1]; exact a.same.trans b.same
  · rw [i3, b.byEdge]; exact a.byEdge
  · rw [i2]; exact fun f hf => a.subN f (b.subN f hf)
  · rw [i4]; exact fun f hf => a.subR f (b.subR f hf)
  · rw [i2, i5]
    intro f hf
    rcases a.doneN f hf with h | ⟨h, h'⟩
    · rcases b.doneN f h with h | ⟨h, h'⟩
      · exact Or.inl h
      · exact Or.inr ⟨fun x hx => k4 x (h x hx), fun x hx => List.mem_append_right _ (h' x hx)⟩
    · exact Or.inr ⟨fun x hx => k5 x (h x hx), fun x hx => List.mem_append_left _ (b.space ▸ h' x hx)⟩
  · rw [i4, i5]
    intro f hf
    rcases a.doneR f hf with h | ⟨h, h'⟩
    · rcases b.doneR f h with h | ⟨h, h'⟩
      · exact Or.inl h
      · exact Or.inr ⟨fun x hx => k4 x (h x hx), fun x hx => List.mem_append_right _ (h' x hx)⟩
    · exact Or.inr ⟨fun x hx => k5 x (h x hx), fun x hx => List.mem_append_left _ (b.space ▸ h' x hx)⟩
  · rw [k2, k3]
    intro x hx
    rcases k7 x hx with h | h
    · exact a.src x h
    · rcases b.terms x h with h | ⟨f, j1, j2⟩ | ⟨r, j1, j2⟩
      · rw [a.terms] at h; cases h
      · exact Or.inr (Or.inl ⟨f, a.subN f j1, j2⟩)
      · exact Or.inr (Or.inr ⟨r, a.subR r j1, j2⟩)
  · rw [k2, k3, i5]
    intro x hx
    rcases List.mem_append.1 hx with h | h
    · exact a.srcS x (b.space ▸ h)
    · rcases b.fromS x h with h | ⟨f, j1, j2⟩ | ⟨r, j1, j2⟩
      · rw [a.spaceTerms] at h; cases h
      · exact Or.inr (Or.inl ⟨f, a.subN f j1, j2⟩)
      · exact Or.inr (Or.inr ⟨r, a.subR r j1, j2⟩)
  · exact fun x hx => k6 x (a.keepT x hx)
  · rw [i5, b.space]; exact fun x hx => List.mem_append_left _ (a.keepS x hx)
  · unfold Clear; rw [i2, i3, i4, k2, k3]; exact cl
  · rintro rfl
    rw [i2, i4]
    refine b.less fun hnil => ?_
    rw [a.terms] at hnil
    rw [hnil] at he
    simp [Tree.extend] at he
  · rw [i2, i4]; exact b.count

theorem Inv.execute {c : Cfg} {inp : Input} {root : Nat} {T : List Nat} : ∀ {n : Nat} {t t' : Tree} {s : State} {st st' : St},
    Inv inp root T t s st → execute c n t s st = .ok (t', st') →
    ∃ s', Inv inp root T t' s' st' ∧ Clear t' st' ∧ ∀ x ∈ t'.terminals, x ∈ t'.nodes := by
  intro n
  induction n with
  | zero => intro t t' s st st' a h; cases h
  | succ n ih =>
    intro t t' s st st' a h
    rw [execute.eq_def] at h
    simp only at h
    cases hr : Flac.run st.inp.graph c.inner c.outer (c.pick st.inp.graph t s 0) t s with
    | panic => rw [hr] at h; cases h
    | timeout => rw [hr] at h; cases h
    | done b t1 s1 =>
      rw [hr] at h
      simp only at h
      obtain ⟨a1, -, a3⟩ := a.run hr
      obtain ⟨⟨go, t2, st2⟩, h2, h⟩ := Out.bind_ok h
      obtain ⟨d1, d2, d3, d4, d5, -⟩ := a1.fixedPoint h2
      simp only at h
      split at h
      · next hk =>
        simp only [Bool.and_eq_true, Bool.not_eq_true'] at hk
        simp only [Out.ok.injEq, Prod.mk.injEq] at h
        obtain ⟨rfl, rfl⟩ := h
        refine ⟨s1, d1, d2, ?_⟩
        rw [d5 hk.1, d3]
        exact a3 hk.2
      · exact ih d1 h

theorem inv_start {c : Cfg} {inp : Input} {root : Nat} {T : List Nat} {t t' : Tree} {s : State} {st st' : St}
    (a : Inv inp root T t s st) (h : start c t st = .ok (t', st')) : Inv inp root T t' s st' := by
  unfold start at h
  split at h
  · simp only [Out.ok.injEq, Prod.mk.injEq] at h
    obtain ⟨rfl, rfl⟩ := h
    exact ⟨a.ti, a.same, a.byEdge, a.subN, a.subR, a.doneN, a.doneR, a.terms, a.spaceTerms, a.src, a.srcS, a.keepT, a.keepS⟩
  · obtain ⟨⟨go, t1, s1⟩, h1, h⟩ := Out.bind_ok h
    simp only [Out.ok.injEq, Prod.mk.injEq] at h
    obtain ⟨rfl, rfl⟩ := h
    exact (a.fixedPoint h1).1

/-- An iteration of `execute`; the flag says whether it is the last one. -/
def Turn (c : Cfg) (a b : Tree × State × St) (last : Bool) : Prop :=
  ∃ pick done go t1, run a.2.2.inp.graph c.inner c.outer pick a.1 a.2.1 = .done done t1 b.2.1 ∧
    fixedPoint c t1 a.2.2 = .ok (go, b.1, b.2.2) ∧ last = (!go && done)

/-- What can be come to. -/
inductive Session (c : Cfg) (inp : Input) (root : Nat) (T : List Nat) : Tree × State × St → Prop
  | start {t st} : start c (Tree.new root T) ⟨inp, none, [], [], .new, false⟩ = .ok (t, st) → Session c inp root T (t, .new, st)
  | turn {a b last} : Session c inp root T a → Turn c a b last → Session c inp root T b

end Verif.Updater
