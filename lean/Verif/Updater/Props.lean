import Verif.Updater.Estimate
/-!
# C63: requirements become terminals
-/
namespace Verif.Updater

open Verif.Flac

variable {c : Cfg} {n root : Nat} {T : List Nat} {inp inp' : Input} {t t' : Tree} {st st' : St} {s : State}

theorem solve_inv (hr : root ∉ T) (hne : T ≠ []) (h : solve c n inp (Tree.new root T) = .ok (t', inp')) :
    ∃ s' st', inp' = st'.inp ∧ Inv inp root T t' s' st' ∧ Clear t' st' ∧ ∀ x ∈ t'.terminals, x ∈ t'.nodes := by
  unfold solve at h
  rw [if_neg (show (Tree.new root T).terminals ≠ [] from hne)] at h
  obtain ⟨⟨t1, st1⟩, h1, h⟩ := Out.bind_ok h
  obtain ⟨⟨t2, st2⟩, h2, h⟩ := Out.bind_ok h
  simp only [Out.ok.injEq, Prod.mk.injEq] at h
  obtain ⟨rfl, rfl⟩ := h
  obtain ⟨s', k1, k2, k3⟩ := Inv.execute (inv_start (inv_new inp hr _ _ _) h1) h2
  exact ⟨s', st2, rfl, k1, k2, k3⟩

/-- A solution is a tree of the graph with every terminal, and nothing in it is superfluous. -/
theorem C63_tree (hr : root ∉ T) (hne : T ≠ []) (h : solve c n inp (Tree.new root T) = .ok (t', inp')) :
    IsTree inp.graph root t' ∧ (∀ x ∈ T, x ∈ t'.nodes) ∧
      ∀ a ∈ t'.nodes, a ≠ root → ∃ x ∈ t'.terminals, Path inp.graph t'.edges a x := by
  obtain ⟨s', st', -, k1, -, k3⟩ := solve_inv hr hne h
  exact ⟨k1.ti.tree, fun x hx => k3 x (k1.keepT x hx), k1.ti.useful⟩

/-- What a solution contains has its requirements: of a chosen node, and of a chosen edge. -/
theorem C63_required (hr : root ∉ T) (hne : T ≠ []) (h : solve c n inp (Tree.new root T) = .ok (t', inp')) :
    (∀ f ∈ inp.byNode, f.key ∈ t'.nodes → (∀ x ∈ f.req, x ∈ t'.nodes) ∧ ∀ x ∈ f.space, x ∈ inp'.space) ∧
    (∀ f ∈ inp.byEdge, f.key ∉ t'.edges) ∧
    ∀ r ∈ inp.byReq, (∃ p ∈ r.deps, p.1 ∈ t'.edges) → (∀ x ∈ r.req, x ∈ t'.nodes) ∧ ∀ x ∈ r.space, x ∈ inp'.space := by
  obtain ⟨s', st', rfl, k1, ⟨c1, c2, c3⟩, k3⟩ := solve_inv hr hne h
  have hin : ∀ x ∈ t'.isTerminal, x ∈ t'.nodes := fun x hx => (k1.ti.isTerm x hx).elim (k3 x) id
  refine ⟨fun f hf hk => ?_, ?_, fun r hm ⟨p, hp, hpe⟩ => ?_⟩
  · rcases k1.doneN f hf with h | ⟨h1, h2⟩
    · exact absurd hk (c1 f h)
    · exact ⟨fun x hx => hin x (h1 x hx), h2⟩
  · rw [k1.byEdge] at c2; exact c2
  · rcases k1.doneR r hm with h | ⟨h1, h2⟩
    · exact absurd hpe (c3 r h p hp)
    · exact ⟨fun x hx => hin x (h1 x hx), h2⟩

/-- Every terminal is one of the operation or required by what was chosen. -/
theorem C63_only (hr : root ∉ T) (hne : T ≠ []) (h : solve c n inp (Tree.new root T) = .ok (t', inp')) :
    (∀ x ∈ t'.terminals, x ∈ T ∨ (∃ f ∈ inp.byNode, f.key ∈ t'.nodes ∧ x ∈ f.req) ∨
      ∃ r ∈ inp.byReq, (∃ p ∈ r.deps, p.1 ∈ t'.edges) ∧ x ∈ r.req) ∧
    ∀ x, x ∈ inp'.space ↔ x ∈ inp.space ∨ (∃ f ∈ inp.byNode, f.key ∈ t'.nodes ∧ x ∈ f.space) ∨
      ∃ r ∈ inp.byReq, (∃ p ∈ r.deps, p.1 ∈ t'.edges) ∧ x ∈ r.space := by
  obtain ⟨h1, -, h3⟩ := C63_required hr hne h
  obtain ⟨s', st', rfl, k1, -, -⟩ := solve_inv hr hne h
  refine ⟨k1.src, fun x => ⟨k1.srcS x, ?_⟩⟩
  rintro (h | ⟨f, a, b, d⟩ | ⟨r, a, b, d⟩)
  · exact k1.keepS x h
  · exact (h1 f a b).2 x d
  · exact (h3 r a b).2 x d

/-- Without a path to a terminal there is no solution. -/
theorem C63_unreachable (hr : root ∉ T) {x : Nat} (hx : x ∈ T) (hp : ¬ Path inp.graph (List.range inp.graph.edges.length) root x) :
    solve c n inp (Tree.new root T) ≠ .ok (t', inp') := by
  intro h
  obtain ⟨h1, h2, -⟩ := C63_tree hr (List.ne_nil_of_mem hx) h
  exact hp ((h1.reach x (h2 x hx)).mono fun e he => List.mem_range.2 (h1.edge e he).1)

/-- Once an edge with free requirements is chosen the update panics. -/
theorem C63_edges : (∃ f ∈ st.inp.byEdge, f.key ∈ t.edges) → generate c t st = .panic := by
  intro ⟨f, hf, hk⟩
  unfold generate
  obtain ⟨a1, -⟩ := freeNodes_spec (t := t) (n := st.inp.byNode.length + 1) (i := 0) (st := st) (by omega) (fun j hj => by omega)
  generalize freeNodes t (st.inp.byNode.length + 1) 0 st = s1 at *
  rcases freeEdges_spec (t := t) (n := s1.inp.byEdge.length + s1.inp.byNode.length + 2) (i := 0) (st := s1) (by omega) (by omega)
    (fun j hj => by omega) with ⟨b1, -⟩ | ⟨-, b2⟩
  · exact absurd hk (b1 f (by rw [a1.byEdge]; exact hf))
  · simp only [b2, Out.bind]

/-- Without requirements by edge in the tree, and by cost, an update does not panic. -/
theorem C63_free (h1 : ∀ f ∈ st.inp.byEdge, f.key ∉ t.edges) (h2 : st.inp.byReq = []) :
    ∃ st', generate c t st = .ok st' ∧ st'.inp.graph = st.inp.graph ∧ st'.changed = st.changed := by
  unfold generate
  obtain ⟨a1, -, a3, a4, a5, -⟩ := freeNodes_spec (t := t) (n := st.inp.byNode.length + 1) (i := 0) (st := st) (by omega) (fun j hj => by omega)
  generalize freeNodes t (st.inp.byNode.length + 1) 0 st = s1 at *
  rcases freeEdges_spec (t := t) (n := s1.inp.byEdge.length + s1.inp.byNode.length + 2) (i := 0) (st := s1) (by omega) (by omega)
    (fun j hj => by omega) with ⟨-, b2⟩ | ⟨⟨f, hf, hk⟩, -⟩
  · refine ⟨s1, ?_, a4, a5⟩
    simp only [b2, Out.bind]
    rw [reqs.eq_def]
    simp [a3, h2]
  · exact absurd hk (h1 f (a1.byEdge ▸ hf))

/-- An estimate is, modulo 2^16, the weight of edges that connect the required nodes to the tree or to the
unavoidable parents; each of these is needed. -/
theorem C63_estimate {g : Graph} {flac flac' : State} {up req : List Nat} {w : Nat} (he : Ends g t)
    (h : estimate c g t flac up req = .ok (w, flac')) : ∃ new, Estimate g t up req new ∧ w % 65536 = g.sum new % 65536 :=
  (estimate_spec he h).1

/-- It is zero if they are there. -/
theorem C63_zero {g : Graph} {flac : State} {up req : List Nat} (h : ∀ x ∈ req, x ∈ t.nodes) :
    estimate c g t flac up req = .ok (0, flac.reset) := by
  obtain ⟨-, -, -, k4, -, k6⟩ := cloneWith_spec t req
  unfold estimate
  rcases hc : t.cloneWith req with ⟨go, tmp⟩
  rw [hc] at k4 k6
  have hnil : tmp.terminals = [] := by
    rw [List.eq_nil_iff_forall_not_mem]
    intro x hx
    obtain ⟨a, b⟩ := (k4 x).1 hx
    exact b (h x a)
  cases go with
  | true => exact absurd hnil (k6.1 rfl)
  | false => rfl

/-- The number of required nodes outside of the tree. -/
theorem terminals_length {req l : List Nat} (hn : l.Nodup) (hl : ∀ x, x ∈ l ↔ x ∈ req ∧ x ∉ t.nodes) :
    (t.cloneWith req).2.terminals.length = l.length := by
  obtain ⟨-, -, -, k4, k5, -⟩ := cloneWith_spec t req
  exact ((List.perm_ext_iff_of_nodup k5 hn).2 fun x => by rw [k4, hl]).length_eq

/-- An estimate for fewer nodes outside of the tree than an earlier one panics. -/
theorem C63_estimate_panics {g g' : Graph} {flac flac1 : State} {up up' req req' l l' : List Nat} {w : Nat} (he : Ends g t)
    (h : estimate c g t flac up req = .ok (w, flac1))
    (hl : l.Nodup ∧ ∀ x, x ∈ l ↔ x ∈ req ∧ x ∉ t.nodes) (hl' : l'.Nodup ∧ ∀ x, x ∈ l' ↔ x ∈ req' ∧ x ∉ t.nodes)
    (h0 : l' ≠ []) (hlt : l'.length < l.length) (hc : c.rounds ≠ 0) : estimate c g' t flac1 up' req' = .panic := by
  obtain ⟨-, -, h3⟩ := estimate_spec he h
  have e1 := terminals_length hl.1 hl.2
  have e2 := terminals_length hl'.1 hl'.2
  have k6 := (cloneWith_spec t req).2.2.2.2.2
  have hgo : (t.cloneWith req).1 = true := k6.2 fun hn => by rw [hn] at e1; simp at e1; omega
  have hlen := h3 hgo
  rw [e1] at hlen
  have k6' := (cloneWith_spec t req').2.2.2.2.2
  have hgo' : (t.cloneWith req').1 = true := k6'.2 fun hn => by
    rw [hn] at e2; exact h0 (List.eq_nil_of_length_eq_zero e2.symm)
  unfold estimate
  rcases hcl : t.cloneWith req' with ⟨go, tmp⟩
  rw [hcl] at hgo' e2
  simp only at hgo' e2
  subst hgo'
  obtain ⟨p1, -⟩ := addParents (g := g') up' tmp
  simp only [Bool.not_true, Bool.false_eq_true, if_false]
  generalize up'.foldl (addParent g') tmp = tmp' at *
  obtain ⟨m, hm⟩ := Nat.exists_eq_succ_of_ne_zero hc
  rw [hm]
  unfold greedy
  rw [C62_reset_panics (by rw [p1, e2]; omega)]

/-- An estimate for a node that is an unavoidable parent, and not in the tree, never ends. -/
theorem C63_estimate_forever {g : Graph} {flac flac' : State} {up req : List Nat} {w x : Nat} (he : Ends g t)
    (hx : x ∈ req) (hn : x ∉ t.nodes) (hu : x ∈ up.map g.dst) : estimate c g t flac up req ≠ .ok (w, flac') :=
  fun h => (estimate_spec he h).2.1 x hx hn hu

theorem generate_reqs (h : generate c t st = .ok st') : ∃ s1, s1.inp.byReq = st.inp.byReq ∧ s1.inp.graph = st.inp.graph ∧
    s1.changed = st.changed ∧ s1.flac = st.flac ∧ reqs c t (s1.inp.byReq.length + 1) 0 s1 = .ok st' := by
  unfold generate at h
  obtain ⟨a1, a2, a3, a4, a5, a6⟩ := freeNodes_spec (t := t) (n := st.inp.byNode.length + 1) (i := 0) (st := st) (by omega) (fun j hj => by omega)
  generalize freeNodes t (st.inp.byNode.length + 1) 0 st = s1 at *
  simp only at h
  obtain ⟨s2, h2, h⟩ := Out.bind_ok h
  rcases freeEdges_spec (t := t) (n := s1.inp.byEdge.length + s1.inp.byNode.length + 2) (i := 0) (st := s1) (by omega) (by omega)
    (fun j hj => by omega) with ⟨b1, b2⟩ | ⟨-, b2⟩
  · rw [b2] at h2
    cases h2
    exact ⟨s1, a3, a4, a5, a6, h⟩
  · rw [b2] at h2; cases h2

theorem generate_weights (hd : Deps st) (h : generate c t st = .ok st') :
    (∀ r ∈ st'.inp.byReq, r.req ≠ [] → Weighed c t st' r) ∧
    (∀ r ∈ st.inp.byReq, r ∉ st'.inp.byReq → ∀ p ∈ r.deps, p.1 ∉ t.edges → st'.inp.graph.weight p.1 = p.2) ∧
    (∀ e, (∀ r ∈ st.inp.byReq, ∀ p ∈ r.deps, p.1 = e → e ∈ t.edges) → st'.inp.graph.weight e = st.inp.graph.weight e) := by
  obtain ⟨s1, k1, k2, -, -, h⟩ := generate_reqs h
  exact reqs_weights (st0 := st) (by omega) hd (by rw [k1]; exact fun _ h => h) (by rw [k2]) (fun j hj => by omega) (fun j hj => by omega)
    (fun r hr hn => absurd (k1 ▸ hr) hn) (fun e _ => by rw [k2]) h

/-- After an update the edges with requirements have their inherent weight and, modulo 2^16, an estimate for
them; the others of a chosen edge's requirements have their inherent weight; nothing else changes. -/
theorem C63_weights (he : Ends st.inp.graph t) (hd : Deps st) (h : generate c t st = .ok st') :
    (∀ r ∈ st'.inp.byReq, r.req ≠ [] → ∃ g' new, Same st.inp.graph g' ∧ Estimate g' t r.up r.req new ∧
      ∀ p ∈ r.deps, st'.inp.graph.weight p.1 = (p.2 + g'.sum new) % 65536) ∧
    (∀ r ∈ st.inp.byReq, (∃ p ∈ r.deps, p.1 ∈ t.edges) → ∀ p ∈ r.deps, p.1 ∉ t.edges → st'.inp.graph.weight p.1 = p.2) ∧
    (∀ e, (∀ r ∈ st.inp.byReq, ∀ p ∈ r.deps, p.1 = e → e ∈ t.edges) → st'.inp.graph.weight e = st.inp.graph.weight e) ∧
    Same st.inp.graph st'.inp.graph := by
  obtain ⟨h1, h2, h3⟩ := generate_weights hd h
  obtain ⟨s1, cl⟩ := generate_spec h
  refine ⟨fun r hr hne => ?_, fun r hr ⟨p, hp, hpe⟩ => h2 r hr fun hm => cl.2.2 r hm p hp hpe, h3, s1.same⟩
  obtain ⟨g', f1, f2, w, b1, -, b2, b3⟩ := h1 r hr hne
  have hs := s1.same.trans b1
  have he' : Ends g' t := fun e hm => by rw [(hs.2 e).2]; exact he e hm
  obtain ⟨new, n1, n2⟩ := C63_estimate he' b2
  exact ⟨g', new, hs, n1, fun p hp => by rw [b3 p hp]; omega⟩

theorem rounds_last : ∀ {m i k : Nat} {st st' : St}, st.changed = false → rounds c t m i st = .ok (k, st') →
    ∃ s1 s2, Step t st s1 ∧ s1.changed = false ∧ generate c t s1 = .ok s2 ∧ st' = { s2 with changed := false } ∧
      (s2.changed = false ∨ st.independent.getD false = true) ∧ i < k ∧ k ≤ i + m ∧ (k = i + 1 → s1 = st) := by
  intro m
  induction m with
  | zero => intro i k st st' _ h; cases h
  | succ m ih =>
    intro i k st st' hc h
    rw [rounds.eq_def] at h
    simp only at h
    obtain ⟨s2, h1, h⟩ := Out.bind_ok h
    obtain ⟨a1, -⟩ := generate_spec h1
    split at h
    · next hk =>
      simp only [Out.ok.injEq, Prod.mk.injEq] at h
      refine ⟨st, s2, Step.refl _ _, hc, h1, h.2.symm, ?_, by omega, by omega, fun _ => rfl⟩
      simp only [Bool.or_eq_true_iff, Bool.not_eq_true'] at hk
      rw [← a1.independent]
      exact hk
    · split at h
      · cases h
      · have a3 : Step t s2 { s2 with changed := false } := step_of (Same.refl _) rfl rfl rfl rfl rfl rfl rfl
        obtain ⟨s3, s4, b1, b2, b3, b4, b5, b6, b7, -⟩ := ih (st := { s2 with changed := false }) rfl h
        refine ⟨s3, s4, (a1.trans a3).trans b1, b2, b3, b4, ?_, by omega, by omega, fun hk => by omega⟩
        rw [← a1.independent]
        exact b5

theorem Deps.step {a b : St} (h : Deps a) (hs : Step t a b) : Deps b where
  lt r hr p hp := by rw [hs.same.1]; exact h.lt r (hs.subR r hr) p hp
  nodup r hr := h.nodup r (hs.subR r hr)
  disjoint r hr r' hr' := h.disjoint r (hs.subR r hr) r' (hs.subR r' hr')

/-- Unless requirements are taken to be independent the weights are stable: each is the inherent one with an
estimate from these weights. -/
theorem C63_stable {go : Bool} (he : Ends st.inp.graph t) (hd : Deps st) (hi : st.independent ≠ some true)
    (h : fixedPoint c t st = .ok (go, t', st')) :
    ∀ r ∈ st'.inp.byReq, r.req ≠ [] → ∃ new, Estimate st'.inp.graph t r.up r.req new ∧
      ∀ p ∈ r.deps, st'.inp.graph.weight p.1 = (p.2 + st'.inp.graph.sum new) % 65536 := by
  unfold fixedPoint at h
  obtain ⟨⟨i, s3⟩, h1, h⟩ := Out.bind_ok h
  simp only [Out.ok.injEq, Prod.mk.injEq] at h
  obtain ⟨-, -, h4⟩ := h
  have hg : st'.inp.graph = s3.inp.graph := by rw [← h4]
  have hr : st'.inp.byReq = s3.inp.byReq := by rw [← h4]
  obtain ⟨s1, s2, a1, a2, a3, a4, a5, -⟩ := rounds_last (st := { st with changed := false }) rfl h1
  have hch : s2.changed = false := by
    rcases a5 with h | h
    · exact h
    · exfalso
      simp only at h
      cases ho : st.independent with
      | none => rw [ho] at h; cases h
      | some b => rw [ho] at h hi; simp only [Option.getD_some] at h; subst h; exact hi rfl
  have hg2 : s3.inp.graph = s2.inp.graph := by rw [a4]
  have hr2 : s3.inp.byReq = s2.inp.byReq := by rw [a4]
  have hd1 : Deps s1 := Deps.step (a := { st with changed := false }) ⟨hd.lt, hd.nodup, hd.disjoint⟩ a1
  have hs1 : Same st.inp.graph s1.inp.graph := a1.same
  obtain ⟨w1, -, -⟩ := generate_weights hd1 a3
  obtain ⟨b1, -⟩ := generate_spec a3
  have hs := hs1.trans b1.same
  rw [hg, hr, hg2, hr2]
  intro r hm hne
  obtain ⟨g', f1, f2, w, -, b0, b2, b3⟩ := w1 r hm hne
  rw [b0 hch] at b2
  have he' : Ends s2.inp.graph t := fun e hm => by rw [(hs.2 e).2]; exact he e hm
  obtain ⟨new, n1, n2⟩ := C63_estimate he' b2
  exact ⟨new, n1, fun p hp => by rw [b3 p hp]; omega⟩

theorem session_inv (hr : root ∉ T) {a : Tree × State × St} (h : Session c inp root T a) : Inv inp root T a.1 a.2.1 a.2.2 := by
  induction h with
  | start h => exact inv_start (inv_new inp hr _ _ _) h
  | turn _ h ih =>
    obtain ⟨pick, d, go, t1, h1, h2, -⟩ := h
    exact ((ih.run h1).1.fixedPoint h2).1

/-- Every iteration that is not the last one makes a requirement mandatory, or connects a terminal, or
there is a terminal to which no usable edges lead. -/
theorem C63_progress (hr : root ∉ T) {a b : Tree × State × St} (hs : Session c inp root T a) (h : Turn c a b false) :
    (b.2.2.inp.byNode.length + b.2.2.inp.byReq.length < a.2.2.inp.byNode.length + a.2.2.inp.byReq.length) ∨
    (b.1.terminals = a.1.terminals ∧ (∀ ix ∈ a.2.1.rootFeeding, ix ∈ b.2.1.rootFeeding) ∧
      ∃ ix ∈ b.2.1.rootFeeding, ix ∉ a.2.1.rootFeeding ∧ ∃ x, a.1.terminals[ix]? = some x ∧ x ∈ b.1.nodes ∧ x ∉ a.1.nodes) ∨
    ∃ x ∈ a.1.terminals, x ∉ b.1.nodes ∧ ¬ Path a.2.2.inp.graph a.2.2.inp.graph.usable root x := by
  have hi := session_inv hr hs
  obtain ⟨t, s, st⟩ := a
  obtain ⟨t2, s1, st2⟩ := b
  obtain ⟨pick, d, go, t1, h1, h2, hk⟩ := h
  simp only at hi h1 h2 hk ⊢
  obtain ⟨i1, i2, -⟩ := hi.run h1
  obtain ⟨j1, -, j2, -, j4, j3, -⟩ := i1.fixedPoint h2
  cases go with
  | true => exact Or.inl (j3 rfl)
  | false =>
    have hb : d = false := by simpa using hk
    subst hb
    right
    have ti := hi.ti.same hi.same
    obtain ⟨h1, h2, h3, h4⟩ := run_done (fun e he => (ti.tree.edge e he).2.2.1) h1
    rcases h4 with ⟨ix, k1, k2⟩ | ⟨k1, k2, k3⟩
    · left
      obtain ⟨x, q1, q2, q3⟩ := h1.fed ix k1 k2
      exact ⟨(j4 rfl).trans h1.ext.terminals.1, h1.keep, ix, k1, k2, x, q1, j2 ▸ q2, q3⟩
    · right
      have h3 := h3.symm
      rw [State.isFull, List.all_eq_false] at h3
      obtain ⟨ix, hix, hnf⟩ := h3
      simp only [List.mem_range] at hix
      have hl := ti.rootLen
      have hlt : ix < t.terminals.length := by omega
      have hnf : ix ∉ s.rootFeeding := by rw [← k2]; simpa using hnf
      have hx : t.terminals[ix]? = some t.terminals[ix] := List.getElem?_eq_getElem hlt
      have hout := ti.unfed _ ⟨ix, hx, hnf⟩
      exact ⟨_, List.getElem_mem hlt, by rw [j2, k1]; exact hout,
        fun hp => k3 ix _ hx hnf hout ⟨root, ti.tree.start, hp⟩⟩

/-- So it ends, if usable edges always lead to every terminal. -/
theorem C63_ends (hr : root ∉ T) (f : Nat → Tree × State × St) (h0 : Session c inp root T (f 0)) (ht : ∀ i, Turn c (f i) (f (i + 1)) false) :
    ∃ i, ∃ x ∈ (f i).1.terminals, x ∉ (f i).1.nodes ∧ ¬ Path (f i).2.2.inp.graph (f i).2.2.inp.graph.usable root x := by
  have hs : ∀ i, Session c inp root T (f i) := by
    intro i
    induction i with
    | zero => exact h0
    | succ i ih => exact .turn ih (ht i)
  refine Classical.byContradiction fun hno => ?_
  have key : ∀ m k i, (f i).2.2.inp.byNode.length + (f i).2.2.inp.byReq.length < m → left (f i).1 (f i).2.1 < k → False := by
    intro m
    induction m with
    | zero => intro k i h; omega
    | succ m ihm =>
      intro k
      induction k with
      | zero => intro i _ h; omega
      | succ k ihk =>
        intro i h1 h2
        rcases C63_progress hr (hs i) (ht i) with h | ⟨e1, e2, ix, e3, e4, x, e5, -⟩ | ⟨x, e1, e2, e3⟩
        · exact ihm (left (f (i + 1)).1 (f (i + 1)).2.1 + 1) (i + 1) (by omega) (by omega)
        · have hlt := left_lt e1 e2 e3 e4 (List.getElem?_eq_some_iff.1 e5).1
          have hle : (f (i + 1)).2.2.inp.byNode.length + (f (i + 1)).2.2.inp.byReq.length ≤
              (f i).2.2.inp.byNode.length + (f i).2.2.inp.byReq.length := by
            obtain ⟨pick, d, go, t1, k1, k2, -⟩ := ht i
            exact (((session_inv hr (hs i)).run k1).1.fixedPoint k2).2.2.2.2.2.2
          exact ihk (i + 1) (by omega) (by omega)
        · refine hno ⟨i, x, e1, fun hm => e2 ?_, e3⟩
          obtain ⟨pick, d, go, t1, k1, k2, -⟩ := ht i
          obtain ⟨r1, r2, -⟩ := (session_inv hr (hs i)).run k1
          rw [(r1.fixedPoint k2).2.2.1]
          exact r2.nodes x hm
  exact key _ _ 0 (Nat.lt_succ_self _) (Nat.lt_succ_self _)

/-! ## Examples -/

/-- The result, if any. -/
def Out.get? {α : Type} : Out α → Option α
  | .ok a => some a
  | _ => none

def Out.isPanic {α : Type} : Out α → Bool
  | .panic => true
  | _ => false

def Out.isCycle {α : Type} : Out α → Bool
  | .cycle => true
  | _ => false

def cfg : Cfg := ⟨30, 30, 5, fun _ _ _ _ _ => 0⟩

/-- A field (2) of one resolver (1), or of another one (4) that requires what only a third one (5) provides (6). -/
def ex : Input := ⟨⟨[⟨0, 1, 10⟩, ⟨1, 2, 3⟩, ⟨0, 4, 11⟩, ⟨4, 2, 0⟩, ⟨0, 5, 10⟩, ⟨5, 6, 0⟩]⟩, [], [], [⟨[2], [6], [60], [(3, 0)]⟩], []⟩

/-- If the edge with the requirement is taken what it needs is there. -/
example : (solve cfg 5 ex (Tree.new 0 [2])).get?.map (fun x => (x.1.nodes, x.2.space, x.2.graph.weight 3)) = some ([6, 5, 2, 4, 0], [60], 10) := by
  decide +kernel

/-- With a node that has free requirements. -/
def ex2 : Input := ⟨⟨[⟨0, 1, 10⟩, ⟨1, 2, 3⟩, ⟨0, 4, 11⟩, ⟨4, 2, 0⟩, ⟨0, 5, 10⟩, ⟨5, 6, 0⟩, ⟨5, 7, 0⟩]⟩, [⟨5, [7], [70]⟩], [], [⟨[2], [6], [60], [(3, 0)]⟩], []⟩

example : (solve cfg 5 ex2 (Tree.new 0 [4])).get?.map (fun x => (x.1.nodes, x.2.space)) = some ([4, 0], []) := by decide +kernel

/-- A chosen edge with its requirements, and the free ones of a node of these. -/
example : (solve cfg 5 { ex2 with byReq := [⟨[], [6], [60], [(2, 11)]⟩] } (Tree.new 0 [4])).get?.map
    (fun x => (x.1.nodes, x.1.terminals, x.2.space)) = some ([7, 6, 5, 4, 0], [4, 6, 7], [60, 70]) := by decide +kernel

/-- `Deps` is met. -/
example : Deps ⟨ex, none, [], [], .new, false⟩ := by
  constructor <;> decide

/-- A panic for a chosen edge with free requirements. -/
theorem C63_edges_example : (solve cfg 5 ⟨⟨[⟨0, 1, 10⟩, ⟨0, 2, 10⟩]⟩, [], [⟨0, [2], []⟩], [], []⟩ (Tree.new 0 [1])).isPanic = true := by
  decide +kernel

/-- A panic for two groups of requirements: two nodes, then one. -/
theorem C63_estimate_example :
    (solve cfg 5 ⟨⟨[⟨0, 1, 10⟩, ⟨0, 2, 10⟩, ⟨0, 3, 10⟩, ⟨0, 4, 10⟩, ⟨0, 5, 10⟩]⟩, [], [],
      [⟨[], [3, 4], [], [(0, 10)]⟩, ⟨[], [5], [], [(1, 10)]⟩], []⟩ (Tree.new 0 [1, 2])).isPanic = true := by
  decide +kernel

/-- In the other order it is the second round that panics. -/
theorem C63_estimate_example_order :
    (solve cfg 9 ⟨⟨[⟨0, 1, 10⟩, ⟨0, 2, 10⟩, ⟨0, 3, 10⟩, ⟨0, 4, 10⟩, ⟨0, 5, 10⟩]⟩, [], [],
      [⟨[], [5], [], [(1, 10)]⟩, ⟨[], [3, 4], [], [(0, 10)]⟩], []⟩ (Tree.new 0 [1, 2])).isPanic = true := by
  decide +kernel

/-- Requirements of each other are a cycle. -/
theorem C63_cycle_example : (solve cfg 5 ⟨⟨[⟨0, 1, 10⟩, ⟨0, 2, 10⟩]⟩, [], [], [⟨[], [2], [], [(0, 10)]⟩, ⟨[], [1], [], [(1, 10)]⟩], []⟩
    (Tree.new 0 [1])).isCycle = true := by decide +kernel

/-- The hypotheses of `C63_estimate_forever`. -/
example : Ends ex.graph (Tree.new 0 [2]) ∧ 1 ∈ [1] ∧ 1 ∉ (Tree.new 0 [2]).nodes ∧ 1 ∈ [0].map ex.graph.dst := by
  exact ⟨fun e (he : e ∈ []) => (by cases he), by decide, by decide, by decide⟩

end Verif.Updater
