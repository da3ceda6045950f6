import Verif.SteinerInput.Loops
/-!
# The edges of a solution
-/
namespace Verif.SteinerInput

open Verif.Flac Verif.Updater Verif.OpChecks

/-- From the terminals back through the edges that are taken. -/
inductive Visited (sp : Space) (b : B) (t : Tree) (S : List Nat) : Nat → Prop
  | term {x : Nat} : x ∈ S → Visited sp b t S x
  | step {e : Nat} : e ∈ sp.incoming (sp.dst e) → b.takes t e = true → Visited sp b t S (sp.dst e) → Visited sp b t S (sp.src e)

variable {sp : Space} {b : B} {S T : List Nat} {t : Tree} {c : Cfg} {inp inp' : Input}

theorem included_spec {n : Nat} {st inc es : List Nat} (h : included sp b t n st inc = .ok es) (V : Nat → Prop) (hst : ∀ x ∈ st, V x)
    (hstep : ∀ e, e ∈ sp.incoming (sp.dst e) → b.takes t e = true → V (sp.dst e) → V (sp.src e))
    (hinc : ∀ e ∈ inc, e ∈ sp.incoming (sp.dst e) ∧ b.takes t e = true ∧ V (sp.dst e)) :
    (∀ e ∈ inc, e ∈ es) ∧ (∀ e ∈ es, e ∈ sp.incoming (sp.dst e) ∧ b.takes t e = true ∧ V (sp.dst e)) ∧
      ∀ e, e ∈ sp.incoming (sp.dst e) → b.takes t e = true → (sp.dst e ∈ st ∨ ∃ e' ∈ es, e' ∉ inc ∧ sp.src e' = sp.dst e) → e ∈ es := by
  induction n generalizing st inc with
  | zero => simp [included] at h
  | succ n ih =>
    cases st with
    | nil =>
      simp only [included, Out.ok.injEq] at h
      subst h
      refine ⟨fun _ h => h, hinc, fun e _ _ hd => ?_⟩
      rcases hd with hd | ⟨e', h1, h2, -⟩
      · simp at hd
      · exact absurd h1 h2
    | cons x st =>
      unfold included at h
      dsimp only at h
      have hx : V x := hst x (by simp)
      have hnew : ∀ e ∈ (sp.incoming x).filter (b.takes t), e ∈ sp.incoming (sp.dst e) ∧ b.takes t e = true ∧ V (sp.dst e) ∧ sp.dst e = x := fun e he => by
        obtain ⟨h1, h2⟩ := List.mem_filter.1 he
        have hd := mem_incoming_dst h1
        rw [hd]; exact ⟨h1, h2, hx, rfl⟩
      obtain ⟨k1, k2, k3⟩ := ih h (fun y hy => by
          rcases List.mem_append.1 hy with hy | hy
          · simp only [List.mem_reverse, List.mem_map] at hy
            obtain ⟨e, he, rfl⟩ := hy
            obtain ⟨j1, j2, j3, -⟩ := hnew e he
            exact hstep e j1 j2 j3
          · exact hst y (by simp [hy])) (fun e he => by
          rcases List.mem_append.1 he with he | he
          · exact hinc e he
          · obtain ⟨j1, j2, j3, -⟩ := hnew e he
            exact ⟨j1, j2, j3⟩)
      refine ⟨fun e he => k1 e (by simp [he]), k2, fun e he ht hd => ?_⟩
      rcases hd with hd | ⟨e', h1, h2, h3⟩
      · rcases List.mem_cons.1 hd with hd | hd
        · exact k1 e (List.mem_append.2 (.inr (List.mem_filter.2 ⟨by rw [← hd]; exact he, ht⟩)))
        · exact k3 e he ht (.inl (by simp [hd]))
      · by_cases hn : e' ∈ (sp.incoming x).filter (b.takes t)
        · exact k3 e he ht (.inl (by
            rw [← h3]
            exact List.mem_append.2 (.inl (List.mem_reverse.2 (List.mem_map.2 ⟨e', hn, rfl⟩)))))
        · exact k3 e he ht (.inr ⟨e', h1, fun hc => (List.mem_append.1 hc).elim h2 hn, h3⟩)

/-- The included edges are those that are taken into visited nodes. -/
theorem mem_included {n : Nat} {es : List Nat} (h : included sp b t n S [] = .ok es) :
    ∀ e, e ∈ es ↔ e ∈ sp.incoming (sp.dst e) ∧ b.takes t e = true ∧ Visited sp b t S (sp.dst e) := by
  obtain ⟨-, k2, k3⟩ := included_spec h (Visited sp b t S) (fun x hx => .term hx) (fun e => .step) (by simp)
  refine fun e => ⟨k2 e, fun ⟨h1, h2, h3⟩ => k3 e h1 h2 ?_⟩
  have : ∀ x, Visited sp b t S x → x ∈ S ∨ ∃ e' ∈ es, sp.src e' = x := fun x hx => by
    induction hx with
    | term hx => exact .inl hx
    | @step e' j1 j2 j3 ih => exact .inr ⟨e', k3 e' j1 j2 (ih.imp_right fun ⟨e'', i1, i2⟩ => ⟨e'', i1, by simp, i2⟩), rfl⟩
  exact (this _ h3).imp_right fun ⟨e'', i1, i2⟩ => ⟨e'', i1, by simp, i2⟩

/-- What is known of a solution. -/
structure Solved (inp inp' : Input) (T : List Nat) (t : Tree) : Prop where
  tree : IsTree inp.graph 0 t
  terms : ∀ x ∈ T, x ∈ t.nodes
  node : ∀ f ∈ inp.byNode, f.key ∈ t.nodes → f.key ≠ 0 → (∀ x ∈ f.req, x ∈ t.nodes) ∧ ∀ x ∈ f.space, x ∈ inp'.space
  req : ∀ r ∈ inp.byReq, (∃ p ∈ r.deps, p.1 ∈ t.edges) → (∀ x ∈ r.req, x ∈ t.nodes) ∧ ∀ x ∈ r.space, x ∈ inp'.space
  keep : ∀ x ∈ inp.space, x ∈ inp'.space
  only : ∀ x ∈ inp'.space, x ∈ inp.space ∨ (∃ f ∈ inp.byNode, f.key ∈ t.nodes ∧ x ∈ f.space ∧ ∀ x ∈ f.req, x ∈ t.nodes) ∨
    ∃ r ∈ inp.byReq, (∃ p ∈ r.deps, p.1 ∈ t.edges) ∧ x ∈ r.space ∧ ∀ x ∈ r.req, x ∈ t.nodes
  useful : ∀ a ∈ t.nodes, a ≠ 0 → ∃ x, Path inp.graph t.edges a x ∧ (x ∈ T ∨ (∃ f ∈ inp.byNode, f.key ∈ t.nodes ∧ x ∈ f.req) ∨
      ∃ r ∈ inp.byReq, (∃ p ∈ r.deps, p.1 ∈ t.edges) ∧ x ∈ r.req)

theorem solved {n : Nat} (h0 : 0 ∉ T) (h : solve c n inp (Tree.new 0 T) = .ok (t, inp')) : Solved inp inp' T t := by
  by_cases hT : T = []
  · subst hT
    rw [solve, if_pos (by rfl)] at h
    simp only [Out.ok.injEq, Prod.mk.injEq] at h
    obtain ⟨rfl, rfl⟩ := h
    refine ⟨⟨by simp [Tree.new], by simp [Tree.new], by simp [Tree.new], ?_⟩, by simp, ?_, by simp [Tree.new], fun _ h => h, fun _ h => .inl h, ?_⟩
    · intro n hn
      simp only [Tree.new, List.mem_singleton] at hn
      subst hn; exact .refl _
    · intro f _ hk hn
      simp only [Tree.new, List.mem_singleton] at hk
      exact absurd hk hn
    · intro a ha hn
      simp only [Tree.new, List.mem_singleton] at ha
      exact absurd ha hn
  · obtain ⟨k1, k2, k3⟩ := C63_tree h0 hT h
    obtain ⟨j1, -, j3⟩ := C63_required h0 hT h
    obtain ⟨i1, i2⟩ := C63_only h0 hT h
    refine ⟨k1, k2, fun f hf hk _ => j1 f hf hk, j3, fun x hx => (i2 x).2 (.inl hx), fun x hx => ?_, fun a ha hn => ?_⟩
    · rcases (i2 x).1 hx with h | ⟨f, a, b, d⟩ | ⟨r, a, b, d⟩
      · exact .inl h
      · exact .inr (.inl ⟨f, a, b, d, (j1 f a b).1⟩)
      · exact .inr (.inr ⟨r, a, b, d, (j3 r a b).1⟩)
    · obtain ⟨x, hx, hp⟩ := k3 a ha hn
      exact ⟨x, hp, i1 x hx⟩

/-- A solution of what was built. -/
structure Planned (sp : Space) (b : B) (T S : List Nat) (inp inp' : Input) (t : Tree) : Prop where
  built : Built sp b T S
  finish : SteinerInput.finish b T S = some inp
  solved : Solved inp inp' T t
  root : sp.incoming sp.root = []

variable {inp inp' : Input}

theorem Planned.graph (h : Planned sp b T S inp inp' t) : inp.graph = ⟨b.edges⟩ ∧ inp.space = S ∧
    inp.byNode = b.byNode.map fun x => ⟨x.1, reqNodes b T x.2, x.2⟩ := by
  have := h.finish
  unfold SteinerInput.finish at this
  rw [Option.map_eq_some_iff] at this
  obtain ⟨rs, -, rfl⟩ := this
  exact ⟨rfl, rfl, rfl⟩

/-- Required nodes of a solution are in the tree. -/
theorem Planned.mapped (h : Planned sp b T S inp inp' t) {l : List Nat} (hl : ∀ r ∈ l, b.map r ≠ none) (hn : ∀ x ∈ reqNodes b T l, x ∈ t.nodes) :
    ∀ r ∈ l, ∃ m, b.map r = some m ∧ m ∈ t.nodes := fun r hr => by
  obtain ⟨m, hm⟩ := Option.ne_none_iff_exists'.1 (hl r hr)
  refine ⟨m, hm, ?_⟩
  by_cases h0 : m = 0
  · rw [h0]; exact h.solved.tree.start
  · by_cases hT : m ∈ T
    · exact h.solved.terms m hT
    · exact hn m (mem_reqNodes.2 ⟨r, hr, by rw [hm]; rfl, h0, hT⟩)

/-- An edge of the graph and the edge of the space it stands for. -/
theorem Planned.edge (h : Planned sp b T S inp inp' t) {e k : Nat} (he : b.emap e = some k) : b.rep[inp.graph.dst k]? = some (sp.dst e) ∧
    b.map (sp.src e) = some (inp.graph.src k) ∧ e ∈ sp.incoming (sp.dst e) := by
  obtain ⟨ed, h1, h2, h3, h4, -⟩ := h.built.good.edge e k he
  have hg := h.graph.1
  exact ⟨by rw [hg]; simp [Graph.dst, h1, h2], by rw [hg]; simp [Graph.src, h1, h3], h4⟩

theorem Planned.takes (h : Planned sp b T S inp inp' t) {e : Nat} (ht : b.takes t e = true) (hin : e ∈ sp.incoming (sp.dst e)) :
    (sp.dst e ∉ b.rep ∧ b.emap e = none) ∨ ∃ k, b.emap e = some k ∧ k ∈ t.edges := by
  cases hk : b.emap e with
  | none =>
    left
    refine ⟨fun hr => ?_, rfl⟩
    refine h.built.all _ hr (fun hroot => ?_) e hin hk
    rw [hroot, h.root] at hin; simp at hin
  | some k =>
    right
    simp only [B.takes, hk] at ht
    exact ⟨k, rfl, by simpa using ht⟩

/-- What is visited is in the tree. -/
theorem Planned.visited (h : Planned sp b T S inp inp' t) {n : Nat} (hv : Visited sp b t inp'.space n) : ∃ m, b.map n = some m ∧ m ∈ t.nodes := by
  induction hv with
  | @term x hx =>
    rcases h.solved.only x hx with k | ⟨f, k1, k2, k3, k4⟩ | ⟨r, k1, k2, k3, k4⟩
    · rw [h.graph.2.1] at k
      obtain ⟨m, j1, j2⟩ := h.built.terms.node x k
      refine ⟨m, j1, ?_⟩
      rcases j2 with rfl | j2
      · exact h.solved.tree.start
      · exact h.solved.terms m j2
    · rw [h.graph.2.2] at k1
      obtain ⟨p, hp, rfl⟩ := List.mem_map.1 k1
      obtain ⟨n, j1, j2, j3, j4⟩ := h.built.reqs.node p hp
      exact h.mapped (fun r hr => by simpa [h.built.disp] using j4 r hr) k4 x k3
    · obtain ⟨i1, i2⟩ := (h.built.byReq h.finish).2 r k1
      rw [i1] at k4
      obtain ⟨d, hd, -⟩ := k2
      obtain ⟨p, hp, hp2, -⟩ := i2 d hd
      obtain ⟨n, j1, j2, j3, j4, j5, j6, j7⟩ := h.built.reqs.req p hp
      exact h.mapped (fun r' hr => by rw [hp2] at hr; simpa [h.built.disp] using j7 r' hr) k4 x k3
  | @step e h1 h2 _ ih =>
    obtain ⟨m, k1, k2⟩ := ih
    rcases h.takes h2 h1 with ⟨j1, -⟩ | ⟨k, j1, j2⟩
    · obtain ⟨e', i1, i2⟩ := h.built.good.up _ m k1 j1
      rw [i1] at h1
      simp only [List.mem_singleton] at h1
      rw [h1]; exact ⟨m, i2, k2⟩
    · exact ⟨_, (h.edge j1).2.1, (h.solved.tree.edge k j2).2.1⟩

/-- What is visited is reached from the root. -/
theorem Planned.reach (h : Planned sp b T S inp inp' t) {es : List Nat}
    (hes : ∀ e, e ∈ es ↔ e ∈ sp.incoming (sp.dst e) ∧ b.takes t e = true ∧ Visited sp b t inp'.space (sp.dst e)) {n : Nat}
    (hv : Visited sp b t inp'.space n) : Reach sp es n := by
  obtain ⟨m, hm, hmt⟩ := h.visited hv
  have hp := h.solved.tree.reach m hmt
  have key : ∀ m, Path inp.graph t.edges 0 m → ∀ n, Visited sp b t inp'.space n → b.map n = some m → Reach sp es n := by
    intro m hp
    refine Path.snocInd (P := fun m => ∀ n, Visited sp b t inp'.space n → b.map n = some m → Reach sp es n) ?_ ?_ hp
    · intro n hv hm
      have hc := h.built.good.comp n 0 hm
      induction hc with
      | @here n hn =>
        rw [h.built.good.root] at hn
        cases hn; exact .root
      | @up n e h1 h2 _ ih =>
        obtain ⟨e', i1, i2⟩ := h.built.good.up _ _ hm h1
        rw [h2] at i1; cases i1
        have hin : e ∈ sp.incoming n := by rw [h2]; simp
        have hd := mem_incoming_dst hin
        have ht : b.takes t e = true := by
          unfold B.takes
          cases hk : b.emap e with
          | none => rfl
          | some k => exact absurd (List.mem_of_getElem? (h.edge hk).1) (by rw [hd]; exact h1)
        rw [← hd] at hin hv
        rw [← hd]
        exact .step ((hes e).2 ⟨hin, ht, hv⟩) (ih (.step hin ht hv) i2)
    · intro k hk _ ihp n hv hm
      have hc := h.built.good.comp n _ hm
      induction hc with
      | @here n hn =>
        obtain ⟨e, he⟩ := h.built.good.surj k (by have := (h.solved.tree.edge k hk).1; rw [h.graph.1] at this; exact this)
        obtain ⟨j1, j2, j3⟩ := h.edge he
        rw [hn, Option.some.injEq] at j1
        have ht : b.takes t e = true := by simp [B.takes, he, hk]
        rw [j1] at hv
        rw [j1]
        exact .step ((hes e).2 ⟨j3, ht, hv⟩) (ihp _ (.step j3 ht hv) j2)
      | @up n e h1 h2 _ ih =>
        obtain ⟨e', i1, i2⟩ := h.built.good.up _ _ hm h1
        rw [h2] at i1; cases i1
        have hin : e ∈ sp.incoming n := by rw [h2]; simp
        have hd := mem_incoming_dst hin
        have ht : b.takes t e = true := by
          unfold B.takes
          cases hk : b.emap e with
          | none => rfl
          | some k => exact absurd (List.mem_of_getElem? (h.edge hk).1) (by rw [hd]; exact h1)
        rw [← hd] at hin hv
        rw [← hd]
        exact .step ((hes e).2 ⟨hin, ht, hv⟩) (ih (.step hin ht hv) i2)
  exact key m hp n hv hm

/-- A node has one parent. -/
theorem Planned.one (h : Planned sp b T S inp inp' t) {e e' : Nat} (h1 : e ∈ sp.incoming (sp.dst e)) (h1' : e' ∈ sp.incoming (sp.dst e'))
    (h2 : b.takes t e = true) (h2' : b.takes t e' = true) (hv : Visited sp b t inp'.space (sp.dst e)) (hd : sp.dst e = sp.dst e') : e = e' := by
  rcases h.takes h2 h1 with ⟨j1, j2⟩ | ⟨k, j1, j2⟩
  · obtain ⟨m, hm, -⟩ := h.visited hv
    obtain ⟨a, i1, -⟩ := h.built.good.up _ m hm j1
    rw [i1] at h1
    rw [← hd, i1] at h1'
    simp only [List.mem_singleton] at h1 h1'
    rw [h1, h1']
  · rcases h.takes h2' h1' with ⟨i1, i2⟩ | ⟨k', i1, i2⟩
    · exact absurd (List.mem_of_getElem? (h.edge j1).1) (by rw [hd]; exact i1)
    · have g1 := h.built.good.rep _ _ (h.edge j1).1
      have g2 := h.built.good.rep _ _ (h.edge i1).1
      rw [hd, g2, Option.some.injEq] at g1
      have := h.solved.tree.one k j2 k' i2 g1.symm
      subst this
      exact h.built.good.inj e e' k j1 i1

/-- What a node of the tree stands for is visited. -/
theorem Planned.rep_visited (h : Planned sp b T S inp inp' t) {m n : Nat} (hm : m ∈ t.nodes) (hn : b.rep[m]? = some n) (h0 : m ≠ 0) :
    Visited sp b t inp'.space n := by
  have comp : ∀ m x, Comp sp b.rep m x → Visited sp b t inp'.space x → ∀ n, b.rep[m]? = some n → Visited sp b t inp'.space n := by
    intro m x hc
    induction hc with
    | @here n hn => intro hv n' hn'; rw [hn] at hn'; cases hn'; exact hv
    | @up n e h1 h2 _ ih =>
      intro hv n' hn'
      have hin : e ∈ sp.incoming n := by rw [h2]; simp
      have hd := mem_incoming_dst hin
      have ht : b.takes t e = true := by
        unfold B.takes
        cases hk : b.emap e with
        | none => rfl
        | some k => exact absurd (List.mem_of_getElem? (h.edge hk).1) (by rw [hd]; exact h1)
      rw [← hd] at hin hv
      exact ih (.step hin ht hv) n' hn'
  have base : ∀ x, (x ∈ T ∨ (∃ f ∈ inp.byNode, f.key ∈ t.nodes ∧ x ∈ f.req) ∨ ∃ r ∈ inp.byReq, (∃ p ∈ r.deps, p.1 ∈ t.edges) ∧ x ∈ r.req) →
      ∃ y, Visited sp b t inp'.space y ∧ b.map y = some x := by
    have req : ∀ l, (∀ r ∈ l, b.map r ≠ none) → (∀ r ∈ l, r ∈ inp'.space) → ∀ x ∈ reqNodes b T l, ∃ y, Visited sp b t inp'.space y ∧ b.map y = some x := by
      intro l hl hs x hx
      obtain ⟨i, h1, h2, -⟩ := mem_reqNodes.1 hx
      obtain ⟨k, hk⟩ := Option.ne_none_iff_exists'.1 (hl i h1)
      rw [hk] at h2
      exact ⟨i, .term (hs i h1), by rw [hk, ← h2]; rfl⟩
    intro x hx
    rcases hx with hx | ⟨f, k1, k2, k3⟩ | ⟨r, k1, k2, k3⟩
    · obtain ⟨-, y, j1, j2⟩ := h.built.terms.used x hx
      exact ⟨y, .term (h.solved.keep y (by rw [h.graph.2.1]; exact j1)), j2⟩
    · have k1' := k1
      rw [h.graph.2.2] at k1'
      obtain ⟨p, hp, rfl⟩ := List.mem_map.1 k1'
      obtain ⟨n, j1, j2, j3, j4⟩ := h.built.reqs.node p hp
      have hne : p.1 ≠ 0 := fun hc => by
        rw [hc, h.built.good.root] at j1
        exact j2 (Option.some.inj j1).symm
      exact req p.2 (fun r hr => by simpa [h.built.disp] using j4 r hr) (h.solved.node _ k1 k2 hne).2 x k3
    · obtain ⟨i1, i2⟩ := (h.built.byReq h.finish).2 r k1
      obtain ⟨d, hd, -⟩ := id k2
      obtain ⟨p, hp, hp2, -⟩ := i2 d hd
      obtain ⟨n, j1, j2, j3, j4, j5, j6, j7⟩ := h.built.reqs.req p hp
      rw [i1] at k3
      exact req r.space (fun r' hr => by rw [hp2] at hr; simpa [h.built.disp] using j7 r' hr) (h.solved.req r k1 k2).2 x k3
  obtain ⟨x, hp, hx⟩ := h.solved.useful m hm h0
  have hy := base x hx
  clear hx
  have : ∃ y, Visited sp b t inp'.space y ∧ b.map y = some m := by
    clear hm hn h0
    induction hp with
    | refl => exact hy
    | @step k c hk _ ih =>
      obtain ⟨y, hv, hm⟩ := ih hy
      obtain ⟨e, he⟩ := h.built.good.surj k (by have := (h.solved.tree.edge k hk).1; rw [h.graph.1] at this; exact this)
      obtain ⟨j1, j2, j3⟩ := h.edge he
      have := comp _ y (h.built.good.comp y _ hm) hv _ j1
      exact ⟨_, .step j3 (by simp [B.takes, he, hk]) this, j2⟩
  obtain ⟨y, hv, hm⟩ := this
  exact comp m y (h.built.good.comp y m hm) hv n hn

end Verif.SteinerInput
