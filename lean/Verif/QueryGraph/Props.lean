import Verif.QueryGraph.Plan
/-!
# C66: the query graph built from a plan
-/
namespace Verif.QueryGraph

open Verif.Updater (Out)

variable {sp : Space} {es : List Nat} {g : QGraph} {fuel : Nat}

/-- The query graph is a tree: the first node is the root, every other node has one partition or field edge to it, from an
earlier node. -/
theorem C66_tree (ht : sp.Typed) (hc : Chosen sp es) (h : ingestNodes sp es fuel = .ok g) :
    g.nodes[0]? = some (.root, sp.root) ∧ (∀ p, ¬ g.Below p 0) ∧
    ∀ i, 0 < i → i < g.nodes.length →
      ∃ e, g.edges.filter (fun x => decide (x.dst = i ∧ (x.kind = .partition ∨ x.kind = .field))) = [e] ∧ e.src < i := by
  obtain ⟨st, L, hd⟩ := ingest_done ht hc h
  refine ⟨by rw [hd.nodes]; exact hd.inv.root, fun p hp => ?_, fun i h0 hi => ?_⟩
  · rcases hp with hp | hp
    · obtain ⟨k, q, n, -, h2, -⟩ := hd.ofTree hp rfl
      cases h2
    · obtain ⟨k, q, n, -, h2, -⟩ := hd.ofTree hp rfl
      cases h2
  · rw [hd.nodes] at hi
    cases i with
    | zero => omega
    | succ i =>
      obtain ⟨e, h1, h2⟩ := hd.one (List.getElem?_eq_getElem hi)
      refine ⟨e, ?_, by omega⟩
      rw [← h1]
      refine List.filter_congr fun x _ => ?_
      simp [QEdge.inTree]

/-- The nodes of the space with a node are the root, the reached resolvers and providable fields, and the `__typename` fields
of the root and of what is provided; each has one node, which shows what it is. -/
theorem C66_nodes (ht : sp.Typed) (hc : Chosen sp es) (h : ingestNodes sp es fuel = .ok g) :
    (∀ n, (∃ i, g.MadeFor i n) ↔ Wanted sp es n) ∧ (∀ i j n, g.MadeFor i n → g.MadeFor j n → i = j) ∧
    ∀ (i : Nat) (q : QNode) (n : Nat), g.nodes[i]? = some (q, n) → Shows sp n q := by
  obtain ⟨st, L, hd⟩ := ingest_done ht hc h
  have hsrc : ∀ n, (sp.node n).IsSource → Reach sp es n → n ∈ st.graph.origins := fun n hn hr => hd.inv.has hd.stack ht hc hr (.inr hn)
  have ofSrc : ∀ n, n ∈ st.graph.origins → ¬ (sp.node n).IsField true → Reach sp es n := fun n h1 h2 => hd.inv.reach ht hc h1 h2
  refine ⟨fun n => ?_, fun i j n h1 h2 => hd.unique h1 h2, fun i q n hi => ?_⟩
  · rw [hd.has]
    constructor
    · intro hn
      obtain ⟨i, q, hi⟩ := mem_origins.1 hn
      cases i with
      | zero =>
        rw [hd.inv.root, Option.some.injEq, Prod.mk.injEq] at hi
        rw [← hi.2]; exact .root
      | succ k =>
        obtain ⟨e, -, -, -, -, hm⟩ := hd.parent hi
        rcases hm with ⟨hm, -⟩ | ⟨-, a, d, h2, h3, h4, h5, h6⟩
        · have hs : (sp.node n).IsSource := by
            generalize e.kind = kk at hm
            cases hm with
            | partition h => exact .inl ⟨_, _, h⟩
            | field h => exact .inr h
          exact .source hs (ofSrc n hn (source_not_field hs))
        · have hde := mem_edges.2 ⟨a, h2⟩
          obtain ⟨x, y, z⟩ := d
          simp only at h3 h4 h6
          subst h3; subst h4
          rcases h6 with ⟨-, rfl⟩ | ⟨qp, np, h6, h7⟩
          · exact .rootTypename hde
          · refine .typename (ofSrc np (mem_origins.2 ⟨_, _, h6⟩) ?_) h7 hde
            exact source_not_field (.inr (ht.provides _ h7 rfl).1)
    · intro hw
      cases hw with
      | root => exact mem_origins.2 ⟨_, _, hd.inv.root⟩
      | source h1 h2 => exact hsrc n h1 h2
      | rootTypename h1 =>
        obtain ⟨a, ha⟩ := mem_edges.1 h1
        exact (hd.inv.typename a _ ha rfl).2 (.inl rfl)
      | @typename m f _ h1 h2 h3 =>
        obtain ⟨a, ha⟩ := mem_edges.1 h3
        refine (hd.inv.typename a _ ha rfl).2 (.inr ((hd.inv.removed a _ ha rfl).2 ⟨m, hsrc m (.inr (ht.provides _ h2 rfl).1) h1, h2⟩))
  · rw [hd.nodes] at hi
    cases i with
    | zero =>
      rw [hd.inv.root, Option.some.injEq, Prod.mk.injEq] at hi
      rw [← hi.1, ← hi.2]; exact .root
    | succ k =>
      obtain ⟨e, -, -, -, -, hm⟩ := hd.parent hi
      rcases hm with ⟨hm, -⟩ | ⟨-, a, d, h2, h3, h4, h5, h6⟩
      · generalize e.kind = kk at hm
        cases hm with
        | partition h => exact .partition h
        | field h h' h'' => exact .field h h' h''
      · obtain ⟨id, s, hf⟩ := (ht.typename d (mem_edges.2 ⟨a, h2⟩) h3).1
        have : tlabel sp a = (.field id s true, d.dst) := by simp [tlabel, edge_of h2, hf]
        rw [this, Prod.mk.injEq] at h5
        rw [h5.1, h5.2]
        exact .typename hf

/-- Every node is below the node of what its chosen edge comes from; a `__typename` is below a node that stands for its parent
field, or below the root. -/
theorem C66_below (ht : sp.Typed) (hc : Chosen sp es) (h : ingestNodes sp es fuel = .ok g) :
    ∀ p i n, g.Below p i → g.MadeFor i n → Placed sp es g p i n := by
  obtain ⟨st, L, hd⟩ := ingest_done ht hc h
  have key : ∀ e ∈ g.edges, e.inTree = true → ∀ n, g.MadeFor e.dst n → Placed sp es g e.src e.dst n := by
    intro e he hk n hn
    obtain ⟨k, q, m, h1, h2, h3⟩ := hd.ofTree he hk
    obtain ⟨q', hn⟩ := hd.madeFor.1 hn
    rw [h2, h3, Option.some.injEq, Prod.mk.injEq] at hn
    obtain ⟨rfl, rfl⟩ := hn
    rcases hd.inv.made k e q m h1 h3 with ⟨hm, a, d, qp, j1, j2, j3, j4⟩ | ⟨hm, a, d, j2, j3, j4, j5, j6⟩
    · refine .chosen (e := a) (d := d) e.kind j1 j2 j3 (hd.madeFor.2 ⟨_, j4⟩) he ?_
      generalize e.kind = kk at hm ⊢
      cases hm with
      | partition h => exact .inl ⟨rfl, _, _, h⟩
      | field h => exact .inr ⟨rfl, h⟩
    · have hde := mem_edges.2 ⟨a, j2⟩
      have he' : ⟨e.src, e.dst, .field⟩ ∈ g.edges := by rw [← hm]; exact he
      obtain ⟨x, y, z⟩ := d
      simp only at j3 j4 j6
      subst j3; subst j4
      rcases j6 with ⟨j6, rfl⟩ | ⟨qp, np, j6, j7⟩
      · exact .rootTypename hde j6 he'
      · refine .typename hde ?_ he'
        obtain ⟨id, s, hf⟩ := (ht.provides _ j7 rfl).2
        have hsh := (C66_nodes ht hc h).2.2 e.src qp np (by rw [hd.nodes]; exact j6)
        have hp := (ht.provides _ j7 rfl).1
        simp only at hp hf
        refine ⟨id, s, false, np, hf, ?_, j7⟩
        rw [hd.nodes, j6]
        congr 2
        cases hsh with
        | root => exact absurd rfl (root_not ht (.inl (.inr hp)))
        | partition h => rw [hp] at h; cases h
        | field _ k1 k2 =>
          rw [provides_one ht k1 j7, hf] at k2
          cases k2; rfl
        | typename h => rw [hp] at h; cases h
  intro p i n hb hn
  rcases hb with hb | hb
  · exact key _ hb rfl n hn
  · exact key _ hb rfl n hn

/-- A node has a required edge to another one exactly if the resolver or providable field it was made for, or the field
provided, requires a field, and the other node stands for a field with its id. -/
theorem C66_required (ht : sp.Typed) (hc : Chosen sp es) (h : ingestNodes sp es fuel = .ok g) (i j : Nat) (k : QKind)
    (hk : k = .requiredBySubgraph ∨ k = .requiredBySupergraph) :
    ⟨i, j, k⟩ ∈ g.edges ↔ ∃ n r id split b m, g.MadeFor i n ∧ (sp.node n).IsSource ∧ AsksFor sp n r k ∧ sp.node r = .field id split b ∧
      g.nodes[j]? = some (.field id split false, m) ∧ sp.node m = .providable := by
  obtain ⟨st, L, hd⟩ := ingest_done ht hc h
  have hsh := (C66_nodes ht hc h).2.2
  have hno : ∀ e ∈ st.graph.edges, e.kind ≠ k := fun e he => by
    obtain ⟨x, hx⟩ := List.mem_iff_getElem?.1 he
    rcases (hd.inv.tree x e hx).2.2 with g1 | g1 <;> rw [g1] <;> rcases hk with rfl | rfl <;> simp
  rw [hd.edges, List.mem_append, hd.links]
  constructor
  · rintro (hx | ⟨⟨a, b, c⟩, h1, h2, h3, id, s, b', h4, h5⟩)
    · exact absurd rfl (hno _ hx)
    · simp only at h2 h3 h4 h5
      subst h2; subst h3
      obtain ⟨q, n, k1, k2, k3⟩ := (hd.inv.required _).1 h1
      obtain ⟨i', id', s', b'', m, k4, k5, k6⟩ := (hd.inv.keys _).1 h5
      simp only [Prod.mk.injEq] at k6
      obtain ⟨⟨rfl, rfl⟩, rfl⟩ := k6
      have hb : b'' = false := by
        have := hsh j _ m (by rw [hd.nodes]; exact k4)
        cases this with
        | field _ l1 l2 =>
          obtain ⟨_, _, l3⟩ := (ht.provides _ l1 rfl).2
          simp only at l3
          rw [l2] at l3
          cases l3; rfl
        | typename l => rw [k5] at l; cases l
      subst hb
      refine ⟨n, b, id, s, b', m, hd.madeFor.2 ⟨q, k1⟩, k2, ?_, h4, by rw [hd.nodes]; exact k4, k5⟩
      rcases k3 with ⟨l1, l2⟩ | ⟨l1, f, l2, l3⟩
      · simp only at l1 l2
        rw [l1]; exact .subgraph l2
      · simp only at l1 l3
        rw [l1]; exact .supergraph l2 l3
  · rintro ⟨n, r, id, s, b, m, h1, h2, h3, h4, h5, h6⟩
    obtain ⟨q, h1⟩ := hd.madeFor.1 h1
    rw [hd.nodes] at h5
    refine .inr ⟨⟨i, r, k⟩, (hd.inv.required _).2 ⟨q, n, h1, h2, ?_⟩, rfl, rfl, id, s, b, h4, (hd.inv.keys _).2 ⟨j, id, s, false, m, h5, h6, rfl⟩⟩
    cases h3 with
    | subgraph h3 => exact .inl ⟨rfl, h3⟩
    | supergraph h3 h4 => exact .inr ⟨rfl, _, h3, h4⟩

/-- The query graph is built without a panic. -/
theorem C66_ends (ht : sp.Typed) (hc : Chosen sp es) (hf : es.length < fuel) : ∃ g, ingestNodes sp es fuel = .ok g := ingest_ends ht hc hf

/-- The `__typename` fields of the root end up in the partition of the root that has the first field of the query, or in a
new one; nothing else changes. -/
theorem C66_root (ht : sp.Typed) (hc : Chosen sp es) (h : ingestNodes sp es fuel = .ok g) (pos : Positions) (entity definition : Nat) :
    ∃ p, Assigned pos entity definition g (assignRootTypenames pos entity definition g 0) 0 p ∧
      ∀ e ∈ (assignRootTypenames pos entity definition g 0).edges, e.src = 0 → e.kind = .partition := by
  obtain ⟨st, L, hd⟩ := ingest_done ht hc h
  have hsh := (C66_nodes ht hc h).2.2
  have htree := C66_tree ht hc h
  have hbelow := C66_below ht hc h
  have hreq := C66_required ht hc h
  -- edges of the root belong to the tree
  have hin : ∀ e ∈ g.edges, e.src = 0 → e.inTree = true := fun e he hs => by
    rw [hd.edges, List.mem_append] at he
    rcases he with he | he
    · obtain ⟨x, hx⟩ := List.mem_iff_getElem?.1 he
      simpa [QEdge.inTree] using (hd.inv.tree x e hx).2.2
    · obtain ⟨r, h1, h2, -⟩ := (hd.links e).1 he
      obtain ⟨q, n, h3, h4, -⟩ := (hd.inv.required r).1 h1
      rw [h2, hs, hd.inv.root, Option.some.injEq, Prod.mk.injEq] at h3
      rw [← h3.2] at h4
      exact absurd rfl (root_not ht (.inl h4))
  have hroot : ∀ e ∈ g.edges, e.src = 0 → (e.kind = .partition ∧ g.IsPartition e.dst) ∨ (e.kind = .field ∧ g.IsTypename e.dst) := by
    intro e he hs
    obtain ⟨k, q, n, h1, h2, h3⟩ := hd.ofTree he (hin e he hs)
    have h3' : g.nodes[e.dst]? = some (q, n) := by rw [hd.nodes, h2]; exact h3
    rcases hd.inv.made k e q n h1 h3 with ⟨hm, a, d, qp, j1, j2, j3, j4⟩ | ⟨hm, a, d, j2, j3, j4, j5, j6⟩
    · rw [hs, hd.inv.root, Option.some.injEq, Prod.mk.injEq] at j4
      obtain ⟨d', k1, k2⟩ := hc.step a j1
      rw [j2, Option.some.injEq] at k1
      subst k1
      have hde := mem_edges.2 ⟨a, j2⟩
      rcases k2 with k | k | k
      · obtain ⟨ent, de, hres⟩ := (ht.create d hde k).1
        rw [j3] at hres
        generalize e.kind = kk at hm ⊢
        cases hm with
        | partition h => exact .inl ⟨rfl, _, _, n, h3'⟩
        | field h => rw [hres] at h; cases h
      · exact absurd j4.2.symm (root_not ht (.inl (ht.canProvide d hde k).2))
      · exact absurd j4.2.symm (root_not ht (.inl (.inr (ht.provides d hde k).1)))
    · obtain ⟨id, s, hf⟩ := (ht.typename d (mem_edges.2 ⟨a, j2⟩) j3).1
      have : tlabel sp a = (.field id s true, d.dst) := by simp [tlabel, edge_of j2, hf]
      rw [this, Prod.mk.injEq] at j5
      exact .inr ⟨hm, id, s, n, by rw [h3', j5.1]⟩
  have hlt : ∀ e ∈ g.edges, e.dst < g.nodes.length := fun e he => by
    by_cases hk : e.inTree = true
    · obtain ⟨k, q, n, -, h2, h3⟩ := hd.ofTree he hk
      rw [hd.nodes, h2]
      exact (List.getElem?_eq_some_iff.1 h3).1
    · obtain ⟨a, b, c⟩ := e
      have : c = .requiredBySubgraph ∨ c = .requiredBySupergraph := by
        cases c <;> simp [QEdge.inTree] at hk ⊢
      obtain ⟨_, _, _, _, _, _, _, _, _, _, hj, _⟩ := (hreq a b c this).1 he
      exact (List.getElem?_eq_some_iff.1 hj).1
  have h0 : 0 < g.nodes.length := (List.getElem?_eq_some_iff.1 htree.1).1
  have excl : ∀ i, g.IsPartition i → g.IsTypename i → False := fun i h1 h2 => by
    obtain ⟨_, _, _, h1⟩ := h1
    obtain ⟨_, _, _, h2⟩ := h2
    rw [h1] at h2; cases h2
  have hpos : ∀ e ∈ g.edges, e.inTree = true → 0 < e.dst := fun e he hk => by
    obtain ⟨k, q, n, -, h2, -⟩ := hd.ofTree he hk
    omega
  have hok : RootOk g 0 := by
    refine ⟨h0, fun e he hs => ?_, hlt, fun e he hs => ?_, fun e he hs => ?_, fun e he hs hn => ?_⟩
    · obtain ⟨x, h1, -⟩ := htree.2.2 e.dst (hpos e he (hin e he hs)) (hlt e he)
      have he' : e ∈ g.edges.filter (fun x => decide (x.dst = e.dst ∧ (x.kind = .partition ∨ x.kind = .field))) :=
        List.mem_filter.2 ⟨he, by simpa [QEdge.inTree] using hin e he hs⟩
      rw [h1, List.mem_singleton] at he'
      subst he'
      have : g.edges.filter (fun (x : QEdge) => decide (x.src = 0 ∧ x.dst = e.dst)) =
          (g.edges.filter (fun x => decide (x.dst = e.dst ∧ (x.kind = .partition ∨ x.kind = .field)))).filter fun x => decide (x.src = 0) := by
        rw [List.filter_filter]
        refine List.filter_congr fun y hy => ?_
        rw [Bool.eq_iff_iff]
        simp only [Bool.and_eq_true, decide_eq_true_eq]
        refine ⟨fun hyy => ⟨hyy.1, hyy.2, by simpa [QEdge.inTree] using hin y hy hyy.1⟩, fun hyy => ⟨hyy.1, hyy.2.1⟩⟩
      rw [this, h1]
      simp [hs]
    · have := hpos e he (hin e he hs)
      omega
    · rcases hroot e he hs with ⟨h1, h2⟩ | ⟨h1, h2⟩
      · simp [h1, h2]
      · simp only [h1, reduceCtorEq, false_iff]
        exact fun hc => excl _ hc h2
    · rcases hroot e he hs with ⟨h1, h2⟩ | ⟨h1, h2⟩
      · exact (excl _ h2 hn).elim
      · exact h1
  obtain ⟨p, hp⟩ := hok.assigned (entity := entity) (definition := definition) pos
  refine ⟨p, hp, fun e he hs => ?_⟩
  rcases (hp.edges e).1 he with ⟨h1, h2⟩ | rfl | ⟨t, h1, h2, rfl⟩
  · rcases hroot e h1 hs with ⟨h3, -⟩ | ⟨-, h4⟩
    · exact h3
    · exact absurd ⟨hs, h4⟩ h2
  · rfl
  · simp only at hs
    rcases hp.first with ⟨-, -, h3, -⟩ | ⟨-, h3, -⟩
    · exact absurd hs (hok.ne _ h3 rfl)
    · omega

/-- A plan of the solver becomes a query graph in which the leaf fields asked for have a node. -/
theorem C66_planned (ht : sp.Typed) {leaf : List (Nat × Bool)} (hl : (leaf.map Prod.fst).Nodup) (hr : ∀ r, ⟨sp.root, r, .requires⟩ ∉ sp.edges)
    {c : Updater.Cfg} {b t inp} {n : Nat} (h : SteinerInput.plan (sp.steiner leaf) n c = .ok (b, t, inp, es)) (hf : es.length < fuel) :
    ∃ g, ingestNodes sp es fuel = .ok g ∧ ∀ r, (r, true) ∈ leaf → (sp.node r).IsField false → ∃ i, g.StandsFor sp i r := by
  have hc := plan_chosen ht hl hr h
  obtain ⟨g, hg⟩ := ingest_ends ht hc hf
  obtain ⟨st, L, hd⟩ := ingest_done ht hc hg
  refine ⟨g, hg, fun r h1 h2 => hd.standsFor ht hc h2 ?_⟩
  rw [← steiner_reach (leaf := leaf) fun e he => ?_]
  · exact (SteinerInput.C64_planned (steiner_valid ht hl hr) h).1 r h1
  · obtain ⟨d, h3, -⟩ := hc.step e he
    exact ⟨d, h3⟩

/-- In the query graph of a plan, a partition or field has a required edge to each leaf field its subgraph requires, provided
that no requirement is free with some but not all parents of a node. -/
theorem C66_needs_partial (ht : sp.Typed) {leaf : List (Nat × Bool)} (hl : (leaf.map Prod.fst).Nodup) (hr : ∀ r, ⟨sp.root, r, .requires⟩ ∉ sp.edges)
    (hu : (sp.steiner leaf).Uniform) {c : Updater.Cfg} {b t inp} {n : Nat} (h : SteinerInput.plan (sp.steiner leaf) n c = .ok (b, t, inp, es))
    (hg : ingestNodes sp es fuel = .ok g) {i m r : Nat} {x : Bool} (hm : g.MadeFor i m) (hs : (sp.node m).IsSource) (hn : ⟨m, r, .requires⟩ ∈ sp.edges)
    (hx : (r, x) ∈ leaf) (hf : (sp.node r).IsField false) : ∃ j, g.StandsFor sp j r ∧ ⟨i, j, .requiredBySubgraph⟩ ∈ g.edges := by
  have hc := plan_chosen ht hl hr h
  obtain ⟨st, L, hd⟩ := ingest_done ht hc hg
  have hsr : ∀ e ∈ es, ∃ d, sp.edges[e]? = some d := fun e he => by
    obtain ⟨d, h3, -⟩ := hc.step e he
    exact ⟨d, h3⟩
  have hrm : Reach sp es m := hd.inv.reach ht hc (hd.has.1 ⟨i, hm⟩) (source_not_field hs)
  have hrr : Reach sp es r := by
    rw [← steiner_reach (leaf := leaf) hsr] at hrm ⊢
    exact SteinerInput.C64_required_partial (steiner_valid ht hl hr) hu h m r hrm ⟨List.mem_map.2 ⟨_, hn, rfl⟩, x, hx⟩
  obtain ⟨j, hj⟩ := hd.standsFor ht hc hf hrr
  refine ⟨j, hj, ?_⟩
  obtain ⟨id, s, b', n', h1, h2, h3⟩ := hj
  obtain ⟨_, _, hf⟩ := hf
  rw [h1] at hf
  cases hf
  exact (C66_required ht hc hg i j _ (.inl rfl)).2 ⟨m, r, id, s, false, n', hm, hs, .subgraph hn, h1, h2, (ht.provides _ h3 rfl).1⟩

/-- A node that provides a field has a required edge to each leaf field the gateway requires for it, provided that the leaf
field is indispensable. -/
theorem C66_gateway_partial (ht : sp.Typed) {leaf : List (Nat × Bool)} (hl : (leaf.map Prod.fst).Nodup) (hr : ∀ r, ⟨sp.root, r, .requires⟩ ∉ sp.edges)
    {c : Updater.Cfg} {b t inp} {n : Nat} (h : SteinerInput.plan (sp.steiner leaf) n c = .ok (b, t, inp, es))
    (hg : ingestNodes sp es fuel = .ok g) {i f r : Nat} (hs : g.StandsFor sp i f) (hn : ⟨f, r, .requires⟩ ∈ sp.edges)
    (hx : (r, true) ∈ leaf) (hf : (sp.node r).IsField false) : ∃ j, g.StandsFor sp j r ∧ ⟨i, j, .requiredBySupergraph⟩ ∈ g.edges := by
  have hc := plan_chosen ht hl hr h
  obtain ⟨st, L, hd⟩ := ingest_done ht hc hg
  have hrr : Reach sp es r := by
    rw [← steiner_reach (leaf := leaf) fun e he => ?_]
    · exact (SteinerInput.C64_planned (steiner_valid ht hl hr) h).1 r hx
    · obtain ⟨d, h3, -⟩ := hc.step e he
      exact ⟨d, h3⟩
  obtain ⟨j, hj⟩ := hd.standsFor ht hc hf hrr
  refine ⟨j, hj, ?_⟩
  obtain ⟨id, s, b', n', h1, h2, h3⟩ := hj
  obtain ⟨_, _, _, m, -, k2, k3⟩ := hs
  obtain ⟨_, _, hf⟩ := hf
  rw [h1] at hf
  cases hf
  exact (C66_required ht hc hg i j _ (.inr rfl)).2
    ⟨m, r, id, s, false, n', ⟨_, k2⟩, .inr (ht.provides _ k3 rfl).1, .supergraph k3 hn, h1, h2, (ht.provides _ h3 rfl).1⟩

/-! ## Examples -/

instance (v : Node) (b : Bool) : Decidable (v.IsField b) :=
  match v with
  | .field id split c => if h : c = b then isTrue ⟨id, split, by rw [h]⟩ else isFalse (fun ⟨_, _, e⟩ => h (by cases e; rfl))
  | .root => isFalse (fun ⟨_, _, e⟩ => by cases e)
  | .resolver _ _ => isFalse (fun ⟨_, _, e⟩ => by cases e)
  | .providable => isFalse (fun ⟨_, _, e⟩ => by cases e)
  | .gone => isFalse (fun ⟨_, _, e⟩ => by cases e)

instance (v : Node) : Decidable v.IsResolver :=
  match v with
  | .resolver a b => isTrue ⟨a, b, rfl⟩
  | .field _ _ _ => isFalse (fun ⟨_, _, e⟩ => by cases e)
  | .root => isFalse (fun ⟨_, _, e⟩ => by cases e)
  | .providable => isFalse (fun ⟨_, _, e⟩ => by cases e)
  | .gone => isFalse (fun ⟨_, _, e⟩ => by cases e)

instance (v : Node) : Decidable v.IsSource := inferInstanceAs (Decidable (_ ∨ _))
instance (k : Kind) : Decidable k.IsStep := inferInstanceAs (Decidable (_ ∨ _ ∨ _))

theorem some_of (h : ∀ n < sp.nodes.length, sp.node n = .providable → ∃ d ∈ sp.edges, d.src = n ∧ d.kind = .provides) :
    ∀ n, sp.node n = .providable → ∃ f, ⟨n, f, .provides⟩ ∈ sp.edges := fun n hn => by
  have hl : n < sp.nodes.length := by
    unfold Space.node at hn
    by_cases hl : n < sp.nodes.length
    · exact hl
    · rw [List.getElem?_eq_none (by omega)] at hn
      cases hn
  obtain ⟨⟨a, b, c⟩, h1, h2, h3⟩ := h n hl hn
  simp only at h2 h3
  subst h2; subst h3
  exact ⟨b, h1⟩

theorem typenameOnce_of (h : ∀ e < sp.edges.length, ∀ e' < sp.edges.length, (sp.edge e).kind = .typename → (sp.edge e').kind = .typename →
    (sp.edge e).dst = (sp.edge e').dst → e = e') : ∀ (e e' : Nat) (d d' : SEdge), sp.edges[e]? = .some d → sp.edges[e']? = .some d' →
      d.kind = .typename → d'.kind = .typename → d.dst = d'.dst → e = e' := fun e e' d d' h1 h2 h3 h4 h5 => by
  rw [← edge_of h1] at h3 h5
  rw [← edge_of h2] at h4 h5
  exact h e (List.getElem?_eq_some_iff.1 h1).1 e' (List.getElem?_eq_some_iff.1 h2).1 h3 h4 h5

theorem requires_of (h : ∀ d ∈ sp.edges, d.kind = .requires → (sp.node d.dst).IsField false) :
    ∀ d ∈ sp.edges, d.kind = .requires → ∃ b, (sp.node d.dst).IsField b := fun d h1 h2 => ⟨_, h d h1 h2⟩

/-- `{ __typename user { __typename name } }`: the user (1), its name (2), its id (3), which is not asked for, and the two
`__typename` (10, 11).  A subgraph (4) provides the user (5), the name (6) and the id (7), another one (8) the name (9) for
the id.  The gateway requires the id of a user. -/
def ex : Space :=
  ⟨[.root, .field 0 0 false, .field 1 0 false, .field 2 0 false, .resolver 0 0, .providable, .providable, .providable, .resolver 1 1, .providable,
    .field 3 0 true, .field 4 0 true],
    [⟨0, 1, .field⟩, ⟨1, 2, .field⟩, ⟨0, 4, .createChildResolver⟩, ⟨0, 4, .hasChildResolver⟩, ⟨4, 5, .canProvide⟩, ⟨5, 1, .provides⟩, ⟨5, 6, .canProvide⟩,
      ⟨6, 2, .provides⟩, ⟨5, 8, .createChildResolver⟩, ⟨1, 8, .hasChildResolver⟩, ⟨8, 9, .canProvide⟩, ⟨9, 2, .provides⟩, ⟨1, 3, .field⟩, ⟨8, 3, .requires⟩,
      ⟨5, 7, .canProvide⟩, ⟨7, 3, .provides⟩, ⟨1, 3, .requires⟩, ⟨0, 10, .typename⟩, ⟨1, 11, .typename⟩], (List.range 19).reverse, 0⟩

theorem ex_typed : ex.Typed :=
  ⟨by decide +kernel, by decide +kernel, rfl, by decide +kernel, by decide +kernel, by decide +kernel, by decide +kernel, some_of (by decide +kernel),
    by decide +kernel, typenameOnce_of (by decide +kernel), requires_of (by decide +kernel)⟩

theorem chosen_of (h1 : ∀ e ∈ es, e < sp.edges.length ∧ (sp.edge e).kind.IsStep) (h2 : ∀ e ∈ es, ∀ e' ∈ es, (sp.edge e).dst = (sp.edge e').dst → e = e')
    (h3 : ∀ e ∈ es, (sp.edge e).dst ≠ sp.root) : Chosen sp es := by
  refine ⟨fun e he => ⟨_, edge_lt (h1 e he).1, (h1 e he).2⟩, fun e e' d d' he he' hd hd' h => ?_, fun e d he hd => ?_⟩
  · rw [← edge_of hd, ← edge_of hd'] at h
    exact h2 e he e' he' h
  · rw [← edge_of hd]
    exact h3 e he

/-- The name comes from the second subgraph. -/
theorem ex_chosen : Chosen ex [2, 4, 8, 10, 11, 14, 15] := chosen_of (by decide +kernel) (by decide +kernel) (by decide +kernel)

/-- What is built: the `__typename` of the root, the first partition with the user, its `__typename`, its id and the second
partition with the name, which requires the id. -/
example : (ingestNodes ex [2, 4, 8, 10, 11, 14, 15] 8).get? = some
    ⟨[(.root, 0), (.field 3 0 true, 10), (.partition 0 0, 4), (.field 0 0 false, 5), (.field 4 0 true, 11), (.partition 1 1, 8), (.field 1 0 false, 9),
      (.field 2 0 false, 7)],
      [⟨0, 1, .field⟩, ⟨0, 2, .partition⟩, ⟨2, 3, .field⟩, ⟨3, 4, .field⟩, ⟨3, 5, .partition⟩, ⟨5, 6, .field⟩, ⟨3, 7, .field⟩,
        ⟨3, 7, .requiredBySupergraph⟩, ⟨5, 7, .requiredBySubgraph⟩]⟩ := by decide +kernel

example : ((ingestNodes ex [2, 4, 8, 10, 11, 14, 15] 8).get?.map fun g => (assignRootTypenames some 9 9 g 0).edges) = some
    [⟨0, 2, .partition⟩, ⟨2, 3, .field⟩, ⟨3, 4, .field⟩, ⟨3, 5, .partition⟩, ⟨5, 6, .field⟩, ⟨3, 7, .field⟩,
        ⟨3, 7, .requiredBySupergraph⟩, ⟨5, 7, .requiredBySubgraph⟩, ⟨2, 1, .field⟩] := by decide +kernel

/-- With `{ __typename }` alone there is a new partition. -/
example : assignRootTypenames some 9 9 ⟨[(.root, 0), (.field 3 0 true, 10)], [⟨0, 1, .field⟩]⟩ 0 =
    ⟨[(.root, 0), (.field 3 0 true, 10), (.partition 9 9, 0)], [⟨0, 2, .partition⟩, ⟨2, 1, .field⟩]⟩ := by decide +kernel

/-- The name is indispensable; the id is, as it was not asked for, not. -/
def exLeaf : List (Nat × Bool) := [(2, true), (3, false)]

theorem plan_of {n : Nat} {sp : SteinerInput.Space} {c : Updater.Cfg} {es : List Nat} (h : (SteinerInput.plan sp n c).get?.map (fun x => x.2.2.2) = some es) :
    ∃ b t inp, SteinerInput.plan sp n c = .ok (b, t, inp, es) := by
  cases hp : SteinerInput.plan sp n c with
  | ok a =>
    obtain ⟨b, t, inp, es'⟩ := a
    rw [hp] at h
    simp only [Out.get?, Option.map_some, Option.some.injEq] at h
    subst h
    exact ⟨b, t, inp, rfl⟩
  | panic => rw [hp] at h; cases h
  | timeout => rw [hp] at h; cases h
  | cycle => rw [hp] at h; cases h

/-- What the gateway requires for a field of the plan need not be in the plan: only the solver knows that the id is needed for
the second subgraph, from which nothing is taken. -/
theorem C66_gateway_lost : ex.Typed ∧ ∃ b t inp es g, SteinerInput.plan (ex.steiner exLeaf) 50 Updater.cfg = .ok (b, t, inp, es) ∧
    ingestNodes ex es 10 = .ok g ∧ g.StandsFor ex 3 1 ∧ ⟨1, 3, .requires⟩ ∈ ex.edges ∧ (¬ ∃ i, g.StandsFor ex i 3) ∧
    ∀ e ∈ g.edges, e.kind ≠ .requiredBySupergraph := by
  refine ⟨ex_typed, ?_⟩
  obtain ⟨b, t, inp, h⟩ := plan_of (sp := ex.steiner exLeaf) (n := 50) (c := Updater.cfg) (es := [7, 6, 4, 2]) (by decide +kernel)
  refine ⟨b, t, inp, _, ⟨[(.root, 0), (.field 3 0 true, 10), (.partition 0 0, 4), (.field 0 0 false, 5), (.field 4 0 true, 11), (.field 1 0 false, 6)],
    [⟨0, 1, .field⟩, ⟨0, 2, .partition⟩, ⟨2, 3, .field⟩, ⟨3, 4, .field⟩, ⟨3, 5, .field⟩]⟩, h, ?_, ⟨0, 0, false, 5, rfl, rfl, by decide +kernel⟩,
    by decide +kernel, ?_, by decide +kernel⟩
  · rfl
  · rintro ⟨i, id, s, b, n, h1, h2, h3⟩
    have h1' : id = 2 := by cases h1; rfl
    subst h1'
    have := List.mem_of_getElem? h2
    simp at this

/-- With the id indispensable it is in the plan. -/
example : ∃ b t inp es g i j, SteinerInput.plan (ex.steiner [(2, true), (3, true)]) 50 Updater.cfg = .ok (b, t, inp, es) ∧
    ingestNodes ex es 10 = .ok g ∧ g.StandsFor ex j 3 ∧ ⟨i, j, .requiredBySupergraph⟩ ∈ g.edges := by
  obtain ⟨b, t, inp, h⟩ := plan_of (sp := ex.steiner [(2, true), (3, true)]) (n := 50) (c := Updater.cfg) (es := [7, 6, 4, 2, 15, 14, 4, 2]) (by decide +kernel)
  have hr : ∀ r, ⟨ex.root, r, .requires⟩ ∉ ex.edges := fun r hr => by
    have : ∀ d ∈ ex.edges, d.kind = .requires → d.src ≠ ex.root := by decide +kernel
    exact this _ hr rfl rfl
  obtain ⟨g, hg, -⟩ := C66_planned ex_typed (by decide) hr h (fuel := 10) (by decide)
  have h1 : g.StandsFor ex 3 1 := by
    have : (ingestNodes ex [7, 6, 4, 2, 15, 14, 4, 2] 10).get?.map (fun g => g.nodes[3]?) = some (some (.field 0 0 false, 5)) := by decide +kernel
    rw [hg] at this
    simp only [Out.get?, Option.map_some, Option.some.injEq] at this
    exact ⟨0, 0, false, 5, rfl, this, by decide +kernel⟩
  obtain ⟨j, h2, h3⟩ := C66_gateway_partial ex_typed (by decide) hr h hg h1 (r := 3) (by decide +kernel) (by decide) (by decide +kernel)
  exact ⟨b, t, inp, _, g, 3, j, h, hg, h2, h3⟩

/-- The first subgraph without the name. -/
def ex2 : Space := { ex with nodes := ex.nodes.set 6 .gone, edges := (ex.edges.set 6 ⟨5, 6, .gone⟩).set 7 ⟨6, 2, .gone⟩ }

theorem ex2_typed : ex2.Typed :=
  ⟨by decide +kernel, by decide +kernel, rfl, by decide +kernel, by decide +kernel, by decide +kernel, by decide +kernel, some_of (by decide +kernel),
    by decide +kernel, typenameOnce_of (by decide +kernel), requires_of (by decide +kernel)⟩

example : ∃ b t inp es g i j, SteinerInput.plan (ex2.steiner exLeaf) 50 Updater.cfg = .ok (b, t, inp, es) ∧
    ingestNodes ex2 es 10 = .ok g ∧ g.MadeFor i 8 ∧ g.StandsFor ex2 j 3 ∧ ⟨i, j, .requiredBySubgraph⟩ ∈ g.edges := by
  obtain ⟨b, t, inp, h⟩ := plan_of (sp := ex2.steiner exLeaf) (n := 50) (c := Updater.cfg) (es := [15, 14, 4, 2, 11, 10, 8, 4, 2]) (by decide +kernel)
  have hr : ∀ r, ⟨ex2.root, r, .requires⟩ ∉ ex2.edges := fun r hr => by
    have : ∀ d ∈ ex2.edges, d.kind = .requires → d.src ≠ ex2.root := by decide +kernel
    exact this _ hr rfl rfl
  obtain ⟨g, hg, -⟩ := C66_planned ex2_typed (by decide) hr h (fuel := 10) (by decide)
  have hc := plan_chosen ex2_typed (by decide) hr h
  obtain ⟨i, hi⟩ := ((C66_nodes ex2_typed hc hg).1 8).2 (.source (by decide +kernel)
    (.step (e := 8) (d := ⟨5, 8, .createChildResolver⟩) (by decide) rfl (.step (e := 4) (d := ⟨4, 5, .canProvide⟩) (by decide) rfl
      (.step (e := 2) (d := ⟨0, 4, .createChildResolver⟩) (by decide) rfl .root))))
  obtain ⟨j, h2, h3⟩ := C66_needs_partial ex2_typed (by decide) hr (SteinerInput.uniform_of (by decide +kernel)) h hg hi (by decide +kernel) (r := 3) (x := false)
    (by decide +kernel) (by decide) (by decide +kernel)
  exact ⟨b, t, inp, _, g, i, j, h, hg, hi, h2, h3⟩

end Verif.QueryGraph
