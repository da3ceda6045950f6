import Verif.QueryGraph.Visit
import Mathlib.Tactic.Tauto
/-!
# What holds during the loop
-/
namespace Verif.QueryGraph

open Verif.Updater (Out)

variable {sp : Space} {es : List Nat} {st st' : St}

/-- The nodes of the space with a node in the query graph. -/
def QGraph.origins (g : QGraph) : List Nat := g.nodes.map Prod.snd

/-- Why a node is below its parent. -/
def Made (sp : Space) (es : List Nat) (N : List (QNode × Nat)) (e : QEdge) (q : QNode) (n : Nat) : Prop :=
  (Label sp n q e.kind ∧ ∃ a d qp, a ∈ es ∧ sp.edges[a]? = some d ∧ d.dst = n ∧ N[e.src]? = some (qp, d.src)) ∨
  (e.kind = .field ∧ ∃ a d, sp.edges[a]? = some d ∧ d.kind = .typename ∧ d.dst = n ∧ (q, n) = tlabel sp a ∧
    ((e.src = 0 ∧ d.src = sp.root) ∨ ∃ qp np, N[e.src]? = some (qp, np) ∧ ⟨np, d.src, .provides⟩ ∈ sp.edges))

/-- What node `n` with the number `r.src` requires. -/
def Asks (sp : Space) (n : Nat) (r : QEdge) : Prop :=
  (r.kind = .requiredBySubgraph ∧ ⟨n, r.dst, .requires⟩ ∈ sp.edges) ∨
    (r.kind = .requiredBySupergraph ∧ ∃ f, ⟨n, f, .provides⟩ ∈ sp.edges ∧ ⟨f, r.dst, .requires⟩ ∈ sp.edges)

structure Inv (sp : Space) (es : List Nat) (st : St) : Prop where
  root : st.graph.nodes[0]? = some (.root, sp.root)
  only : OnlyTypenames sp st.removed
  len : st.graph.edges.length + 1 = st.graph.nodes.length
  tree : ∀ (k : Nat) (e : QEdge), st.graph.edges[k]? = some e → e.dst = k + 1 ∧ e.src ≤ k ∧ (e.kind = .partition ∨ e.kind = .field)
  made : ∀ (k : Nat) (e : QEdge) (q : QNode) (n : Nat), st.graph.edges[k]? = some e → st.graph.nodes[k + 1]? = some (q, n) → Made sp es st.graph.nodes e q n
  nodup : (st.graph.origins ++ st.stack.map Prod.snd).Nodup
  stack : ∀ x ∈ st.stack, ∃ a d q, a ∈ es ∧ sp.edges[a]? = some d ∧ d.dst = x.2 ∧ st.graph.nodes[x.1]? = some (q, d.src)
  complete : ∀ n ∈ st.graph.origins, ∀ (a : Nat) (d : SEdge), a ∈ es → sp.edges[a]? = some d → d.src = n → d.kind ≠ .provides →
    d.dst ∈ st.graph.origins ∨ d.dst ∈ st.stack.map Prod.snd
  typename : ∀ (a : Nat) (d : SEdge), sp.edges[a]? = some d → d.kind = .typename → (d.dst ∈ st.graph.origins ↔ d.src = sp.root ∨ a ∈ st.removed)
  removed : ∀ (a : Nat) (d : SEdge), sp.edges[a]? = some d → d.kind = .typename → (a ∈ st.removed ↔ ∃ n ∈ st.graph.origins, ⟨n, d.src, .provides⟩ ∈ sp.edges)
  required : ∀ r, r ∈ st.required ↔ ∃ q n, st.graph.nodes[r.src]? = some (q, n) ∧ (sp.node n).IsSource ∧ Asks sp n r
  keys : ∀ x, x ∈ st.keys ↔ ∃ i id split b n, st.graph.nodes[i]? = some (.field id split b, n) ∧ sp.node n = .providable ∧ x = ((id, split), i)

/-- A chosen edge leads to a source or to a field. -/
theorem Chosen.kinds (ht : sp.Typed) (hc : Chosen sp es) {a : Nat} {d : SEdge} (ha : a ∈ es) (hd : sp.edges[a]? = some d) :
    ((sp.node d.dst).IsSource ∧ d.kind ≠ .provides ∨ (sp.node d.dst).IsField false ∧ d.kind = .provides) ∧ (d.src = sp.root ∨ (sp.node d.src).IsSource) := by
  obtain ⟨d', h1, h2⟩ := hc.step a ha
  rw [hd, Option.some.injEq] at h1
  subst h1
  have hm := mem_edges.2 ⟨a, hd⟩
  rcases h2 with h | h | h
  · have := ht.create d hm h
    exact ⟨.inl ⟨.inl this.1, by simp [h]⟩, this.2.imp id .inr⟩
  · have := ht.canProvide d hm h
    exact ⟨.inl ⟨.inr this.1, by simp [h]⟩, .inr this.2⟩
  · have := ht.provides d hm h
    exact ⟨.inr ⟨this.2, h⟩, .inr (.inr this.1)⟩

theorem source_not_field {v : Node} {b : Bool} (h : v.IsSource) : ¬ v.IsField b := by
  rintro ⟨_, _, rfl⟩
  rcases h with ⟨_, _, h⟩ | h <;> cases h

theorem root_not {n : Nat} (ht : sp.Typed) (h : (sp.node n).IsSource ∨ ∃ b, (sp.node n).IsField b) : n ≠ sp.root := by
  rintro rfl
  rw [ht.root] at h
  rcases h with (⟨_, _, h⟩ | h) | ⟨b, _, _, h⟩ <;> cases h

theorem field_inj {v : Node} {b b' : Bool} (h : v.IsField b) (h' : v.IsField b') : b = b' := by
  obtain ⟨_, _, rfl⟩ := h
  obtain ⟨_, _, h'⟩ := h'
  cases h'; rfl

theorem Made.mono {N M : List (QNode × Nat)} {e : QEdge} {q : QNode} {n : Nat} (h : Made sp es N e q n) : Made sp es (N ++ M) e q n := by
  have mono : ∀ {i : Nat} {x : QNode × Nat}, N[i]? = some x → (N ++ M)[i]? = some x := fun hx => by
    rw [List.getElem?_append_left (List.getElem?_eq_some_iff.1 hx).1]; exact hx
  rcases h with ⟨h1, a, d, qp, h2, h3, h4, h5⟩ | ⟨h1, a, d, h2, h3, h4, h5, h6⟩
  · exact .inl ⟨h1, a, d, qp, h2, h3, h4, mono h5⟩
  · refine .inr ⟨h1, a, d, h2, h3, h4, h5, h6.imp id ?_⟩
    rintro ⟨qp, np, h7, h8⟩
    exact ⟨qp, np, mono h7, h8⟩

theorem mem_origins {g : QGraph} {n : Nat} : n ∈ g.origins ↔ ∃ (i : Nat) (q : QNode), g.nodes[i]? = some (q, n) := by
  simp only [QGraph.origins, List.mem_map]
  constructor
  · rintro ⟨⟨q, m⟩, h, rfl⟩
    obtain ⟨i, hi⟩ := List.mem_iff_getElem?.1 h
    exact ⟨i, q, hi⟩
  · rintro ⟨i, q, h⟩
    exact ⟨_, List.mem_of_getElem? h, rfl⟩

/-- What has a node other than the root was reached by a chosen edge from a node, or is a `__typename`. -/
theorem Inv.came (h : Inv sp es st) {n : Nat} (hn : n ∈ st.graph.origins) :
    n = sp.root ∨ (∃ (a : Nat) (d : SEdge), a ∈ es ∧ sp.edges[a]? = some d ∧ d.dst = n ∧ d.src ∈ st.graph.origins) ∨ ∃ (a : Nat) (d : SEdge), sp.edges[a]? = some d ∧ d.kind = .typename ∧ d.dst = n := by
  obtain ⟨i, q, hi⟩ := mem_origins.1 hn
  cases i with
  | zero =>
    rw [h.root, Option.some.injEq, Prod.mk.injEq] at hi
    exact .inl hi.2.symm
  | succ k =>
    have hk : k < st.graph.edges.length := by
      have := (List.getElem?_eq_some_iff.1 hi).1
      have := h.len
      omega
    rcases h.made k _ q n (List.getElem?_eq_getElem hk) hi with ⟨-, a, d, qp, h2, h3, h4, h5⟩ | ⟨-, a, d, h2, h3, h4, -⟩
    · exact .inr (.inl ⟨a, d, h2, h3, h4, mem_origins.2 ⟨_, _, h5⟩⟩)
    · exact .inr (.inr ⟨a, d, h2, h3, h4⟩)

theorem tlabels {T : List Nat} : (T.map (tlabel sp)).map Prod.snd = T.map fun e => (sp.edge e).dst := by
  rw [List.map_map]
  exact List.map_congr_left fun e _ => tlabel_snd

theorem nodup_parts {O R T C : List Nat} {x : Nat} (h : (O ++ x :: R).Nodup) (hT : T.Nodup) (hC : C.Nodup)
    (h1 : ∀ y ∈ T, y ∉ O ∧ y ∉ x :: R ∧ y ∉ C) (h2 : ∀ y ∈ C, y ∉ O ∧ y ∉ x :: R) : (O ++ x :: T ++ (C.reverse ++ R)).Nodup := by
  have hp : (O ++ x :: T ++ (C.reverse ++ R)).Perm ((O ++ x :: R) ++ (T ++ C)) := by
    rw [List.perm_iff_count]
    intro a
    simp only [List.count_append, List.count_cons, List.count_reverse]
    omega
  rw [hp.nodup_iff, List.nodup_append]
  refine ⟨h, List.nodup_append.2 ⟨hT, hC, fun a ha b hb hab => (h1 a ha).2.2 (by rw [hab]; exact hb)⟩, fun a ha b hb hab => ?_⟩
  subst hab
  rcases List.mem_append.1 hb with hb | hb
  · rcases List.mem_append.1 ha with ha | ha
    · exact (h1 a hb).1 ha
    · exact (h1 a hb).2.1 ha
  · rcases List.mem_append.1 ha with ha | ha
    · exact (h2 a hb).1 ha
    · exact (h2 a hb).2 ha

theorem Inv.skip (ht : sp.Typed) (hc : Chosen sp es) (h : Inv sp es st) {p x : Nat} {rest : List (Nat × Nat)} (hs : st.stack = (p, x) :: rest)
    (hx : (sp.node x).IsField false) : Inv sp es { st with stack := rest } := by
  refine ⟨h.root, h.only, h.len, h.tree, h.made, ?_, fun y hy => h.stack y (by rw [hs]; simp [hy]), ?_, h.typename, h.removed, h.required, h.keys⟩
  · have := h.nodup
    rw [hs] at this
    exact this.sublist (List.Sublist.append (List.Sublist.refl _) (List.Sublist.map _ (List.sublist_cons_self _ _)))
  · intro n hn a d ha hd hsrc hk
    rcases h.complete n hn a d ha hd hsrc hk with j | j
    · exact .inl j
    · rw [hs] at j
      simp only [List.map_cons, List.mem_cons] at j
      rcases j with j | j
      · rcases (hc.kinds ht ha hd).1 with g | g
        · rw [j] at g
          exact absurd hx (source_not_field g.1)
        · exact absurd g.2 hk
      · exact .inr j

theorem Inv.visit (ht : sp.Typed) (hc : Chosen sp es) (h : Inv sp es st) {p x : Nat} {rest : List (Nat × Nat)} (hs : st.stack = (p, x) :: rest)
    {q : QNode} {k : QKind} {T C : List Nat} {R : List QEdge} {K : List ((Nat × Nat) × Nat)}
    (v : Visit sp es { st with stack := rest } st' p x q k T C R K) : Inv sp es st' := by
  obtain ⟨label, nodes, edges, stack, removed, required, keys, tnodup, cnodup, memT, memC, memR, memK⟩ := v
  simp only at nodes edges stack removed required keys memT memC memR
  have hsrc : (sp.node x).IsSource := by
    cases label with
    | partition h => exact .inl ⟨_, _, h⟩
    | field h => exact .inr h
  obtain ⟨ax, dx, qp, hax, hdx, hdst, hpx⟩ := h.stack (p, x) (by rw [hs]; simp)
  simp only at hdst hpx
  have hp : p < st.graph.nodes.length := (List.getElem?_eq_some_iff.1 hpx).1
  have hnd := h.nodup
  rw [hs, List.map_cons] at hnd
  have hxO : x ∉ st.graph.origins := fun hc => (List.nodup_append.1 hnd).2.2 x hc x (by simp) rfl
  have hO : st'.graph.origins = st.graph.origins ++ x :: T.map fun e => (sp.edge e).dst := by
    simp only [QGraph.origins, nodes, List.map_append, List.map_cons, tlabels]
  have mono : ∀ {i : Nat} {y : QNode × Nat}, st.graph.nodes[i]? = some y → st'.graph.nodes[i]? = some y := fun hy => by
    rw [nodes, List.getElem?_append_left (List.getElem?_eq_some_iff.1 hy).1]; exact hy
  have hi : st'.graph.nodes[st.graph.nodes.length]? = some (q, x) := by
    rw [nodes, List.getElem?_append_right (Nat.le_refl _)]; simp
  have hlen := h.len
  -- the nodes of `T`
  have tk : ∀ e ∈ T, ∃ d, sp.edges[e]? = some d ∧ d.kind = .typename ∧ sp.edge e = d ∧ (sp.node d.dst).IsField true ∧ (sp.node d.src).IsField false ∧
      e ∉ st.removed ∧ ⟨x, d.src, .provides⟩ ∈ sp.edges := fun e he => by
    obtain ⟨h1, d, h2, h3, h4⟩ := (memT e).1 he
    exact ⟨d, h2, h3, edge_of h2, (ht.typename d (mem_edges.2 ⟨e, h2⟩) h3).1, (ht.provides _ h4 rfl).2, h1, h4⟩
  have ck : ∀ e ∈ C, ∃ d, sp.edges[e]? = some d ∧ e ∈ es ∧ sp.edge e = d ∧ d.src = x := fun e he => by
    obtain ⟨h1, d, h2, h3⟩ := (memC e).1 he
    exact ⟨d, h2, h1, edge_of h2, h3⟩
  -- cases of a node
  have cases' : ∀ {i : Nat} {q' : QNode} {n : Nat}, st'.graph.nodes[i]? = some (q', n) → st.graph.nodes[i]? = some (q', n) ∨ (i = st.graph.nodes.length ∧ q' = q ∧ n = x) ∨
      ∃ j e, i = st.graph.nodes.length + 1 + j ∧ T[j]? = some e ∧ (q', n) = tlabel sp e := by
    intro i q' n hq
    rw [nodes] at hq
    by_cases hl : i < st.graph.nodes.length
    · rw [List.getElem?_append_left hl] at hq; exact .inl hq
    · rw [List.getElem?_append_right (by omega)] at hq
      obtain ⟨j, hj⟩ : ∃ j, i = st.graph.nodes.length + j := ⟨i - st.graph.nodes.length, by omega⟩
      subst hj
      rw [Nat.add_sub_cancel_left] at hq
      cases j with
      | zero =>
        simp only [List.getElem?_cons_zero, Option.some.injEq, Prod.mk.injEq] at hq
        exact .inr (.inl ⟨rfl, hq.1.symm, hq.2.symm⟩)
      | succ j =>
        simp only [List.getElem?_cons_succ, List.getElem?_map, Option.map_eq_some_iff] at hq
        obtain ⟨e, h1, h2⟩ := hq
        exact .inr (.inr ⟨j, e, by omega, h1, h2.symm⟩)
  refine ⟨mono h.root, ?_, ?_, ?_, ?_, ?_, ?_, ?_, ?_, ?_, ?_, ?_⟩
  · intro e he
    rw [removed, List.mem_append] at he
    rcases he with he | he
    · exact h.only e he
    · obtain ⟨d, h1, h2, -⟩ := tk e he
      exact ⟨d, h1, h2⟩
  · rw [nodes, edges]
    simp only [List.length_append, List.length_cons, List.length_map, below, List.length_range]
    omega
  · intro j e he
    rw [edges] at he
    by_cases hl : j < st.graph.edges.length
    · rw [List.getElem?_append_left hl] at he
      exact h.tree j e he
    · rw [List.getElem?_append_right (by omega)] at he
      obtain ⟨m, hm⟩ : ∃ m, j = st.graph.edges.length + m := ⟨j - st.graph.edges.length, by omega⟩
      subst hm
      rw [Nat.add_sub_cancel_left] at he
      cases m with
      | zero =>
        simp only [List.getElem?_cons_zero, Option.some.injEq] at he
        subst he
        refine ⟨by simp only; omega, by simp only; omega, ?_⟩
        cases label <;> simp
      | succ m =>
        simp only [List.getElem?_cons_succ, below, List.getElem?_map, Option.map_eq_some_iff] at he
        obtain ⟨a, h1, rfl⟩ := he
        rw [List.getElem?_eq_some_iff] at h1
        obtain ⟨h1, h2⟩ := h1
        simp only [List.getElem_range] at h2
        subst h2
        exact ⟨by simp only; omega, by simp only; omega, .inr rfl⟩
  · intro j e q' n he hq
    rw [edges] at he
    by_cases hl : j < st.graph.edges.length
    · rw [List.getElem?_append_left hl] at he
      rw [nodes, List.getElem?_append_left (by omega)] at hq
      rw [nodes]
      exact (h.made j e q' n he hq).mono
    · rw [List.getElem?_append_right (by omega)] at he
      obtain ⟨m, hm⟩ : ∃ m, j = st.graph.edges.length + m := ⟨j - st.graph.edges.length, by omega⟩
      subst hm
      rw [Nat.add_sub_cancel_left] at he
      rcases cases' hq with hq | ⟨h1, rfl, rfl⟩ | ⟨j', e', h1, h2, h3⟩
      · have := (List.getElem?_eq_some_iff.1 hq).1; omega
      · have hm : m = 0 := by omega
        subst hm
        simp only [List.getElem?_cons_zero, Option.some.injEq] at he
        subst he
        exact .inl ⟨label, ax, dx, qp, hax, hdx, hdst, mono hpx⟩
      · have hm : m = j' + 1 := by omega
        subst hm
        simp only [List.getElem?_cons_succ, below, List.getElem?_map, Option.map_eq_some_iff] at he
        obtain ⟨a, -, rfl⟩ := he
        obtain ⟨d, k1, k2, k3, k4, k5, k6, k7⟩ := tk e' (List.mem_of_getElem? h2)
        refine .inr ⟨rfl, e', d, k1, k2, ?_, h3, .inr ⟨q, x, hi, k7⟩⟩
        have := congrArg Prod.snd h3
        rw [tlabel_snd, k3] at this
        exact this.symm
  · rw [hO, stack, List.map_append, List.map_reverse, List.map_map]
    have hC : ∀ e ∈ C, ∀ b, (sp.node (sp.edge e).dst).IsField b → b = false := fun e he b hb => by
      obtain ⟨d, k1, k2, k3, k4⟩ := ck e he
      rw [k3] at hb
      rcases (hc.kinds ht k2 k1).1 with g | g
      · exact absurd hb (source_not_field g.1)
      · exact field_inj hb g.1
    -- where a child cannot be
    have away : ∀ e ∈ C, ∀ (a : Nat) (d : SEdge), a ∈ es → sp.edges[a]? = some d → d.dst = (sp.edge e).dst → d.src ∉ st.graph.origins := fun e he a d ha hd hdd hm => by
      obtain ⟨d', k1, k2, k3, k4⟩ := ck e he
      rw [k3] at hdd
      have := hc.once a e d d' ha k2 hd k1 hdd
      subst this
      rw [hd, Option.some.injEq] at k1
      subst k1
      rw [k4] at hm
      exact hxO hm
    have hCO : ∀ e ∈ C, (sp.edge e).dst ∉ st.graph.origins := fun e he hm => by
      rcases h.came hm with g | ⟨a, d, g1, g2, g3, g4⟩ | ⟨a, d, g1, g2, g3⟩
      · obtain ⟨d', k1, k2, k3, k4⟩ := ck e he
        rw [k3] at g
        exact hc.root e d' k2 k1 g
      · exact away e he a d g1 g2 g3 g4
      · have := hC e he true (by rw [← g3]; exact (ht.typename d (mem_edges.2 ⟨a, g1⟩) g2).1)
        cases this
    have hCs : ∀ e ∈ C, (sp.edge e).dst ∉ st.stack.map Prod.snd := fun e he hm => by
      obtain ⟨y, hy, hy2⟩ := List.mem_map.1 hm
      obtain ⟨a, d, q', g1, g2, g3, g4⟩ := h.stack y hy
      exact away e he a d g1 g2 (g3.trans hy2) (mem_origins.2 ⟨_, _, g4⟩)
    have hCn : (C.map fun e => (sp.edge e).dst).Nodup := by
      rw [List.nodup_map_iff_inj_on cnodup]
      intro e he e' he' heq
      obtain ⟨d, k1, k2, k3, k4⟩ := ck e he
      obtain ⟨d', k1', k2', k3', k4'⟩ := ck e' he'
      rw [k3, k3'] at heq
      exact hc.once e e' d d' k2 k2' k1 k1' heq
    have hTn : (T.map fun e => (sp.edge e).dst).Nodup := by
      rw [List.nodup_map_iff_inj_on tnodup]
      intro e he e' he' heq
      obtain ⟨d, k1, k2, k3, -⟩ := tk e he
      obtain ⟨d', k1', k2', k3', -⟩ := tk e' he'
      rw [k3, k3'] at heq
      exact ht.typenameOnce e e' d d' k1 k1' k2 k2' heq
    have hTf : ∀ y ∈ T.map (fun e => (sp.edge e).dst), (sp.node y).IsField true ∧ y ∉ st.graph.origins := fun y hy => by
      obtain ⟨e, he, rfl⟩ := List.mem_map.1 hy
      obtain ⟨d, k1, k2, k3, k4, k5, k6, k7⟩ := tk e he
      rw [k3]
      refine ⟨k4, fun hm => ?_⟩
      rcases (h.typename e d k1 k2).1 hm with g | g
      · exact root_not ht (.inr ⟨_, k5⟩) g
      · exact k6 g
    have hSf : ∀ y ∈ st.stack.map Prod.snd, ¬ (sp.node y).IsField true := fun y hy hf => by
      obtain ⟨z, hz, rfl⟩ := List.mem_map.1 hy
      obtain ⟨a, d, q', g1, g2, g3, g4⟩ := h.stack z hz
      rw [← g3] at hf
      rcases (hc.kinds ht g1 g2).1 with g | g
      · exact source_not_field g.1 hf
      · cases field_inj hf g.1
    have hcm : ∀ y, y ∈ C.map (fun e => (sp.edge e).dst) → y ∉ st.graph.origins ∧ y ∉ st.stack.map Prod.snd ∧ ¬ (sp.node y).IsField true := fun y hy => by
      obtain ⟨e, he, rfl⟩ := List.mem_map.1 hy
      exact ⟨hCO e he, hCs e he, fun hf => by cases hC e he true hf⟩
    rw [hs, List.map_cons] at hSf hcm
    have hcf : (Prod.snd ∘ fun e => (st.graph.nodes.length, (sp.edge e).dst)) = fun e => (sp.edge e).dst := rfl
    rw [hcf]
    exact nodup_parts hnd hTn hCn (fun y hy => ⟨(hTf y hy).2, fun hm => hSf y hm (hTf y hy).1, fun hm => (hcm y hm).2.2 (hTf y hy).1⟩)
      fun y hy => ⟨(hcm y hy).1, (hcm y hy).2.1⟩
  · intro y hy
    rw [stack, List.mem_append, List.mem_reverse, List.mem_map] at hy
    rcases hy with ⟨e, he, rfl⟩ | hy
    · obtain ⟨d, k1, k2, k3, k4⟩ := ck e he
      exact ⟨e, d, q, k2, k1, by rw [k3], by rw [k4]; exact hi⟩
    · obtain ⟨a, d, q', g1, g2, g3, g4⟩ := h.stack y (by rw [hs]; simp [hy])
      exact ⟨a, d, q', g1, g2, g3, mono g4⟩
  · intro n hn a d ha hd hdn hk
    rw [hO, List.mem_append, List.mem_cons] at hn
    have hmem : ∀ y, y ∈ st.graph.origins ∨ y = x ∨ y ∈ rest.map Prod.snd → y ∈ st'.graph.origins ∨ y ∈ st'.stack.map Prod.snd := fun y hy => by
      rw [hO, stack, List.map_append]
      rcases hy with h | h | h
      · simp [h]
      · simp [h]
      · exact .inr (List.mem_append.2 (.inr h))
    rcases hn with hn | rfl | hn
    · have := h.complete n hn a d ha hd hdn hk
      rw [hs, List.map_cons, List.mem_cons] at this
      exact hmem _ this
    · right
      rw [stack, List.map_append, List.mem_append]
      left
      rw [List.mem_map]
      exact ⟨(st.graph.nodes.length, d.dst), List.mem_reverse.2 (List.mem_map.2 ⟨a, (memC a).2 ⟨ha, d, hd, hdn⟩, by rw [edge_of hd]⟩), rfl⟩
    · obtain ⟨e, he, hee⟩ := List.mem_map.1 hn
      obtain ⟨d', k1, k2, k3, k4, -⟩ := tk e he
      rw [k3] at hee
      subst hee
      rcases (hc.kinds ht ha hd).2 with g | g
      · exact absurd (hdn.symm.trans g) (root_not ht (.inr ⟨_, k4⟩))
      · rw [hdn] at g
        exact absurd k4 (source_not_field g)
  · intro a d hd hk
    rw [hO, List.mem_append, List.mem_cons, removed, List.mem_append]
    have hx : d.dst ≠ x := fun hc => source_not_field hsrc (by rw [← hc]; exact (ht.typename d (mem_edges.2 ⟨a, hd⟩) hk).1)
    have hT : d.dst ∈ T.map (fun e => (sp.edge e).dst) ↔ a ∈ T := by
      rw [List.mem_map]
      constructor
      · rintro ⟨e, he, hee⟩
        obtain ⟨d', k1, k2, k3, -⟩ := tk e he
        rw [k3] at hee
        have := ht.typenameOnce e a d' d k1 hd k2 hk hee
        subst this
        exact he
      · intro ha
        exact ⟨a, ha, by rw [edge_of hd]⟩
    rw [h.typename a d hd hk, hT]
    tauto
  · intro a d hd hk
    rw [removed, List.mem_append, h.removed a d hd hk, memT]
    constructor
    · rintro (⟨n, h1, h2⟩ | ⟨h1, d', h2, h3, h4⟩)
      · exact ⟨n, by rw [hO]; simp [h1], h2⟩
      · rw [hd, Option.some.injEq] at h2
        subst h2
        exact ⟨x, by rw [hO]; simp, h4⟩
    · rintro ⟨n, h1, h2⟩
      rw [hO, List.mem_append, List.mem_cons] at h1
      rcases h1 with h1 | rfl | h1
      · exact .inl ⟨n, h1, h2⟩
      · by_cases hr : a ∈ st.removed
        · exact .inl ((h.removed a d hd hk).1 hr)
        · exact .inr ⟨hr, d, hd, hk, h2⟩
      · obtain ⟨e, he, hee⟩ := List.mem_map.1 h1
        obtain ⟨d', k1, k2, k3, k4, -⟩ := tk e he
        rw [k3] at hee
        have := (ht.provides _ h2 rfl).1
        simp only at this
        rw [← hee] at this
        exact absurd k4 (source_not_field (.inr this))
  · intro r
    rw [required, List.mem_append, h.required, memR]
    constructor
    · rintro (⟨q', n, h1, h2, h3⟩ | ⟨h1, h2⟩)
      · exact ⟨q', n, mono h1, h2, h3⟩
      · exact ⟨q, x, by rw [h1]; exact hi, hsrc, h2⟩
    · rintro ⟨q', n, h1, h2, h3⟩
      rcases cases' h1 with g | ⟨g1, rfl, rfl⟩ | ⟨j, e, g1, g2, g3⟩
      · exact .inl ⟨q', n, g, h2, h3⟩
      · exact .inr ⟨g1, h3⟩
      · obtain ⟨d', k1, k2, k3, k4, -⟩ := tk e (List.mem_of_getElem? g2)
        have := congrArg Prod.snd g3
        rw [tlabel_snd, k3] at this
        simp only at this
        rw [this] at h2
        exact absurd k4 (source_not_field h2)
  · intro y
    rw [keys, List.mem_append, h.keys, memK]
    constructor
    · rintro (⟨i, id, s, b, n, h1, h2, h3⟩ | ⟨id, s, b, rfl, h2⟩)
      · exact ⟨i, id, s, b, n, mono h1, h2, h3⟩
      · refine ⟨_, id, s, b, x, hi, ?_, h2⟩
        cases label with
        | field h => exact h
    · rintro ⟨i, id, s, b, n, h1, h2, h3⟩
      rcases cases' h1 with g | ⟨g1, g2, rfl⟩ | ⟨j, e, g1, g2, g3⟩
      · exact .inl ⟨i, id, s, b, n, g, h2, h3⟩
      · exact .inr ⟨id, s, b, g2.symm, by rw [← g1]; exact h3⟩
      · obtain ⟨d', k1, k2, k3, k4, -⟩ := tk e (List.mem_of_getElem? g2)
        have := congrArg Prod.snd g3
        rw [tlabel_snd, k3] at this
        simp only at this
        rw [← this] at k4
        exact absurd k4 (source_not_field (.inr h2))

end Verif.QueryGraph
