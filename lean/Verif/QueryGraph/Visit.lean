import Verif.QueryGraph.Lemmas
import Mathlib.Data.List.Nodup
/-!
# One round of the loop
-/
namespace Verif.QueryGraph

open Verif.Updater (Out)

variable {sp : Space} {es : List Nat} {st st' : St}

/-- Only edges to `__typename` fields are removed. -/
def OnlyTypenames (sp : Space) (removed : List Nat) : Prop := ∀ e ∈ removed, ∃ d, sp.edges[e]? = some d ∧ d.kind = .typename

/-- The node made for a source. -/
inductive Label (sp : Space) : Nat → QNode → QKind → Prop
  | partition {n entity definition : Nat} : sp.node n = .resolver entity definition → Label sp n (.partition entity definition) .partition
  | field {n f id split : Nat} {b : Bool} : sp.node n = .providable → ⟨n, f, .provides⟩ ∈ sp.edges → sp.node f = .field id split b →
    Label sp n (.field id split b) .field

/-- Node `n` was visited: a node for it, nodes for the `__typename` fields `T` of what it provides, its children `C`,
requirements `R` and keys `K`. -/
structure Visit (sp : Space) (es : List Nat) (st st' : St) (p n : Nat) (q : QNode) (k : QKind) (T : List Nat) (C : List Nat) (R : List QEdge)
    (K : List ((Nat × Nat) × Nat)) : Prop where
  label : Label sp n q k
  nodes : st'.graph.nodes = st.graph.nodes ++ (q, n) :: T.map (tlabel sp)
  edges : st'.graph.edges = st.graph.edges ++ ⟨p, st.graph.nodes.length, k⟩ :: below st.graph.nodes.length (st.graph.nodes.length + 1) T
  stack : st'.stack = (C.map fun e => (st.graph.nodes.length, (sp.edge e).dst)).reverse ++ st.stack
  removed : st'.removed = st.removed ++ T
  required : st'.required = st.required ++ R
  keys : st'.keys = st.keys ++ K
  tnodup : T.Nodup
  cnodup : C.Nodup
  memT : ∀ e, e ∈ T ↔ e ∉ st.removed ∧ ∃ d, sp.edges[e]? = some d ∧ d.kind = .typename ∧ ⟨n, d.src, .provides⟩ ∈ sp.edges
  memC : ∀ e, e ∈ C ↔ e ∈ es ∧ ∃ d, sp.edges[e]? = some d ∧ d.src = n
  memR : ∀ r, r ∈ R ↔ r.src = st.graph.nodes.length ∧ ((r.kind = .requiredBySubgraph ∧ ⟨n, r.dst, .requires⟩ ∈ sp.edges) ∨
    (r.kind = .requiredBySupergraph ∧ ∃ f, ⟨n, f, .provides⟩ ∈ sp.edges ∧ ⟨f, r.dst, .requires⟩ ∈ sp.edges))
  memK : ∀ x, x ∈ K ↔ ∃ id split b, q = .field id split b ∧ x = ((id, split), st.graph.nodes.length)

theorem mem_edges {d : SEdge} : d ∈ sp.edges ↔ ∃ e : Nat, sp.edges[e]? = some d := List.mem_iff_getElem?

/-- The edges followed from a source. -/
theorem mem_follows (ht : sp.Typed) (hc : Chosen sp es) {removed : List Nat} (hr : OnlyTypenames sp removed) {n : Nat} (hn : (sp.node n).IsSource) (e : Nat) :
    e ∈ (sp.outgoing removed n).filter (follows sp es) ↔ e ∈ es ∧ ∃ d, sp.edges[e]? = some d ∧ d.src = n := by
  rw [List.mem_filter, mem_outgoing ht]
  constructor
  · rintro ⟨⟨d, h1, h2, h3, h4⟩, h5⟩
    unfold follows at h5
    rw [edge_of h1] at h5
    have hd := mem_edges.2 ⟨e, h1⟩
    split at h5
    · exact ⟨of_decide_eq_true h5, d, h1, h2⟩
    · exact ⟨of_decide_eq_true h5, d, h1, h2⟩
    · exact ⟨of_decide_eq_true h5, d, h1, h2⟩
    · rename_i hk
      rcases (ht.typename d hd hk).2 with h | ⟨a, b, h⟩
      · rw [← h2, h, ht.root] at hn
        rcases hn with ⟨_, _, hn⟩ | hn <;> cases hn
      · rw [← h2, h] at hn
        rcases hn with ⟨_, _, hn⟩ | hn <;> cases hn
    · cases h5
  · rintro ⟨he, d, h1, h2⟩
    obtain ⟨d', k1, k2⟩ := hc.step e he
    rw [h1, Option.some.injEq] at k1
    subst k1
    have hng : d.kind ≠ .gone ∧ d.kind ≠ .typename := by rcases k2 with h | h | h <;> simp [h]
    refine ⟨⟨d, h1, h2, hng.1, fun hx => ?_⟩, ?_⟩
    · obtain ⟨d', j1, j2⟩ := hr e hx
      rw [h1, Option.some.injEq] at j1
      subst j1
      exact hng.2 j2
    · unfold follows
      rw [edge_of h1]
      rcases k2 with h | h | h <;> simp [h, he]

theorem mem_requires (ht : sp.Typed) {removed : List Nat} (hr : OnlyTypenames sp removed) {n x : Nat} :
    (∃ e ∈ sp.outgoing removed n, isRequires sp e = true ∧ (sp.edge e).dst = x) ↔ ⟨n, x, .requires⟩ ∈ sp.edges := by
  constructor
  · rintro ⟨e, h1, h2, h3⟩
    obtain ⟨d, k1, k2, -⟩ := (mem_outgoing ht).1 h1
    rw [edge_of k1] at h3
    simp only [isRequires, edge_of k1, decide_eq_true_eq] at h2
    obtain ⟨a, b, c⟩ := d
    simp only at h2 h3 k2
    subst h2; subst h3; subst k2
    exact mem_edges.2 ⟨e, k1⟩
  · intro h
    obtain ⟨e, he⟩ := mem_edges.1 h
    refine ⟨e, (mem_outgoing ht).2 ⟨_, he, rfl, by simp, fun hx => ?_⟩, by simp [isRequires, edge_of he], by rw [edge_of he]⟩
    obtain ⟨d, j1, j2⟩ := hr e hx
    rw [he, Option.some.injEq] at j1
    subst j1
    simp at j2

theorem provides_one (ht : sp.Typed) {n f f' : Nat} (h : ⟨n, f, .provides⟩ ∈ sp.edges) (h' : ⟨n, f', .provides⟩ ∈ sp.edges) : f = f' :=
  ht.one _ h _ h' rfl rfl rfl

theorem visit_source (ht : sp.Typed) (hc : Chosen sp es) (hr : OnlyTypenames sp st.removed) {p n : Nat} (hn : (sp.node n).IsSource)
    (h : visit sp es st p n = some st') : ∃ q k T C R K, Visit sp es st st' p n q k T C R K := by
  rcases hn with ⟨ent, def', hn⟩ | hn
  · unfold visit at h
    simp only [hn, Option.some.injEq] at h
    subst h
    refine ⟨_, _, [], (sp.outgoing st.removed n).filter (follows sp es), _, [], ⟨.partition hn, rfl, ?_, rfl, by simp [expand], rfl, by simp [expand], List.nodup_nil,
      (outgoing_nodup ht).filter _, fun e => ?_, mem_follows ht hc hr (.inl ⟨_, _, hn⟩), fun r => ?_, fun x => ?_⟩⟩
    · simp [expand, QGraph.add, below]
    · refine ⟨fun h => by simp at h, ?_⟩
      rintro ⟨-, d, -, -, h⟩
      have := (ht.provides _ h rfl).1
      rw [hn] at this; cases this
    · rw [List.mem_map]
      constructor
      · rintro ⟨e, h1, rfl⟩
        rw [List.mem_filter] at h1
        exact ⟨rfl, .inl ⟨rfl, (mem_requires ht hr).1 ⟨e, h1.1, h1.2, rfl⟩⟩⟩
      · rintro ⟨h1, ⟨h2, h3⟩ | ⟨h2, f, h3, -⟩⟩
        · obtain ⟨e, k1, k2, k3⟩ := (mem_requires ht hr).2 h3
          refine ⟨e, List.mem_filter.2 ⟨k1, k2⟩, ?_⟩
          obtain ⟨a, b, c⟩ := r
          simp only at h1 h2 k3 ⊢
          subst h1; subst h2; subst k3; rfl
        · have := (ht.provides _ h3 rfl).1
          rw [hn] at this; cases this
    · simp
  · unfold visit at h
    simp only [hn] at h
    cases hp : provided sp st.removed n with
    | none => rw [hp] at h; cases h
    | some f =>
      rw [hp] at h
      simp only at h
      have hpf := provided_some ht hp
      obtain ⟨id, s, hf⟩ := (ht.provides _ hpf rfl).2
      simp only at hf
      simp only [hf, Option.some.injEq] at h
      rw [foldl_fieldEdge _ fun e he hk => by
        obtain ⟨d, k1, -⟩ := (mem_outgoing ht).1 he
        rw [edge_of k1] at hk ⊢
        exact (ht.typename d (mem_edges.2 ⟨e, k1⟩) hk).1] at h
      subst h
      have hr' : OnlyTypenames sp (st.removed ++ (sp.outgoing st.removed f).filter (isTypename sp)) := fun e he => by
        rcases List.mem_append.1 he with he | he
        · exact hr e he
        · obtain ⟨h1, h2⟩ := List.mem_filter.1 he
          obtain ⟨d, k1, -⟩ := (mem_outgoing ht).1 h1
          rw [isTypename, edge_of k1, decide_eq_true_eq] at h2
          exact ⟨d, k1, h2⟩
      refine ⟨_, _, (sp.outgoing st.removed f).filter (isTypename sp), (sp.outgoing (st.removed ++ (sp.outgoing st.removed f).filter (isTypename sp)) n).filter (follows sp es),
        ((sp.outgoing st.removed f).filter (isRequires sp)).map (fun e => ⟨st.graph.nodes.length, (sp.edge e).dst, .requiredBySupergraph⟩) ++
          ((sp.outgoing (st.removed ++ (sp.outgoing st.removed f).filter (isTypename sp)) n).filter (isRequires sp)).map
            (fun e => ⟨st.graph.nodes.length, (sp.edge e).dst, .requiredBySubgraph⟩),
        [((id, s), st.graph.nodes.length)], ⟨.field hn hpf hf, ?_, ?_, rfl, rfl, ?_, rfl, (outgoing_nodup ht).filter _,
        (outgoing_nodup ht).filter _, fun e => ?_, mem_follows ht hc hr' (.inr hn), fun r => ?_, fun x => ?_⟩⟩
      · simp [expand, QGraph.add]
      · simp [expand, QGraph.add]
      · simp only [expand, List.append_assoc]
        rfl
      · rw [List.mem_filter, mem_outgoing ht]
        constructor
        · rintro ⟨⟨d, h1, h2, h3, h4⟩, h5⟩
          rw [isTypename, edge_of h1, decide_eq_true_eq] at h5
          exact ⟨h4, d, h1, h5, by rw [h2]; exact hpf⟩
        · rintro ⟨h4, d, h1, h2, h3⟩
          exact ⟨⟨d, h1, provides_one ht h3 hpf, by simp [h2], h4⟩, by simp [isTypename, edge_of h1, h2]⟩
      · rw [List.mem_append, List.mem_map, List.mem_map]
        constructor
        · rintro (⟨e, h1, rfl⟩ | ⟨e, h1, rfl⟩)
          · rw [List.mem_filter] at h1
            exact ⟨rfl, .inr ⟨rfl, f, hpf, (mem_requires ht hr).1 ⟨e, h1.1, h1.2, rfl⟩⟩⟩
          · rw [List.mem_filter] at h1
            exact ⟨rfl, .inl ⟨rfl, (mem_requires ht hr').1 ⟨e, h1.1, h1.2, rfl⟩⟩⟩
        · rintro ⟨h1, ⟨h2, h3⟩ | ⟨h2, f', h3, h4⟩⟩
          · obtain ⟨e, k1, k2, k3⟩ := (mem_requires ht hr').2 h3
            refine .inr ⟨e, List.mem_filter.2 ⟨k1, k2⟩, ?_⟩
            obtain ⟨a, b, c⟩ := r
            simp only at h1 h2 k3 ⊢
            subst h1; subst h2; subst k3; rfl
          · cases provides_one ht h3 hpf
            obtain ⟨e, k1, k2, k3⟩ := (mem_requires ht hr).2 h4
            refine .inl ⟨e, List.mem_filter.2 ⟨k1, k2⟩, ?_⟩
            obtain ⟨a, b, c⟩ := r
            simp only at h1 h2 k3 ⊢
            subst h1; subst h2; subst k3; rfl
      · simp only [List.mem_singleton, QNode.field.injEq]
        constructor
        · rintro rfl
          exact ⟨id, s, false, ⟨rfl, rfl, rfl⟩, rfl⟩
        · rintro ⟨_, _, _, ⟨rfl, rfl, -⟩, rfl⟩
          rfl

theorem visit_field {p n : Nat} (hn : (sp.node n).IsField false) : visit sp es st p n = some st := by
  obtain ⟨id, s, hn⟩ := hn
  simp [visit, hn]

end Verif.QueryGraph
