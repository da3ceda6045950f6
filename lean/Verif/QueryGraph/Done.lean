import Verif.QueryGraph.Run
/-!
# The query graph
-/
namespace Verif.QueryGraph

open Verif.Updater (Out Out.bind_ok)

variable {sp : Space} {es : List Nat} {st st' : St} {g : QGraph} {fuel : Nat}

/-- The edges of the tree. -/
def QEdge.inTree (e : QEdge) : Bool := decide (e.kind = .partition ∨ e.kind = .field)

structure Done (sp : Space) (es : List Nat) (st : St) (L : List QEdge) (g : QGraph) : Prop where
  inv : Inv sp es st
  stack : st.stack = []
  nodes : g.nodes = st.graph.nodes
  edges : g.edges = st.graph.edges ++ L
  links : ∀ e, e ∈ L ↔ ∃ r ∈ st.required, r.src = e.src ∧ r.kind = e.kind ∧ ∃ id split b, sp.node r.dst = .field id split b ∧ ((id, split), e.dst) ∈ st.keys
  kinds : ∀ e ∈ L, e.inTree = false

theorem ingest_done (ht : sp.Typed) (hc : Chosen sp es) (h : ingestNodes sp es fuel = .ok g) : ∃ st L, Done sp es st L g := by
  unfold ingestNodes at h
  obtain ⟨st, h1, h2⟩ := Out.bind_ok h
  rcases (Inv.start ht hc).loop ht hc fuel h1 with h | ⟨st', h3, h4, h5⟩
  · cases h
  · cases h3
    obtain ⟨k1, L, k2, k3⟩ := link_ok h2
    refine ⟨_, L, h4, h5, k1, k2, k3, fun e he => ?_⟩
    obtain ⟨r, j1, j2, j3, -⟩ := (k3 e).1 he
    obtain ⟨q, n, -, -, hr⟩ := (h4.required r).1 j1
    rcases hr with ⟨hr, -⟩ | ⟨hr, -⟩ <;> rw [hr] at j3 <;> simp [QEdge.inTree, ← j3]

theorem ingest_ends (ht : sp.Typed) (hc : Chosen sp es) (hf : es.length < fuel) : ∃ g, ingestNodes sp es fuel = .ok g := by
  have := start_measure ht hc
  obtain ⟨st, h1, h2, -⟩ := (Inv.start ht hc).ends ht hc fuel (by omega)
  unfold ingestNodes
  rw [h1]
  refine link_ne fun r hr => ?_
  obtain ⟨q, n, -, -, hr⟩ := (h2.required r).1 hr
  rcases hr with ⟨-, hr⟩ | ⟨-, f, -, hr⟩
  · exact ht.requires _ hr rfl
  · exact ht.requires _ hr rfl

theorem Inv.reach (h : Inv sp es st) (ht : sp.Typed) (hc : Chosen sp es) {n : Nat} (hn : n ∈ st.graph.origins) (hs : ¬ (sp.node n).IsField true) : Reach sp es n := by
  obtain ⟨i, q, hi⟩ := mem_origins.1 hn
  clear hn
  induction i using Nat.strongRecOn generalizing n q with
  | _ i ih =>
    cases i with
    | zero =>
      rw [h.root, Option.some.injEq, Prod.mk.injEq] at hi
      rw [← hi.2]
      exact .root
    | succ k =>
      have hk : k < st.graph.edges.length := by
        have := (List.getElem?_eq_some_iff.1 hi).1
        have := h.len
        omega
      obtain ⟨t1, t2, t3⟩ := h.tree k _ (List.getElem?_eq_getElem hk)
      rcases h.made k _ q n (List.getElem?_eq_getElem hk) hi with ⟨-, a, d, qp, h2, h3, h4, h5⟩ | ⟨-, a, d, h2, h3, h4, -⟩
      · subst h4
        refine .step h2 h3 (ih _ (by omega) ?_ qp h5)
        intro hf
        rcases (hc.kinds ht h2 h3).2 with g | g
        · exact root_not ht (.inr ⟨_, hf⟩) g
        · exact source_not_field g hf
      · exact absurd (by rw [← h4]; exact (ht.typename d (mem_edges.2 ⟨a, h2⟩) h3).1) hs

theorem Inv.has (h : Inv sp es st) (hst : st.stack = []) (ht : sp.Typed) (hc : Chosen sp es) {n : Nat} (hr : Reach sp es n)
    (hn : n = sp.root ∨ (sp.node n).IsSource) : n ∈ st.graph.origins := by
  induction hr with
  | root => exact mem_origins.2 ⟨_, _, h.root⟩
  | @step e d he hd _ ih =>
    have hk := hc.kinds ht he hd
    have := ih hk.2
    by_cases hp : d.kind = .provides
    · have := (ht.provides d (mem_edges.2 ⟨e, hd⟩) hp).2
      rcases hn with hn | hn
      · exact absurd hn (root_not ht (.inr ⟨_, this⟩))
      · exact absurd this (source_not_field hn)
    · rcases h.complete _ this e d he hd rfl hp with j | j
      · exact j
      · rw [hst] at j; simp at j

theorem Done.madeFor {L : List QEdge} (h : Done sp es st L g) {i n : Nat} : g.MadeFor i n ↔ ∃ q, st.graph.nodes[i]? = some (q, n) := by
  simp only [QGraph.MadeFor, h.nodes]

theorem Done.has {L : List QEdge} (h : Done sp es st L g) {n : Nat} : (∃ i, g.MadeFor i n) ↔ n ∈ st.graph.origins := by
  simp only [h.madeFor, mem_origins]

/-- The edge to a node. -/
theorem Done.parent {L : List QEdge} (h : Done sp es st L g) {i n : Nat} {q : QNode} (hi : st.graph.nodes[i + 1]? = some (q, n)) :
    ∃ e, st.graph.edges[i]? = some e ∧ e.dst = i + 1 ∧ e.src ≤ i ∧ e.inTree = true ∧ Made sp es st.graph.nodes e q n := by
  have hk : i < st.graph.edges.length := by
    have := (List.getElem?_eq_some_iff.1 hi).1
    have := h.inv.len
    omega
  obtain ⟨t1, t2, t3⟩ := h.inv.tree i _ (List.getElem?_eq_getElem hk)
  exact ⟨_, List.getElem?_eq_getElem hk, t1, t2, by simpa [QEdge.inTree] using t3, h.inv.made i _ q n (List.getElem?_eq_getElem hk) hi⟩

/-- An edge of the tree. -/
theorem Done.ofTree {L : List QEdge} (h : Done sp es st L g) {e : QEdge} (he : e ∈ g.edges) (ht : e.inTree = true) :
    ∃ k q n, st.graph.edges[k]? = some e ∧ e.dst = k + 1 ∧ st.graph.nodes[k + 1]? = some (q, n) := by
  rw [h.edges, List.mem_append] at he
  rcases he with he | he
  · obtain ⟨k, hk⟩ := List.mem_iff_getElem?.1 he
    have hl : k + 1 < st.graph.nodes.length := by
      have := (List.getElem?_eq_some_iff.1 hk).1
      have := h.inv.len
      omega
    exact ⟨k, _, _, hk, (h.inv.tree k e hk).1, List.getElem?_eq_getElem hl⟩
  · rw [h.kinds e he] at ht; cases ht

theorem filter_dst {E : List QEdge} {m : Nat} (h : ∀ (k : Nat) (e : QEdge), E[k]? = some e → e.dst = k + m ∧ e.inTree = true) {i : Nat} {e : QEdge} (hi : E[i]? = some e) :
    E.filter (fun x => decide (x.dst = i + m) && x.inTree) = [e] := by
  induction E generalizing i m with
  | nil => simp at hi
  | cons a E ih =>
    have ha := h 0 a (by simp)
    have hE : ∀ (k : Nat) (e : QEdge), E[k]? = some e → e.dst = k + (m + 1) ∧ e.inTree = true := fun k e hk => by
      have := h (k + 1) e (by simpa using hk)
      exact ⟨by omega, this.2⟩
    cases i with
    | zero =>
      simp only [List.getElem?_cons_zero, Option.some.injEq] at hi
      subst hi
      rw [List.filter_cons, if_pos (by simp [ha])]
      congr 1
      rw [List.filter_eq_nil_iff]
      intro x hx
      obtain ⟨k, hk⟩ := List.mem_iff_getElem?.1 hx
      have := (hE k x hk).1
      simp only [Bool.and_eq_true, decide_eq_true_eq, not_and]
      omega
    | succ i =>
      rw [List.filter_cons, if_neg (by simp only [Bool.and_eq_true, decide_eq_true_eq, not_and]; omega)]
      have := ih hE (by simpa using hi)
      rw [show i + (m + 1) = i + 1 + m by omega] at this
      exact this

theorem Done.one {L : List QEdge} (h : Done sp es st L g) {i n : Nat} {q : QNode} (hi : st.graph.nodes[i + 1]? = some (q, n)) :
    ∃ e, g.edges.filter (fun x => decide (x.dst = i + 1) && x.inTree) = [e] ∧ e.src ≤ i := by
  obtain ⟨e, h1, h2, h3, h4, -⟩ := h.parent hi
  refine ⟨e, ?_, h3⟩
  rw [h.edges, List.filter_append, filter_dst (fun k e hk => ?_) h1]
  · have : L.filter (fun x => decide (x.dst = i + 1) && x.inTree) = [] := by
      rw [List.filter_eq_nil_iff]
      intro x hx
      simp [h.kinds x hx]
    rw [this]
    rfl
  · obtain ⟨t1, t2, t3⟩ := h.inv.tree k e hk
    exact ⟨t1, by simpa [QEdge.inTree] using t3⟩

theorem Done.unique {L : List QEdge} (h : Done sp es st L g) {i j n : Nat} (hi : g.MadeFor i n) (hj : g.MadeFor j n) : i = j := by
  obtain ⟨q, hi⟩ := h.madeFor.1 hi
  obtain ⟨q', hj⟩ := h.madeFor.1 hj
  have hn := (List.nodup_append.1 h.inv.nodup).1
  unfold QGraph.origins at hn
  refine (List.getElem?_inj (l := st.graph.nodes.map Prod.snd) (i := i) (j := j) ?_ hn).1 ?_
  · have := (List.getElem?_eq_some_iff.1 hi).1
    simpa using this
  · simp [hi, hj]

end Verif.QueryGraph
