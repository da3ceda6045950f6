import Verif.Cycles.Collect
/-!
# The loop that assigns fields to partitions
-/
namespace Verif.Cycles

/-! ## Removal -/

def Tree (es : List Edge) : Prop := ((es.filter fun e => decide (Hier e.kind)).map (·.dst)).Nodup

theorem removed (F : List Fld) : ∀ g : Graph, Tree g.edges →
    (∀ x ∈ F, ∀ e ∈ g.edges, e.src = x.original → e.dst = x.node → e.kind = .field) →
    let g' := F.foldl (fun g f => g.removeFirst f.original f.node) g
    g'.nodes = g.nodes ∧ Tree g'.edges ∧
      ∀ e, e ∈ g'.edges ↔ e ∈ g.edges ∧ ∀ x ∈ F, e ≠ ⟨x.original, x.node, .field⟩ := by
  induction F with
  | nil => intro g h1 h2; exact ⟨rfl, h1, by simp⟩
  | cons x t ih =>
    intro g h1 h2
    have hsub : (g.removeFirst x.original x.node).edges.Sublist g.edges := List.eraseP_sublist
    have hone : ∀ e, e ∈ (g.removeFirst x.original x.node).edges ↔ e ∈ g.edges ∧ e ≠ ⟨x.original, x.node, .field⟩ := by
      intro e
      refine mem_eraseP_unique ?_ (count_tree h1 (Or.inr rfl)) e
      intro e he
      simp only [Bool.and_eq_true, decide_eq_true_eq]
      constructor
      · rintro ⟨h3, h4⟩
        have := h2 x (by simp) e he h3 h4
        obtain ⟨a, b, k⟩ := e
        simp only at h3 h4 this
        subst h3 h4 this
        rfl
      · rintro rfl; exact ⟨rfl, rfl⟩
    have hih := ih (g.removeFirst x.original x.node) (List.Nodup.sublist ((hsub.filter _).map _) h1)
      (fun y hy e he => h2 y (by simp [hy]) e (hsub.subset he))
    simp only [List.foldl_cons]
    refine ⟨hih.1, hih.2.1, fun e => ?_⟩
    rw [hih.2.2 e, hone]
    simp only [List.mem_cons, forall_eq_or_imp]
    constructor
    · rintro ⟨⟨a, b⟩, c⟩; exact ⟨a, b, c⟩
    · rintro ⟨a, b, c⟩; exact ⟨⟨a, b⟩, c⟩

/-! ## A new partition -/

theorem copied_not_hier {k : Kind} (h : copied k = true) : ¬ Hier k := by
  cases k <;> simp [copied, Hier] at *

theorem foldl_addEdge (es : List Edge) (p : Nat) (g : Graph) :
    es.foldl (fun g e => g.addEdge p e.dst e.kind) g =
      ⟨g.nodes, (es.map fun e => ⟨p, e.dst, e.kind⟩).reverse ++ g.edges⟩ := by
  induction es generalizing g with
  | nil => simp
  | cons e t ih => rw [List.foldl_cons, ih]; simp [Graph.addEdge]

theorem newPartition_nodes (g : Graph) (root o : Nat) :
    (newPartition g root o).nodes = g.nodes ++ [(g.nodes[o]?).getD .root] := by
  unfold newPartition
  rw [foldl_addEdge]
  rfl

theorem newPartition_mem (g : Graph) (root o : Nat) (e : Edge) : e ∈ (newPartition g root o).edges ↔
    e ∈ g.edges ∨ e = ⟨root, g.nodes.length, .queryPartition⟩ ∨
      (copied e.kind = true ∧ e.src = g.nodes.length ∧ ⟨o, e.dst, e.kind⟩ ∈ g.edges) := by
  unfold newPartition
  rw [foldl_addEdge]
  simp only [Graph.addEdge, List.mem_append, List.mem_reverse, List.mem_map, List.mem_filter, List.mem_cons, mem_out]
  constructor
  · rintro (⟨⟨s, d, k⟩, ⟨⟨h1, h2⟩, h3⟩, rfl⟩ | h | h)
    · simp only at h2 h3
      subst h2
      rcases h1 with h1 | h1
      · simp only [Edge.mk.injEq] at h1
        rw [h1.2.2] at h3
        simp [copied] at h3
      · exact Or.inr (Or.inr ⟨h3, rfl, h1⟩)
    · exact Or.inr (Or.inl h)
    · exact Or.inl h
  · rintro (h | h | ⟨h1, h2, h3⟩)
    · exact Or.inr (Or.inr h)
    · exact Or.inr (Or.inl h)
    · left
      obtain ⟨s, d, k⟩ := e
      simp only at h1 h2 h3
      subst h2
      exact ⟨_, ⟨⟨Or.inr h3, rfl⟩, h1⟩, rfl⟩

theorem newPartition_tree {g : Graph} {root o : Nat} (h : Tree g.edges)
    (hb : ∀ e ∈ g.edges, e.dst < g.nodes.length) : Tree (newPartition g root o).edges := by
  unfold newPartition
  rw [foldl_addEdge]
  simp only [Tree, Graph.addEdge]
  rw [List.filter_append, List.filter_eq_nil_iff.2, List.nil_append, List.filter_cons,
    if_pos (by simp [Hier]), List.map_cons, List.nodup_cons]
  · refine ⟨?_, h⟩
    intro hm
    obtain ⟨e, he, hd⟩ := List.mem_map.1 hm
    have := hb e ((List.mem_filter.1 he).1)
    simp only at hd
    omega
  · intro e he
    simp only [List.mem_reverse, List.mem_map, List.mem_filter] at he
    obtain ⟨e', ⟨-, h2⟩, rfl⟩ := he
    simpa using copied_not_hier h2

/-! ## Invariant -/

/-- The graph `gc` while fields of `F` are assigned, `D` being done. -/
structure LI (g : Graph) (root : Nat) (F D : List Fld) (gc : Graph) (parts : List (Nat × Nat)) : Prop where
  nodes : ∃ new, gc.nodes = g.nodes ++ new
  bound : ∀ e ∈ gc.edges, e.src < gc.nodes.length ∧ e.dst < gc.nodes.length
  tree : Tree gc.edges
  pts : ∀ p r, (p, r) ∈ parts ↔
    ⟨root, p, .queryPartition⟩ ∈ gc.edges ∧ ∃ a, gc.nodes[p]? = some (.partition a r)
  newp : ∀ p, g.nodes.length ≤ p → p < gc.nodes.length → ∃ o, ⟨root, o, .queryPartition⟩ ∈ g.edges ∧
    gc.nodes[p]? = g.nodes[o]? ∧ ∀ d k, ¬ Hier k → (⟨p, d, k⟩ ∈ gc.edges ↔ copied k = true ∧ ⟨o, d, k⟩ ∈ g.edges)
  old : ∀ s d k, s < g.nodes.length → ¬ Hier k → (⟨s, d, k⟩ ∈ gc.edges ↔ ⟨s, d, k⟩ ∈ g.edges)
  qp : ∀ q p, ⟨q, p, .queryPartition⟩ ∈ gc.edges ↔
    ⟨q, p, .queryPartition⟩ ∈ g.edges ∨ (q = root ∧ g.nodes.length ≤ p ∧ p < gc.nodes.length)
  keep : ∀ p f, (∀ x ∈ F, x.node ≠ f) → (⟨p, f, .field⟩ ∈ gc.edges ↔ ⟨p, f, .field⟩ ∈ g.edges)
  inn : ∀ p f, ⟨p, f, .field⟩ ∈ gc.edges → ∀ x ∈ F, x.node = f → x ∈ D ∧ (p, x.resolver) ∈ parts
  placed : ∀ x ∈ D, ∃ p, (p, x.resolver) ∈ parts ∧ ⟨p, x.node, .field⟩ ∈ gc.edges
  indep : ∀ p r, (p, r) ∈ parts → ∀ a b, ⟨p, a, .field⟩ ∈ gc.edges → ⟨p, b, .field⟩ ∈ gc.edges → a ≠ b → ¬ Path g a b

/-- What the collected fields are. -/
def FOk (g : Graph) (root : Nat) (F : List Fld) : Prop :=
  (F.map (·.node)).Nodup ∧ ∀ x, x ∈ F ↔
    ⟨root, x.original, .queryPartition⟩ ∈ g.edges ∧ (∃ a, g.nodes[x.original]? = some (.partition a x.resolver)) ∧
      ⟨x.original, x.node, .field⟩ ∈ g.edges ∧ g.nodes[x.node]? = some (.field x.position)

section
variable {g gc : Graph} {root : Nat} {F D : List Fld} {parts : List (Nat × Nat)}

theorem LI.fieldOld (h : LI g root F D gc parts) (hw : WF g) (hF : FOk g root F) {p f : Nat}
    (hf : ⟨p, f, .field⟩ ∈ gc.edges) : f < g.nodes.length := by
  by_cases hx : ∀ x ∈ F, x.node ≠ f
  · exact (hw.bound _ ((h.keep p f hx).1 hf)).2
  · obtain ⟨x, hx, he⟩ : ∃ x ∈ F, x.node = f := by
      apply Classical.byContradiction
      intro hc
      exact hx fun x h1 h2 => hc ⟨x, h1, h2⟩
    exact he ▸ (hw.bound _ ((hF.2 x).1 hx).2.2.1).2

theorem LI.path (h : LI g root F D gc parts) (hw : WF g) {a b : Nat} (ha : a < g.nodes.length) :
    Path gc a b ↔ Path g a b := by
  constructor
  · intro hp
    induction hp with
    | refl => exact .refl _
    | step h1 _ ih =>
      have h2 := (h.old _ _ .requiredBySubgraph ha (by simp [Hier])).1 h1
      exact .step h2 (ih (hw.bound _ h2).2)
  · intro hp
    induction hp with
    | refl => exact .refl _
    | step h1 _ ih =>
      exact .step ((h.old _ _ .requiredBySubgraph ha (by simp [Hier])).2 h1) (ih (hw.bound _ h1).2)

/-- Adding a field to a partition of the list. -/
theorem LI.place (h : LI g root F D gc parts) (hw : WF g) (hF : FOk g root F) {x : Fld} (hx : x ∈ F) (hxD : x ∉ D)
    {p : Nat} (hp : (p, x.resolver) ∈ parts) (hc : isConnected gc p x.node = false) :
    LI g root F (x :: D) (gc.addEdge p x.node .field) parts := by
  have hxo : x.node < g.nodes.length := (hw.bound _ ((hF.2 x).1 hx).2.2.1).2
  obtain ⟨new, hnew⟩ := h.nodes
  have hlen : g.nodes.length ≤ gc.nodes.length := by rw [hnew]; simp
  have hpb : p < gc.nodes.length := by
    obtain ⟨-, a, ha⟩ := (h.pts _ _).1 hp
    exact (List.getElem?_eq_some_iff.1 ha).1
  have uniq : ∀ y ∈ F, y.node = x.node → y = x := fun y hy he => List.inj_on_of_nodup_map hF.1 hy hx he
  have hfresh : ∀ e ∈ gc.edges, Hier e.kind → e.dst ≠ x.node := by
    rintro ⟨s, d, k⟩ he hk hd
    simp only at hk hd
    subst hd
    rcases hk with rfl | rfl
    · rcases (h.qp _ _).1 he with h1 | ⟨-, h1, -⟩
      · obtain ⟨a, r, h2⟩ := hw.part _ h1 rfl
        rw [((hF.2 x).1 hx).2.2.2] at h2
        cases h2
      · omega
    · exact hxD (h.inn _ _ he x hx rfl).1
  have hmem : ∀ e, e ∈ (gc.addEdge p x.node .field).edges ↔ e = ⟨p, x.node, .field⟩ ∨ e ∈ gc.edges := by
    intro e; simp [Graph.addEdge]
  have hnf : ∀ s d k, k ≠ Kind.field → (⟨s, d, k⟩ ∈ (gc.addEdge p x.node .field).edges ↔ ⟨s, d, k⟩ ∈ gc.edges) := by
    intro s d k hk
    rw [hmem]
    constructor
    · rintro (h1 | h1)
      · simp only [Edge.mk.injEq] at h1
        exact absurd h1.2.2 hk
      · exact h1
    · exact Or.inr
  have hcon : ∀ y, ⟨p, y, .field⟩ ∈ gc.edges → ¬ Path g y x.node ∧ ¬ Path g x.node y := by
    intro y hy
    have h1 : ¬ isConnected gc p x.node = true := by rw [hc]; simp
    rw [isConnected_iff] at h1
    constructor
    · intro h2
      exact h1 ⟨y, hy, Or.inl ((h.path hw (h.fieldOld hw hF hy)).2 h2)⟩
    · intro h2
      exact h1 ⟨y, hy, Or.inr ((h.path hw hxo).2 h2)⟩
  refine ⟨⟨new, hnew⟩, ?_, ?_, ?_, ?_, ?_, ?_, ?_, ?_, ?_, ?_⟩
  · intro e he
    rcases (hmem e).1 he with rfl | he
    · exact ⟨hpb, by show x.node < gc.nodes.length; omega⟩
    · exact h.bound e he
  · show Tree (_ :: _)
    unfold Tree
    rw [List.filter_cons, if_pos (by simp [Hier]), List.map_cons, List.nodup_cons]
    refine ⟨?_, h.tree⟩
    intro hm
    obtain ⟨e, he, hd⟩ := List.mem_map.1 hm
    rw [List.mem_filter, decide_eq_true_eq] at he
    exact hfresh e he.1 he.2 hd
  · intro q r
    rw [h.pts, hnf _ _ _ (by simp)]
    rfl
  · intro q h1 h2
    obtain ⟨o, o1, o2, o3⟩ := h.newp q h1 h2
    refine ⟨o, o1, o2, fun d k hk => ?_⟩
    rw [hnf _ _ _ (fun hc => hk (Or.inr hc)), o3 d k hk]
  · intro s d k hs hk
    rw [hnf _ _ _ (fun hc => hk (Or.inr hc)), h.old s d k hs hk]
  · intro q p'
    rw [hnf _ _ _ (by simp), h.qp]
    rfl
  · intro q f hf
    rw [hmem, ← h.keep q f hf]
    constructor
    · rintro (h1 | h1)
      · simp only [Edge.mk.injEq] at h1
        exact absurd h1.2.1.symm (hf x hx)
      · exact h1
    · exact Or.inr
  · intro q f hq y hy hyf
    rcases (hmem _).1 hq with h1 | h1
    · simp only [Edge.mk.injEq, and_true] at h1
      obtain ⟨rfl, rfl⟩ := h1
      have := uniq y hy hyf
      subst this
      exact ⟨by simp, hp⟩
    · obtain ⟨h2, h3⟩ := h.inn _ _ h1 y hy hyf
      exact ⟨by simp [h2], h3⟩
  · intro y hy
    rcases List.mem_cons.1 hy with rfl | hy
    · exact ⟨p, hp, (hmem _).2 (Or.inl rfl)⟩
    · obtain ⟨q, h1, h2⟩ := h.placed y hy
      exact ⟨q, h1, (hmem _).2 (Or.inr h2)⟩
  · intro q r hq a b ha hb hab
    rcases (hmem _).1 ha with h1 | h1 <;> rcases (hmem _).1 hb with h2 | h2
    · simp only [Edge.mk.injEq, and_true] at h1 h2
      exact absurd (h1.2.trans h2.2.symm) hab
    · simp only [Edge.mk.injEq, and_true] at h1
      obtain ⟨rfl, rfl⟩ := h1
      exact (hcon b h2).2
    · simp only [Edge.mk.injEq, and_true] at h2
      obtain ⟨rfl, rfl⟩ := h2
      exact (hcon a h1).1
    · exact h.indep q r hq a b h1 h2 hab

/-- Adding a partition. -/
theorem LI.fresh (h : LI g root F D gc parts) (hw : WF g) (hF : FOk g root F) {x : Fld} (hx : x ∈ F) :
    LI g root F D (newPartition gc root x.original) (parts ++ [(gc.nodes.length, x.resolver)]) := by
  obtain ⟨new, hnew⟩ := h.nodes
  have hlen : g.nodes.length ≤ gc.nodes.length := by rw [hnew]; simp
  obtain ⟨f1, ⟨ax, f2⟩, f3, f4⟩ := (hF.2 x).1 hx
  have hob : x.original < g.nodes.length := (List.getElem?_eq_some_iff.1 f2).1
  have hro : root < g.nodes.length := (hw.bound _ f1).1
  have f2' : gc.nodes[x.original]? = some (.partition ax x.resolver) := by
    rw [hnew, List.getElem?_append_left hob]; exact f2
  have hnodes : (newPartition gc root x.original).nodes = gc.nodes ++ [.partition ax x.resolver] := by
    rw [newPartition_nodes, f2']; rfl
  have hlen' : (newPartition gc root x.original).nodes.length = gc.nodes.length + 1 := by rw [hnodes]; simp
  have hmem := newPartition_mem gc root x.original
  have hsrc : ∀ s d k, s ≠ gc.nodes.length → k ≠ Kind.queryPartition →
      (⟨s, d, k⟩ ∈ (newPartition gc root x.original).edges ↔ ⟨s, d, k⟩ ∈ gc.edges) := by
    intro s d k hs hk
    rw [hmem]
    constructor
    · rintro (h1 | h1 | ⟨-, h1, -⟩)
      · exact h1
      · simp only [Edge.mk.injEq] at h1; exact absurd h1.2.2 hk
      · exact absurd h1 hs
    · exact Or.inl
  have hfld : ∀ s d, (⟨s, d, .field⟩ ∈ (newPartition gc root x.original).edges ↔ ⟨s, d, .field⟩ ∈ gc.edges) := by
    intro s d
    rw [hmem]
    constructor
    · rintro (h1 | h1 | ⟨h1, -, -⟩)
      · exact h1
      · simp at h1
      · simp [copied] at h1
    · exact Or.inl
  have hqp : ∀ s d, (⟨s, d, .queryPartition⟩ ∈ (newPartition gc root x.original).edges ↔
      ⟨s, d, .queryPartition⟩ ∈ gc.edges ∨ (s = root ∧ d = gc.nodes.length)) := by
    intro s d
    rw [hmem]
    constructor
    · rintro (h1 | h1 | ⟨h1, -, -⟩)
      · exact Or.inl h1
      · simp only [Edge.mk.injEq, and_true] at h1; exact Or.inr h1
      · simp [copied] at h1
    · rintro (h1 | ⟨rfl, rfl⟩)
      · exact Or.inl h1
      · exact Or.inr (Or.inl rfl)
  have hget : ∀ p, p < gc.nodes.length → (newPartition gc root x.original).nodes[p]? = gc.nodes[p]? := by
    intro p hp
    rw [hnodes, List.getElem?_append_left hp]
  have hgetP : (newPartition gc root x.original).nodes[gc.nodes.length]? = some (.partition ax x.resolver) := by
    rw [hnodes]; simp
  have sub : ∀ pr, pr ∈ parts → pr ∈ parts ++ [(gc.nodes.length, x.resolver)] := fun _ h => List.mem_append_left _ h
  refine ⟨⟨new ++ [.partition ax x.resolver], by rw [hnodes, hnew, List.append_assoc]⟩, ?_, ?_, ?_, ?_, ?_, ?_, ?_, ?_, ?_, ?_⟩
  · rw [hlen']
    intro e he
    rcases (hmem e).1 he with h1 | rfl | ⟨-, h2, h3⟩
    · have := h.bound e h1; omega
    · exact ⟨by show root < _; omega, by show gc.nodes.length < _; omega⟩
    · have := h.bound _ h3
      simp only at this
      omega
  · exact newPartition_tree h.tree fun e he => (h.bound e he).2
  · intro p r
    rw [hqp, List.mem_append, h.pts]
    constructor
    · rintro (⟨h1, a, h2⟩ | h1)
      · exact ⟨Or.inl h1, a, by rw [hget p (h.bound _ h1).2]; exact h2⟩
      · simp only [List.mem_singleton, Prod.mk.injEq] at h1
        obtain ⟨rfl, rfl⟩ := h1
        exact ⟨Or.inr ⟨rfl, rfl⟩, ax, hgetP⟩
    · rintro ⟨h1 | ⟨-, rfl⟩, a, h2⟩
      · rw [hget p (h.bound _ h1).2] at h2
        exact Or.inl ⟨h1, a, h2⟩
      · rw [hgetP] at h2
        simp only [Option.some.injEq, Node.partition.injEq] at h2
        rw [h2.2]
        exact Or.inr (by simp)
  · rw [hlen']
    intro p h1 h2
    by_cases hpl : p < gc.nodes.length
    · obtain ⟨o, o1, o2, o3⟩ := h.newp p h1 hpl
      refine ⟨o, o1, by rw [hget p hpl, o2], fun d k hk => ?_⟩
      rw [hsrc p d k (by omega) (fun hc => hk (Or.inl hc)), o3 d k hk]
    · have : p = gc.nodes.length := by omega
      subst this
      refine ⟨x.original, f1, by rw [hgetP, f2], fun d k hk => ?_⟩
      rw [hmem]
      constructor
      · rintro (h3 | h3 | ⟨h3, -, h4⟩)
        · have := (h.bound _ h3).1
          simp only at this
          omega
        · simp only [Edge.mk.injEq] at h3
          exact absurd (Or.inl h3.2.2) hk
        · exact ⟨h3, (h.old _ _ _ hob hk).1 h4⟩
      · rintro ⟨h3, h4⟩
        exact Or.inr (Or.inr ⟨h3, rfl, (h.old _ _ _ hob hk).2 h4⟩)
  · intro s d k hs hk
    rw [hsrc s d k (by omega) (fun hc => hk (Or.inl hc)), h.old s d k hs hk]
  · intro q p
    rw [hqp, h.qp, hlen']
    constructor
    · rintro ((h1 | ⟨h1, h2, h3⟩) | ⟨h1, h2⟩)
      · exact Or.inl h1
      · exact Or.inr ⟨h1, h2, by omega⟩
      · exact Or.inr ⟨h1, by omega, by omega⟩
    · rintro (h1 | ⟨h1, h2, h3⟩)
      · exact Or.inl (Or.inl h1)
      · by_cases hpl : p < gc.nodes.length
        · exact Or.inl (Or.inr ⟨h1, h2, hpl⟩)
        · exact Or.inr ⟨h1, by omega⟩
  · intro p f hf
    rw [hfld, h.keep p f hf]
  · intro p f hp y hy hyf
    obtain ⟨h1, h2⟩ := h.inn p f ((hfld _ _).1 hp) y hy hyf
    exact ⟨h1, sub _ h2⟩
  · intro y hy
    obtain ⟨p, h1, h2⟩ := h.placed y hy
    exact ⟨p, sub _ h1, (hfld _ _).2 h2⟩
  · intro p r hp a b ha hb
    rw [hfld] at ha hb
    rcases List.mem_append.1 hp with hp | hp
    · exact h.indep p r hp a b ha hb
    · simp only [List.mem_singleton, Prod.mk.injEq] at hp
      have := (h.bound _ ha).1
      simp only at this
      omega

end

end Verif.Cycles
