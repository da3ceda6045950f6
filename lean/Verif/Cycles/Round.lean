import Verif.Cycles.Loop
/-!
# One round of the outer loop
-/
namespace Verif.Cycles

section
variable {g gc : Graph} {root : Nat} {F D : List Fld} {parts : List (Nat × Nat)}

/-- Two partitions with the same resolver, one of them new, have fields that reach each other. -/
def Needed (g gc : Graph) (parts : List (Nat × Nat)) : Prop :=
  ∀ p p' r, (p, r) ∈ parts → (p', r) ∈ parts → p ≠ p' → (g.nodes.length ≤ p ∨ g.nodes.length ≤ p') →
    ∃ a b, ⟨p, a, .field⟩ ∈ gc.edges ∧ ⟨p', b, .field⟩ ∈ gc.edges ∧ (Path g a b ∨ Path g b a)

theorem assign_step (h : LI g root F D gc parts) (hn : Needed g gc parts) (hw : WF g) (hF : FOk g root F)
    {x : Fld} (hx : x ∈ F) (hxD : x ∉ D) :
    LI g root F (x :: D) (assign root (gc, parts) x).1 (assign root (gc, parts) x).2 ∧
      Needed g (assign root (gc, parts) x).1 (assign root (gc, parts) x).2 := by
  unfold assign
  cases hf : parts.find? fun p => p.2 = x.resolver && !isConnected gc p.1 x.node with
  | some p =>
    simp only [hf]
    obtain ⟨p, r⟩ := p
    have h1 := List.find?_some hf
    have h2 := List.mem_of_find?_eq_some hf
    simp only [Bool.and_eq_true, decide_eq_true_eq, Bool.not_eq_true'] at h1
    obtain ⟨rfl, h1⟩ := h1
    refine ⟨h.place hw hF hx hxD h2 h1, ?_⟩
    intro p1 p2 r k1 k2 k3 k4
    obtain ⟨a, b, j1, j2, j3⟩ := hn p1 p2 r k1 k2 k3 k4
    exact ⟨a, b, List.mem_cons_of_mem _ j1, List.mem_cons_of_mem _ j2, j3⟩
  | none =>
    simp only [hf]
    rw [List.find?_eq_none] at hf
    have hfr := h.fresh hw hF hx
    have hempty : ∀ y, ⟨gc.nodes.length, y, .field⟩ ∉ (newPartition gc root x.original).edges := by
      intro y hy
      rw [newPartition_mem] at hy
      rcases hy with hy | hy | ⟨hy, -, -⟩
      · have := (h.bound _ hy).1
        simp only at this
        omega
      · simp at hy
      · simp [copied] at hy
    refine ⟨hfr.place hw hF hx hxD (by simp) ?_, ?_⟩
    · cases hc : isConnected (newPartition gc root x.original) gc.nodes.length x.node with
      | false => rfl
      | true =>
        obtain ⟨y, hy, -⟩ := isConnected_iff.1 hc
        exact absurd hy (hempty y)
    · have hxo : x.node < g.nodes.length := (hw.bound _ ((hF.2 x).1 hx).2.2.1).2
      have key : ∀ p, (p, x.resolver) ∈ parts → ∃ y, ⟨p, y, .field⟩ ∈ gc.edges ∧ (Path g y x.node ∨ Path g x.node y) := by
        intro p hp
        have h1 := hf _ hp
        simp only [decide_true, Bool.true_and, Bool.not_eq_true', Bool.not_eq_false] at h1
        obtain ⟨y, hy, hpath⟩ := isConnected_iff.1 h1
        refine ⟨y, hy, ?_⟩
        rw [h.path hw (h.fieldOld hw hF hy), h.path hw hxo] at hpath
        exact hpath
      have up : ∀ e, e ∈ gc.edges → e ∈ ((newPartition gc root x.original).addEdge gc.nodes.length x.node .field).edges :=
        fun e he => List.mem_cons_of_mem _ ((newPartition_mem _ _ _ _).2 (Or.inl he))
      intro p1 p2 r k1 k2 k3 k4
      rcases List.mem_append.1 k1 with k1 | k1 <;> rcases List.mem_append.1 k2 with k2 | k2
      · obtain ⟨a, b, j1, j2, j3⟩ := hn p1 p2 r k1 k2 k3 k4
        exact ⟨a, b, up _ j1, up _ j2, j3⟩
      · simp only [List.mem_singleton, Prod.mk.injEq] at k2
        obtain ⟨rfl, rfl⟩ := k2
        obtain ⟨y, hy, hpath⟩ := key p1 k1
        exact ⟨y, x.node, up _ hy, List.mem_cons_self, hpath⟩
      · simp only [List.mem_singleton, Prod.mk.injEq] at k1
        obtain ⟨rfl, rfl⟩ := k1
        obtain ⟨y, hy, hpath⟩ := key p2 k2
        exact ⟨x.node, y, List.mem_cons_self, up _ hy, hpath.symm⟩
      · simp only [List.mem_singleton, Prod.mk.injEq] at k1 k2
        exact absurd (k1.1.trans k2.1.symm) k3

theorem assign_all (hw : WF g) (hF : FOk g root F) (rem : List Fld) : ∀ (D : List Fld) (gc : Graph) (parts : List (Nat × Nat)),
    LI g root F D gc parts → Needed g gc parts → (∀ x ∈ rem, x ∈ F ∧ x ∉ D) → rem.Nodup →
    LI g root F (rem.reverse ++ D) (rem.foldl (assign root) (gc, parts)).1 (rem.foldl (assign root) (gc, parts)).2 ∧
      Needed g (rem.foldl (assign root) (gc, parts)).1 (rem.foldl (assign root) (gc, parts)).2 := by
  induction rem with
  | nil => intro D gc parts h hn _ _; exact ⟨h, hn⟩
  | cons x t ih =>
    intro D gc parts h hn hrem hnd
    rw [List.nodup_cons] at hnd
    obtain ⟨h1, h2⟩ := assign_step h hn hw hF (hrem x (by simp)).1 (hrem x (by simp)).2
    have h3 := ih (x :: D) (assign root (gc, parts) x).1 (assign root (gc, parts) x).2 h1 h2 (fun y hy => ⟨(hrem y (by simp [hy])).1, by
      rw [List.mem_cons, not_or]
      exact ⟨fun hc => hnd.1 (hc ▸ hy), (hrem y (by simp [hy])).2⟩⟩) hnd.2
    rw [List.foldl_cons, List.reverse_cons, List.append_assoc]
    exact h3

end

/-- What one round does, for the partitions `parts` below the root. -/
structure Round (g : Graph) (root : Nat) (g' : Graph) : Prop where
  run : ∃ F parts, FOk g root F ∧ LI g root F F g' parts ∧ Needed g g' parts

theorem LI.congr {g gc : Graph} {root : Nat} {F D D' : List Fld} {parts : List (Nat × Nat)}
    (h : LI g root F D gc parts) (hd : ∀ x, x ∈ D ↔ x ∈ D') : LI g root F D' gc parts := by
  refine { h with inn := ?_, placed := ?_ }
  · intro p f h1 x h2 h3
    obtain ⟨h4, h5⟩ := h.inn p f h1 x h2 h3
    exact ⟨(hd x).1 h4, h5⟩
  · intro x hx
    exact h.placed x ((hd x).2 hx)

theorem round {g : Graph} (hw : WF g) {sort : List Fld → List Fld} (hs : Sorts sort) (root : Nat) (stack : List Nat) :
    Round g root (splitRoot sort g root stack).1 := by
  have hF0 : FOk g root (sort (collect g root stack).fields) := by
    have hp := (hs (collect g root stack).fields).1
    refine ⟨(hp.map _).nodup_iff.2 (fields_nodup hw), fun x => ?_⟩
    rw [hp.mem_iff, mem_fields hw]
  have hrem := removed (sort (collect g root stack).fields) g hw.tree (by
    intro x hx e he h1 h2
    obtain ⟨f1, f2, f3, -⟩ := (hF0.2 x).1 hx
    exact hw.single root x.original x.original x.node x.resolver f1 f1 f2 f2 f3 e he h1 h2)
  obtain ⟨r1, r2, r3⟩ := hrem
  have none_in : ∀ p r a, (p, r) ∈ (collect g root stack).parts → ⟨p, a, .field⟩ ∈ g.edges →
      ∃ x ∈ sort (collect g root stack).fields, x.original = p ∧ x.node = a := by
    intro p r a h1 h2
    obtain ⟨k1, k2⟩ := (mem_parts hw).1 h1
    obtain ⟨pos, hpos⟩ := hw.fld _ h2 rfl
    exact ⟨⟨pos, p, r, a⟩, (hF0.2 _).2 ⟨k1, k2, h2, hpos⟩, rfl, rfl⟩
  have base : LI g root (sort (collect g root stack).fields) []
      ((sort (collect g root stack).fields).foldl (fun g f => g.removeFirst f.original f.node) g)
      (collect g root stack).parts := by
    refine ⟨⟨[], by rw [r1]; simp⟩, ?_, r2, ?_, ?_, ?_, ?_, ?_, ?_, by simp, ?_⟩
    · rw [r1]; intro e he; exact hw.bound e ((r3 e).1 he).1
    · intro p r
      rw [mem_parts hw, r3, r1]
      simp
    · rw [r1]; intro p h1 h2; omega
    · intro s d k _ hk
      rw [r3]
      constructor
      · exact fun h => h.1
      · intro h
        refine ⟨h, fun x _ hc => ?_⟩
        simp only [Edge.mk.injEq] at hc
        exact hk (Or.inr hc.2.2)
    · intro q p
      rw [r3, r1]
      simp only [ne_eq, Edge.mk.injEq, reduceCtorEq, and_false, not_false_eq_true, implies_true, and_true]
      constructor
      · exact Or.inl
      · rintro (h | ⟨-, h1, h2⟩)
        · exact h
        · omega
    · intro p f hf
      rw [r3]
      constructor
      · exact fun h => h.1
      · intro h
        refine ⟨h, fun x hx hc => ?_⟩
        simp only [Edge.mk.injEq] at hc
        exact hf x hx hc.2.1.symm
    · intro p f h x hx hxf
      obtain ⟨h1, h2⟩ := (r3 _).1 h
      have h3 := ((hF0.2 x).1 hx).2.2.1
      have := tree_unique hw.tree h1 h3 (Or.inr rfl) (Or.inr rfl) hxf.symm
      exact absurd this (h2 x hx)
    · intro p r hp a b ha _ _
      obtain ⟨h1, h2⟩ := (r3 _).1 ha
      obtain ⟨x, hx, rfl, rfl⟩ := none_in p r a hp h1
      exact absurd rfl (h2 x hx)
  have hn0 : Needed g ((sort (collect g root stack).fields).foldl (fun g f => g.removeFirst f.original f.node) g)
      (collect g root stack).parts := by
    intro p p' r h1 h2 _ h4
    have b1 := (hw.bound _ ((mem_parts hw).1 h1).1).2
    have b2 := (hw.bound _ ((mem_parts hw).1 h2).1).2
    simp only at b1 b2
    omega
  have hall := assign_all hw hF0 (sort (collect g root stack).fields) [] _ _ base hn0 (fun x hx => ⟨hx, by simp⟩)
    (List.Nodup.of_map _ hF0.1)
  constructor
  unfold splitRoot
  by_cases he : (collect g root stack).fields.isEmpty
  · have he' : (collect g root stack).fields = [] := by simpa using he
    have hsn : sort [] = [] := by
      have := (hs []).1.length_eq
      simpa using this
    simp only [he, if_true]
    rw [he', hsn] at hall hF0
    simp only [List.reverse_nil, List.append_nil, List.foldl_nil] at hall
    exact ⟨[], _, hF0, hall⟩
  · simp only [he, if_false]
    refine ⟨_, _, hF0, hall.1.congr (fun x => by simp), hall.2⟩

end Verif.Cycles
