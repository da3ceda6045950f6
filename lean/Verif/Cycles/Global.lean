import Verif.Cycles.Round
/-!
# All rounds
-/
namespace Verif.Cycles

/-- What every round, and all of them together, keep. -/
structure Same (g g' : Graph) : Prop where
  wf : WF g'
  nodes : ∃ new, g'.nodes = g.nodes ++ new
  under : ∀ q r f, Under g' q r f ↔ Under g q r f
  direct : ∀ q f, (∀ a r, g.nodes[q]? ≠ some (.partition a r)) → q < g.nodes.length →
    (⟨q, f, .field⟩ ∈ g'.edges ↔ ⟨q, f, .field⟩ ∈ g.edges)
  qp : ∀ q p, p < g.nodes.length → (⟨q, p, .queryPartition⟩ ∈ g'.edges ↔ ⟨q, p, .queryPartition⟩ ∈ g.edges)
  other : ∀ s d k, s < g.nodes.length → ¬ Hier k → (⟨s, d, k⟩ ∈ g'.edges ↔ ⟨s, d, k⟩ ∈ g.edges)
  new : ∀ p, g.nodes.length ≤ p → p < g'.nodes.length → ∃ q o, ⟨q, o, .queryPartition⟩ ∈ g.edges ∧
    ⟨q, p, .queryPartition⟩ ∈ g'.edges ∧ g'.nodes[p]? = g.nodes[o]? ∧
    ∀ d k, ¬ Hier k → (⟨p, d, k⟩ ∈ g'.edges ↔ copied k = true ∧ ⟨o, d, k⟩ ∈ g.edges)

section
variable {g g' : Graph}

theorem Same.len (h : Same g g') : g.nodes.length ≤ g'.nodes.length := by
  obtain ⟨new, h⟩ := h.nodes
  rw [h]; simp

theorem Same.node (h : Same g g') {p : Nat} (hp : p < g.nodes.length) : g'.nodes[p]? = g.nodes[p]? := by
  obtain ⟨new, h⟩ := h.nodes
  rw [h, List.getElem?_append_left hp]

theorem Same.path (h : Same g g') (hw : WF g) {a b : Nat} (ha : a < g.nodes.length) : Path g' a b ↔ Path g a b := by
  constructor
  · intro hp
    induction hp with
    | refl => exact .refl _
    | step h1 _ ih =>
      have h2 := (h.other _ _ .requiredBySubgraph ha (by simp [Hier])).1 h1
      exact .step h2 (ih (hw.bound _ h2).2)
  · intro hp
    induction hp with
    | refl => exact .refl _
    | step h1 _ ih =>
      exact .step ((h.other _ _ .requiredBySubgraph ha (by simp [Hier])).2 h1) (ih (hw.bound _ h1).2)

theorem Same.newNode (h : Same g g') (hw : WF g) {p : Nat} (hp : g.nodes.length ≤ p) (hp' : p < g'.nodes.length) :
    ∃ a r, g'.nodes[p]? = some (.partition a r) := by
  obtain ⟨q, o, h1, -, h3, -⟩ := h.new p hp hp'
  rw [h3]
  exact hw.part _ h1 rfl

theorem Same.below (h : Same g g') (hw : WF g) (q f : Nat) : Below g' q f ↔ Below g q f := by
  unfold Below
  refine or_congr ?_ (exists_congr fun r => h.under q r f)
  by_cases hq : q < g.nodes.length
  · rw [h.node hq]
    constructor
    · rintro ⟨h1, h2⟩; exact ⟨(h.direct q f h2 hq).1 h1, h2⟩
    · rintro ⟨h1, h2⟩; exact ⟨(h.direct q f h2 hq).2 h1, h2⟩
  · constructor
    · rintro ⟨h1, h2⟩
      have hb := (h.wf.bound _ h1).1
      simp only at hb
      obtain ⟨a, r, h3⟩ := h.newNode hw (by omega) hb
      exact absurd h3 (h2 a r)
    · rintro ⟨h1, -⟩
      exact absurd (hw.bound _ h1).1 hq

theorem Same.refl (hw : WF g) : Same g g :=
  ⟨hw, ⟨[], by simp⟩, fun _ _ _ => Iff.rfl, fun _ _ _ _ => Iff.rfl, fun _ _ _ => Iff.rfl, fun _ _ _ _ _ => Iff.rfl,
    fun p h1 h2 => by omega⟩

theorem Same.trans {g'' : Graph} (h : Same g g') (hw : WF g) (h' : Same g' g'') : Same g g'' := by
  have hl := h.len
  refine ⟨h'.wf, ?_, fun q r f => (h'.under q r f).trans (h.under q r f), ?_, ?_, ?_, ?_⟩
  · obtain ⟨n1, e1⟩ := h.nodes
    obtain ⟨n2, e2⟩ := h'.nodes
    exact ⟨n1 ++ n2, by rw [e2, e1, List.append_assoc]⟩
  · intro q f hq hb
    rw [h'.direct q f (by rw [h.node hb]; exact hq) (by omega), h.direct q f hq hb]
  · intro q p hp
    rw [h'.qp q p (by omega), h.qp q p hp]
  · intro s d k hs hk
    rw [h'.other s d k (by omega) hk, h.other s d k hs hk]
  · intro p h1 h2
    by_cases hp : p < g'.nodes.length
    · obtain ⟨q, o, k1, k2, k3, k4⟩ := h.new p h1 hp
      refine ⟨q, o, k1, (h'.qp q p hp).2 k2, by rw [h'.node hp, k3], fun d k hk => ?_⟩
      rw [h'.other p d k hp hk, k4 d k hk]
    · obtain ⟨q, o, k1, k2, k3, k4⟩ := h'.new p (by omega) h2
      by_cases ho : o < g.nodes.length
      · refine ⟨q, o, (h.qp q o ho).1 k1, k2, by rw [k3, h.node ho], fun d k hk => ?_⟩
        rw [k4 d k hk, h.other o d k ho hk]
      · have hob := (h.wf.bound _ k1).2
        simp only at hob
        obtain ⟨q', o', j1, j2, j3, j4⟩ := h.new o (by omega) hob
        have := tree_unique h.wf.tree k1 j2 (Or.inl rfl) (Or.inl rfl) rfl
        simp only [Edge.mk.injEq, and_true] at this
        subst this
        refine ⟨q, o', j1, k2, by rw [k3, j3], fun d k hk => ?_⟩
        rw [k4 d k hk, j4 d k hk, ← and_assoc, and_self]

end

section
variable {g g' : Graph} {root : Nat} {F : List Fld} {parts : List (Nat × Nat)}

theorem same_of_round (hw : WF g) (hF : FOk g root F) (h : LI g root F F g' parts) : Same g g' := by
  obtain ⟨new, hnew⟩ := h.nodes
  have hlen : g.nodes.length ≤ g'.nodes.length := by rw [hnew]; simp
  have hnode : ∀ p, p < g.nodes.length → g'.nodes[p]? = g.nodes[p]? := by
    intro p hp; rw [hnew, List.getElem?_append_left hp]
  have hin : ∀ f, (∀ x ∈ F, x.node ≠ f) ∨ ∃ x ∈ F, x.node = f := by
    intro f
    by_cases hc : ∃ x ∈ F, x.node = f
    · exact Or.inr hc
    · exact Or.inl fun x h1 h2 => hc ⟨x, h1, h2⟩
  -- partitions of a field that was not moved
  have moved : ∀ p f, ⟨p, f, .field⟩ ∈ g'.edges → (⟨p, f, .field⟩ ∈ g.edges ∧ ∀ x ∈ F, x.node ≠ f) ∨
      ∃ x ∈ F, x.node = f ∧ (p, x.resolver) ∈ parts := by
    intro p f hp
    rcases hin f with h1 | ⟨x, h1, h2⟩
    · exact Or.inl ⟨(h.keep p f h1).1 hp, h1⟩
    · exact Or.inr ⟨x, h1, h2, (h.inn p f hp x h1 h2).2⟩
  have under : ∀ q r f, Under g' q r f ↔ Under g q r f := by
    intro q r f
    constructor
    · rintro ⟨p, a, h1, h2, h3⟩
      rcases moved p f h3 with ⟨k1, k0⟩ | ⟨x, k1, k2, k3⟩
      · have hp : p < g.nodes.length := (hw.bound _ k1).1
        refine ⟨p, a, ?_, by rw [← hnode p hp]; exact h2, k1⟩
        rcases (h.qp q p).1 h1 with h4 | ⟨-, h4, -⟩
        · exact h4
        · omega
      · obtain ⟨j1, a', j2⟩ := (h.pts _ _).1 k3
        have := tree_unique h.tree h1 j1 (Or.inl rfl) (Or.inl rfl) rfl
        simp only [Edge.mk.injEq, and_true] at this
        subst this
        rw [h2] at j2
        simp only [Option.some.injEq, Node.partition.injEq] at j2
        obtain ⟨f1, ⟨a2, f2⟩, f3, f4⟩ := (hF.2 x).1 k1
        exact ⟨x.original, a2, f1, by rw [j2.2]; exact f2, by rw [← k2]; exact f3⟩
    · rintro ⟨p, a, h1, h2, h3⟩
      have hp : p < g.nodes.length := (hw.bound _ h1).2
      rcases hin f with h4 | ⟨x, h4, h5⟩
      · exact ⟨p, a, (h.qp q p).2 (Or.inl h1), by rw [hnode p hp]; exact h2, (h.keep p f h4).2 h3⟩
      · obtain ⟨f1, ⟨a2, f2⟩, f3, f4⟩ := (hF.2 x).1 h4
        have e1 := tree_unique hw.tree h3 f3 (Or.inr rfl) (Or.inr rfl) h5.symm
        simp only [Edge.mk.injEq, and_true] at e1
        obtain ⟨e1, -⟩ := e1
        subst e1
        have e2 := tree_unique hw.tree h1 f1 (Or.inl rfl) (Or.inl rfl) rfl
        simp only [Edge.mk.injEq, and_true] at e2
        subst e2
        rw [h2] at f2
        simp only [Option.some.injEq, Node.partition.injEq] at f2
        obtain ⟨p', j1, j2⟩ := h.placed x h4
        obtain ⟨j3, a3, j4⟩ := (h.pts _ _).1 j1
        exact ⟨p', a3, j3, by rw [f2.2]; exact j4, by rw [← h5]; exact j2⟩
  have hnewp : ∀ p, g.nodes.length ≤ p → p < g'.nodes.length → ∃ q o, ⟨q, o, .queryPartition⟩ ∈ g.edges ∧
      ⟨q, p, .queryPartition⟩ ∈ g'.edges ∧ g'.nodes[p]? = g.nodes[o]? ∧
      ∀ d k, ¬ Hier k → (⟨p, d, k⟩ ∈ g'.edges ↔ copied k = true ∧ ⟨o, d, k⟩ ∈ g.edges) := by
    intro p h1 h2
    obtain ⟨o, o1, o2, o3⟩ := h.newp p h1 h2
    exact ⟨root, o, o1, (h.qp root p).2 (Or.inr ⟨rfl, h1, h2⟩), o2, o3⟩
  have hwf : WF g' := by
    refine ⟨h.bound, ?_, ?_, h.tree, ?_⟩
    · rintro ⟨q, p, k⟩ he rfl
      rcases (h.qp q p).1 he with h1 | ⟨-, h1, h2⟩
      · rw [hnode _ (hw.bound _ h1).2]; exact hw.part _ h1 rfl
      · obtain ⟨_, o, o1, -, o2, -⟩ := hnewp p h1 h2
        simp only
        rw [o2]
        exact hw.part _ o1 rfl
    · rintro ⟨p, f, k⟩ he rfl
      simp only
      rcases moved p f he with ⟨h1, -⟩ | ⟨x, h1, rfl, -⟩
      · rw [hnode _ (hw.bound _ h1).2]; exact hw.fld _ h1 rfl
      · have f3 := ((hF.2 x).1 h1).2.2.1
        rw [hnode _ (hw.bound _ f3).2]; exact hw.fld _ f3 rfl
    · rintro q p p' f r h1 h2 ⟨a, h3⟩ ⟨a', h4⟩ h5 ⟨s, d, k⟩ he hs hd
      simp only at hs hd ⊢
      subst hs hd
      apply Classical.byContradiction
      intro hk
      have hne : ¬ Hier k := by
        rintro (rfl | hc)
        · -- a partition is no field
          have hd := (under q r d).1 ⟨p', a', h2, h4, h5⟩
          obtain ⟨p0, a0, -, -, h6⟩ := hd
          obtain ⟨pos, h7⟩ := hw.fld _ h6 rfl
          have hdb := (hw.bound _ h6).2
          rcases (h.qp s d).1 he with h8 | ⟨-, h8, -⟩
          · obtain ⟨a1, r1, h9⟩ := hw.part _ h8 rfl
            simp only at h7 h9
            rw [h7] at h9; cases h9
          · simp only at hdb; omega
        · exact hk hc
      obtain ⟨p0, a0, u1, u2, u3⟩ := (under q r d).1 ⟨p', a', h2, h4, h5⟩
      by_cases hsl : s < g.nodes.length
      · have he' := (h.old s d k hsl hne).1 he
        rcases (h.qp q s).1 h1 with h6 | ⟨-, h6, -⟩
        · exact hk (hw.single q s p0 d r h6 u1 ⟨a, by rw [← hnode s hsl]; exact h3⟩ ⟨a0, u2⟩ u3 _ he' rfl rfl)
        · omega
      · obtain ⟨q', o, o1, o2, o3, o4⟩ := hnewp s (by omega) (h.bound _ he).1
        have e1 := tree_unique h.tree h1 o2 (Or.inl rfl) (Or.inl rfl) rfl
        simp only [Edge.mk.injEq, and_true] at e1
        subst e1
        have he' := ((o4 d k hne).1 he).2
        exact hk (hw.single q o p0 d r o1 u1 ⟨a, by rw [← o3]; exact h3⟩ ⟨a0, u2⟩ u3 _ he' rfl rfl)
  refine ⟨hwf, ⟨new, hnew⟩, under, ?_, ?_, h.old, hnewp⟩
  · intro q f hq hb
    constructor
    · intro h1
      rcases moved q f h1 with ⟨h2, -⟩ | ⟨x, -, -, h2⟩
      · exact h2
      · obtain ⟨-, a, h3⟩ := (h.pts _ _).1 h2
        rw [hnode q hb] at h3
        exact absurd h3 (hq _ _)
    · intro h1
      rcases hin f with h2 | ⟨x, h2, h3⟩
      · exact (h.keep q f h2).2 h1
      · obtain ⟨-, ⟨a, f2⟩, f3, -⟩ := (hF.2 x).1 h2
        have := tree_unique hw.tree h1 f3 (Or.inr rfl) (Or.inr rfl) h3.symm
        simp only [Edge.mk.injEq, and_true] at this
        rw [← this.1] at f2
        exact absurd f2 (hq _ _)
  · intro q p hp
    rw [h.qp]
    constructor
    · rintro (h1 | ⟨-, h1, -⟩)
      · exact h1
      · omega
    · exact Or.inl

theorem indep_root (hw : WF g) (hF : FOk g root F) (h : LI g root F F g' parts) : Independent g' root := by
  intro p hp a b ha hb hab
  obtain ⟨a', r, hn⟩ := (same_of_round hw hF h).wf.part _ hp rfl
  rw [h.path hw (h.fieldOld hw hF ha)]
  exact h.indep p r ((h.pts _ _).2 ⟨hp, a', hn⟩) a b ha hb hab

theorem indep_other (hw : WF g) (hF : FOk g root F) (h : LI g root F F g' parts) {q : Nat} (hq : q ≠ root)
    (hi : Independent g q) : Independent g' q := by
  have old : ∀ p f, ⟨q, p, .queryPartition⟩ ∈ g'.edges → ⟨p, f, .field⟩ ∈ g'.edges → ⟨p, f, .field⟩ ∈ g.edges := by
    intro p f h1 h2
    by_cases hc : ∃ x ∈ F, x.node = f
    · obtain ⟨x, hx, hxf⟩ := hc
      obtain ⟨j1, -⟩ := (h.pts _ _).1 (h.inn p f h2 x hx hxf).2
      have := tree_unique h.tree h1 j1 (Or.inl rfl) (Or.inl rfl) rfl
      simp only [Edge.mk.injEq, and_true] at this
      exact absurd this hq
    · exact (h.keep p f fun x h1 h2 => hc ⟨x, h1, h2⟩).1 h2
  intro p hp a b ha hb hab
  rw [h.path hw (h.fieldOld hw hF ha)]
  have hp' : ⟨q, p, .queryPartition⟩ ∈ g.edges := by
    rcases (h.qp q p).1 hp with h1 | ⟨h1, -⟩
    · exact h1
    · exact absurd h1 hq
  exact hi p hp' a b (old p a hp ha) (old p b hp hb) hab

end

/-! ## The outer loop -/

theorem splitRoot_stack (sort : List Fld → List Fld) (g : Graph) (q : Nat) (S : List Nat) :
    (splitRoot sort g q S).2 = (collect g q S).stack := by
  unfold splitRoot
  simp only
  split <;> rfl

/-- After some rounds: `D` done, `S` on the stack. -/
structure GI (g0 : Graph) (start : List Nat) (g : Graph) (D S : List Nat) : Prop where
  same : Same g0 g
  indep : ∀ q ∈ D, Independent g q
  next : ∀ q ∈ D, ∀ f, Below g0 q f → f ∈ D ∨ f ∈ S
  begin_ : ∀ q ∈ start, q ∈ D ∨ q ∈ S
  plain : ∀ q, q ∈ S → ∀ a r, g0.nodes[q]? ≠ some (.partition a r)
  small : ∀ q, q ∈ S → q < g0.nodes.length

section
variable {g0 : Graph} {start : List Nat} {sort : List Fld → List Fld}

theorem gi_step (hw : WF g0) (hs : Sorts sort) {g : Graph} {D S : List Nat} {q : Nat} (h : GI g0 start g D (q :: S)) :
    GI g0 start (splitRoot sort g q S).1 (q :: D) (splitRoot sort g q S).2 := by
  have hwg := h.same.wf
  obtain ⟨F, parts, hF, hL, -⟩ := (round hwg hs q S).run
  have hsame := same_of_round hwg hF hL
  have hstack : ∀ f, f ∈ (splitRoot sort g q S).2 ↔ f ∈ S ∨ Below g0 q f := by
    intro f
    have e : (splitRoot sort g q S).2 = (collect g q S).stack := by
      exact splitRoot_stack sort g q S
    rw [e, mem_stack hwg, ← h.same.below hw q f]
    have hp := h.plain q (by simp)
    rw [← h.same.node (h.small q (by simp))] at hp
    unfold Below
    constructor
    · rintro (h1 | h1 | h1)
      · exact Or.inl h1
      · exact Or.inr (Or.inl ⟨h1, hp⟩)
      · exact Or.inr (Or.inr h1)
    · rintro (h1 | ⟨h1, -⟩ | h1)
      · exact Or.inl h1
      · exact Or.inr (Or.inl h1)
      · exact Or.inr (Or.inr h1)
  have hbf : ∀ f, Below g0 q f → (∀ a r, g0.nodes[f]? ≠ some (.partition a r)) ∧ f < g0.nodes.length := by
    intro f hf
    have : ∃ p, ⟨p, f, .field⟩ ∈ g0.edges := by
      rcases hf with ⟨h1, -⟩ | ⟨r, p, a, -, -, h1⟩
      · exact ⟨_, h1⟩
      · exact ⟨_, h1⟩
    obtain ⟨p, hp⟩ := this
    obtain ⟨pos, hpos⟩ := hw.fld _ hp rfl
    simp only at hpos
    refine ⟨fun a r hc => ?_, (hw.bound _ hp).2⟩
    rw [hpos] at hc
    cases hc
  refine ⟨h.same.trans hw hsame, ?_, ?_, ?_, ?_, ?_⟩
  · intro q' hq'
    by_cases hqq : q' = q
    · subst hqq; exact indep_root hwg hF hL
    · refine indep_other hwg hF hL hqq (h.indep q' ?_)
      rcases List.mem_cons.1 hq' with h1 | h1
      · exact absurd h1 hqq
      · exact h1
  · intro q' hq' f hf
    rcases List.mem_cons.1 hq' with rfl | hq'
    · exact Or.inr ((hstack f).2 (Or.inr hf))
    · rcases h.next q' hq' f hf with h1 | h1
      · exact Or.inl (by simp [h1])
      · rcases List.mem_cons.1 h1 with rfl | h1
        · exact Or.inl (by simp)
        · exact Or.inr ((hstack f).2 (Or.inl h1))
  · intro q' hq'
    rcases h.begin_ q' hq' with h1 | h1
    · exact Or.inl (by simp [h1])
    · rcases List.mem_cons.1 h1 with rfl | h1
      · exact Or.inl (by simp)
      · exact Or.inr ((hstack _).2 (Or.inl h1))
  · intro q' hq'
    rcases (hstack q').1 hq' with h1 | h1
    · exact h.plain q' (by simp [h1])
    · exact (hbf q' h1).1
  · intro q' hq'
    rcases (hstack q').1 hq' with h1 | h1
    · exact h.small q' (by simp [h1])
    · exact (hbf q' h1).2

theorem split_post (hw : WF g0) (hs : Sorts sort) {n : Nat} : ∀ {g g' : Graph} {D S : List Nat},
    GI g0 start g D S → split sort n g S = some g' → ∃ D', GI g0 start g' D' [] := by
  induction n with
  | zero =>
    intro g g' D S h hr
    cases S with
    | nil => simp only [split, Option.some.injEq] at hr; subst hr; exact ⟨D, h⟩
    | cons q S => simp [split] at hr
  | succ n ih =>
    intro g g' D S h hr
    cases S with
    | nil => simp only [split, Option.some.injEq] at hr; subst hr; exact ⟨D, h⟩
    | cons q S =>
      rw [split] at hr
      exact ih (gi_step hw hs h) hr

/-- With a rank that decreases below every node each item of the stack is worked off. -/
theorem split_ends (hw : WF g0) (hs : Sorts sort) {rank : Nat → Nat} (hr : ∀ q f, Below g0 q f → rank f < rank q) (k : Nat) :
    ∀ (L : List Nat) (S : List Nat) (g : Graph) (D : List Nat), GI g0 start g D (L ++ S) → (∀ q ∈ L, rank q < k) →
      ∃ m g' D', GI g0 start g' D' S ∧ ∀ n, split sort (m + n) g (L ++ S) = split sort n g' S := by
  induction k with
  | zero =>
    intro L S g D h hL
    cases L with
    | nil => exact ⟨0, g, D, h, fun n => by simp⟩
    | cons q L => exact absurd (hL q (by simp)) (by omega)
  | succ k ih =>
    intro L
    induction L with
    | nil => intro S g D h _; exact ⟨0, g, D, h, fun n => by simp⟩
    | cons q L ihL =>
      intro S g D h hL
      have h1 : GI g0 start (splitRoot sort g q (L ++ S)).1 (q :: D) (splitRoot sort g q (L ++ S)).2 := gi_step hw hs h
      have e : (splitRoot sort g q (L ++ S)).2 = (((g.out q).flatMap (directE g)).reverse) ++ (L ++ S) := by
        have : (splitRoot sort g q (L ++ S)).2 = (collect g q (L ++ S)).stack := splitRoot_stack sort g q (L ++ S)
        rw [this, collect_eq]
      have hrank : ∀ f ∈ ((g.out q).flatMap (directE g)).reverse, rank f < k := by
        intro f hf
        have hst : f ∈ (collect g q []).stack := by rw [collect_eq]; simpa using hf
        rw [mem_stack h.same.wf] at hst
        have hp := h.plain q (by simp)
        rw [← h.same.node (h.small q (by simp))] at hp
        have hb : Below g q f := by
          rcases hst with hc | hc | hc
          · simp at hc
          · exact Or.inl ⟨hc, hp⟩
          · exact Or.inr hc
        have := hr q f ((h.same.below hw q f).1 hb)
        have := hL q (by simp)
        omega
      rw [e] at h1
      obtain ⟨m1, g1, D1, a1, a2⟩ := ih _ _ _ _ h1 hrank
      obtain ⟨m2, g2, D2, b1, b2⟩ := ihL S g1 D1 a1 (fun q hq => hL q (by simp [hq]))
      refine ⟨m1 + m2 + 1, g2, D2, b1, fun n => ?_⟩
      have : m1 + m2 + 1 + n = (m1 + (m2 + n)) + 1 := by omega
      rw [this, List.cons_append, split, e, a2, b2]

end

end Verif.Cycles
