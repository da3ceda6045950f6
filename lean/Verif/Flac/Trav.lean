import Verif.Flac.Lemmas
/-!
# The two traversals
-/
namespace Verif.Flac

section
variable {g : Graph}

/-! ## Upwards: `detect` -/

/-- The sources of the saturated edges into a node. -/
def parents (g : Graph) (sat : List Nat) (x : Nat) : List Nat :=
  (((g.incoming x).filter fun e => sat.contains e).map g.src).reverse

theorem mem_parents {sat : List Nat} (hb : ∀ e ∈ sat, e < g.edges.length) {x y : Nat} :
    y ∈ parents g sat x ↔ ∃ e ∈ sat, g.dst e = x ∧ g.src e = y := by
  simp only [parents, List.mem_reverse, List.mem_map, List.mem_filter, mem_incoming, List.contains_eq_mem,
    decide_eq_true_eq]
  constructor
  · rintro ⟨e, ⟨⟨-, h1⟩, h2⟩, h3⟩; exact ⟨e, h2, h1, h3⟩
  · rintro ⟨e, h2, h1, h3⟩; exact ⟨e, ⟨⟨hb e h2, h1⟩, h2⟩, h3⟩

/-- What is remembered of a node. -/
def noted (g : Graph) (s : State) (x : Nat) (acc : List (Nat × Nat)) : List (Nat × Nat) :=
  match findNext g s.marked x with
  | some e => acc ++ [(e, x)]
  | none => acc

theorem detect_step {s : State} {new : List Nat} {n x : Nat} {st : List Nat} {acc : List (Nat × Nat)} :
    detect g s new (n + 1) (x :: st) acc = if !disjoint new (s.feeding x) then some none
      else detect g s new n (parents g s.saturated x ++ st) (noted g s x acc) := rfl

theorem detect_nil {s : State} {new : List Nat} {n : Nat} {acc : List (Nat × Nat)} :
    detect g s new n [] acc = some (some acc) := by cases n <;> rfl

theorem mem_noted {s : State} {x : Nat} {acc : List (Nat × Nat)} {p : Nat × Nat} :
    p ∈ noted g s x acc ↔ p ∈ acc ∨ findNext g s.marked x = some p.1 ∧ p.2 = x := by
  unfold noted
  split
  · next e h =>
    rw [List.mem_append, List.mem_singleton]
    constructor
    · rintro (h1 | rfl)
      · exact Or.inl h1
      · exact Or.inr ⟨h, rfl⟩
    · rintro (h1 | ⟨h1, h2⟩)
      · exact Or.inl h1
      · right; rw [h] at h1; cases h1; rw [← h2]
  · next h => simp [h]

theorem detect_some {s : State} (hb : ∀ e ∈ s.saturated, e < g.edges.length) {new : List Nat} {n : Nat} {st : List Nat}
    {acc l : List (Nat × Nat)} (h : detect g s new n st acc = some (some l)) :
    (∀ x ∈ st, ∀ y, Path g s.saturated y x → disjoint new (s.feeding y) = true) ∧
      ∀ p, p ∈ l ↔ p ∈ acc ∨ findNext g s.marked p.2 = some p.1 ∧ ∃ x ∈ st, Path g s.saturated p.2 x := by
  induction n generalizing st acc with
  | zero =>
    cases st with
    | nil => rw [detect_nil] at h; cases h; simp
    | cons x st => cases h
  | succ n ih =>
    cases st with
    | nil => rw [detect_nil] at h; cases h; simp
    | cons x st =>
      rw [detect_step] at h
      split at h
      · cases h
      · next hd =>
        obtain ⟨h1, h2⟩ := ih h
        have hsplit : ∀ y, (∃ z ∈ x :: st, Path g s.saturated y z) ↔
            y = x ∨ ∃ z ∈ parents g s.saturated x ++ st, Path g s.saturated y z := by
          intro y
          constructor
          · rintro ⟨z, hz, hp⟩
            rcases List.mem_cons.1 hz with rfl | hz
            · rcases hp.last with rfl | ⟨e, he, hde, hq⟩
              · exact Or.inl rfl
              · exact Or.inr ⟨g.src e, List.mem_append_left _ ((mem_parents hb).2 ⟨e, he, hde, rfl⟩), hq⟩
            · exact Or.inr ⟨z, List.mem_append_right _ hz, hp⟩
          · rintro (rfl | ⟨z, hz, hp⟩)
            · exact ⟨y, by simp, .refl _⟩
            · rcases List.mem_append.1 hz with hz | hz
              · obtain ⟨e, he, hde, hs⟩ := (mem_parents hb).1 hz
                exact ⟨x, by simp, hp.trans (by rw [← hs, ← hde]; exact .edge he)⟩
              · exact ⟨z, by simp [hz], hp⟩
        constructor
        · intro z hz y hp
          rcases (hsplit y).1 ⟨z, hz, hp⟩ with rfl | ⟨w, hw, hq⟩
          · simpa using hd
          · exact h1 w hw y hq
        · intro p
          rw [h2, mem_noted, hsplit]
          constructor
          · rintro ((h3 | ⟨h3, h4⟩) | ⟨h3, h4⟩)
            · exact Or.inl h3
            · exact Or.inr ⟨by rw [h4]; exact h3, Or.inl h4⟩
            · exact Or.inr ⟨h3, Or.inr h4⟩
          · rintro (h3 | ⟨h3, h4 | h4⟩)
            · exact Or.inl (Or.inl h3)
            · exact Or.inl (Or.inr ⟨by rw [← h4]; exact h3, h4⟩)
            · exact Or.inr ⟨h3, h4⟩

theorem detect_none {s : State} (hb : ∀ e ∈ s.saturated, e < g.edges.length) {new : List Nat} {n : Nat} {st : List Nat}
    {acc : List (Nat × Nat)} (h : detect g s new n st acc = some none) :
    ∃ x ∈ st, ∃ y, Path g s.saturated y x ∧ disjoint new (s.feeding y) = false := by
  induction n generalizing st acc with
  | zero =>
    cases st with
    | nil => rw [detect_nil] at h; cases h
    | cons x st => cases h
  | succ n ih =>
    cases st with
    | nil => rw [detect_nil] at h; cases h
    | cons x st =>
      rw [detect_step] at h
      split at h
      · next hd => exact ⟨x, by simp, x, .refl _, by simpa using hd⟩
      · obtain ⟨z, hz, y, hp, hq⟩ := ih h
        rcases List.mem_append.1 hz with hz | hz
        · obtain ⟨e, he, hde, hs⟩ := (mem_parents hb).1 hz
          exact ⟨x, by simp, y, hp.trans (by rw [← hs, ← hde]; exact .edge he), hq⟩
        · exact ⟨z, by simp [hz], y, hp, hq⟩

theorem detect_ends {s : State} (hb : ∀ e ∈ s.saturated, e < g.edges.length) (hc : Acyc g s.saturated) (new : List Nat)
    (x : Nat) : ∃ N r, ∀ n, N ≤ n → detect g s new n [x] [] = some r := by
  obtain ⟨rank, hr⟩ := hc.up
  have key : ∀ k, ∀ L : List Nat, (∀ y ∈ L, rank y < k) → ∃ m, ∀ st acc, (∀ n, detect g s new (m + n) (L ++ st) acc = some none) ∨
      ∃ acc', ∀ n, detect g s new (m + n) (L ++ st) acc = detect g s new n st acc' := by
    intro k
    induction k with
    | zero =>
      intro L hL
      cases L with
      | nil => exact ⟨0, fun st acc => Or.inr ⟨acc, fun n => by simp⟩⟩
      | cons y L => exact absurd (hL y (by simp)) (by omega)
    | succ k ih =>
      intro L
      induction L with
      | nil => intro _; exact ⟨0, fun st acc => Or.inr ⟨acc, fun n => by simp⟩⟩
      | cons y L ihL =>
        intro hL
        obtain ⟨m2, h2⟩ := ihL fun z hz => hL z (by simp [hz])
        obtain ⟨m1, h1⟩ := ih (parents g s.saturated y) (by
          intro z hz
          obtain ⟨e, he, hde, hs⟩ := (mem_parents hb).1 hz
          have := hr e he
          have := hL y (by simp)
          rw [hde, hs] at *
          omega)
        refine ⟨m1 + m2 + 1, fun st acc => ?_⟩
        by_cases hd : (!disjoint new (s.feeding y)) = true
        · left
          intro n
          rw [show m1 + m2 + 1 + n = (m1 + m2 + n) + 1 by omega, List.cons_append, detect_step, if_pos hd]
        · have hstep : ∀ n, detect g s new (m1 + m2 + 1 + n) (y :: L ++ st) acc =
              detect g s new (m1 + (m2 + n)) (parents g s.saturated y ++ (L ++ st)) (noted g s y acc) := by
            intro n
            rw [show m1 + m2 + 1 + n = (m1 + (m2 + n)) + 1 by omega, List.cons_append, detect_step, if_neg hd]
          rcases h1 (L ++ st) (noted g s y acc) with h1 | ⟨acc1, h1⟩
          · left; intro n; rw [hstep, h1]
          · rcases h2 st acc1 with h2 | ⟨acc2, h2⟩
            · left; intro n; rw [hstep, h1, h2]
            · right; exact ⟨acc2, fun n => by rw [hstep, h1, h2]⟩
  obtain ⟨m, hm⟩ := key (rank x + 1) [x] (by simp)
  rcases hm [] [] with h | ⟨acc', h⟩
  · exact ⟨m, none, fun n hn => by have := h (n - m); rwa [show m + (n - m) = n by omega] at this⟩
  · refine ⟨m, some acc', fun n hn => ?_⟩
    have := h (n - m)
    rw [show m + (n - m) = n by omega, detect_nil] at this
    exact this

/-! ## Downwards: `subtree` -/

/-- The saturated edges of a node. -/
def outs (g : Graph) (sat : List Nat) (x : Nat) : List Nat := (g.outgoing x).filter fun e => sat.contains e

theorem mem_outs {sat : List Nat} (hb : ∀ e ∈ sat, e < g.edges.length) {x e : Nat} :
    e ∈ outs g sat x ↔ e ∈ sat ∧ g.src e = x := by
  simp only [outs, List.mem_filter, mem_outgoing, List.contains_eq_mem, decide_eq_true_eq]
  constructor
  · rintro ⟨⟨-, h1⟩, h2⟩; exact ⟨h2, h1⟩
  · rintro ⟨h2, h1⟩; exact ⟨⟨hb e h2, h1⟩, h2⟩

theorem nodup_outs {sat : List Nat} {x : Nat} : (outs g sat x).Nodup := List.Pairwise.filter _ nodup_outgoing

/-- The tree with a node and its edges. -/
def visit (g : Graph) (sat : List Nat) (x : Nat) (t : Tree) : Tree :=
  (outs g sat x).foldl (addEdge g) { t with nodes := put x t.nodes }

theorem subtree_step {sat : List Nat} {n x : Nat} {st : List Nat} {t : Tree} :
    subtree g sat (n + 1) (x :: st) t = subtree g sat n (((outs g sat x).map g.dst).reverse ++ st) (visit g sat x t) := rfl

theorem subtree_nil {sat : List Nat} {n : Nat} {t : Tree} : subtree g sat n [] t = some t := by cases n <;> rfl

theorem addEdges_nodes (l : List Nat) (t : Tree) : (l.foldl (addEdge g) t).nodes = t.nodes ∧
    (l.foldl (addEdge g) t).terminals = t.terminals ∧ (l.foldl (addEdge g) t).isTerminal = t.isTerminal ∧
    ∀ e, e ∈ (l.foldl (addEdge g) t).edges ↔ e ∈ l ∨ e ∈ t.edges := by
  induction l generalizing t with
  | nil => simp
  | cons x l ih =>
    obtain ⟨h1, h2, h3, h4⟩ := ih (addEdge g t x)
    simp only [List.foldl_cons]
    refine ⟨h1, h2, h3, fun e => ?_⟩
    rw [h4]
    simp only [addEdge, mem_put, List.mem_cons]
    grind

theorem addEdges_total (l : List Nat) (t : Tree) (hl : l.Nodup) (hd : ∀ e ∈ l, e ∉ t.edges) :
    (l.foldl (addEdge g) t).edges = l.reverse ++ t.edges ∧
      (l.foldl (addEdge g) t).total % 65536 = (t.total + g.sum l) % 65536 := by
  induction l generalizing t with
  | nil => simp [Graph.sum]
  | cons x l ih =>
    rw [List.nodup_cons] at hl
    have hx : (addEdge g t x).edges = x :: t.edges := by
      have := hd x (by simp)
      simp [addEdge, put, this]
    obtain ⟨h1, h2⟩ := ih (addEdge g t x) hl.2 (by
      intro e he
      rw [hx, List.mem_cons]
      rintro (rfl | h)
      · exact hl.1 he
      · exact hd e (by simp [he]) h)
    simp only [List.foldl_cons]
    refine ⟨by rw [h1, hx]; simp, ?_⟩
    rw [h2]
    simp only [addEdge, Graph.sum, List.map_cons, List.sum_cons]
    omega

/-- What is reached from the stack, with the first one taken apart. -/
theorem reach_cons {sat : List Nat} (hb : ∀ e ∈ sat, e < g.edges.length) {x y : Nat} {st : List Nat} :
    (∃ z ∈ x :: st, Path g sat z y) ↔ y = x ∨ ∃ z ∈ ((outs g sat x).map g.dst).reverse ++ st, Path g sat z y := by
  constructor
  · rintro ⟨z, hz, hp⟩
    rcases List.mem_cons.1 hz with rfl | hz
    · rcases hp.first with rfl | ⟨e, he, hs, hq⟩
      · exact Or.inl rfl
      · refine Or.inr ⟨g.dst e, ?_, hq⟩
        simp only [List.mem_append, List.mem_reverse, List.mem_map]
        exact Or.inl ⟨e, (mem_outs hb).2 ⟨he, hs⟩, rfl⟩
    · exact Or.inr ⟨z, List.mem_append_right _ hz, hp⟩
  · rintro (rfl | ⟨z, hz, hp⟩)
    · exact ⟨y, by simp, .refl _⟩
    · simp only [List.mem_append, List.mem_reverse, List.mem_map] at hz
      rcases hz with ⟨e, he, rfl⟩ | hz
      · obtain ⟨h1, h2⟩ := (mem_outs hb).1 he
        exact ⟨x, by simp, by rw [← h2]; exact .step h1 hp⟩
      · exact ⟨z, by simp [hz], hp⟩

theorem subtree_mem {sat : List Nat} (hb : ∀ e ∈ sat, e < g.edges.length) {n : Nat} {st : List Nat} {t t' : Tree}
    (h : subtree g sat n st t = some t') :
    t'.terminals = t.terminals ∧ t'.isTerminal = t.isTerminal ∧
      (∀ x, x ∈ t'.nodes ↔ x ∈ t.nodes ∨ ∃ y ∈ st, Path g sat y x) ∧
      ∀ e, e ∈ t'.edges ↔ e ∈ t.edges ∨ e ∈ sat ∧ ∃ y ∈ st, Path g sat y (g.src e) := by
  induction n generalizing st t with
  | zero =>
    cases st with
    | nil => rw [subtree_nil] at h; cases h; simp
    | cons x st => cases h
  | succ n ih =>
    cases st with
    | nil => rw [subtree_nil] at h; cases h; simp
    | cons x st =>
      rw [subtree_step] at h
      obtain ⟨h1, h2, h3, h4⟩ := ih h
      obtain ⟨k1, k2, k3, k4⟩ := addEdges_nodes (g := g) (outs g sat x) { t with nodes := put x t.nodes }
      refine ⟨h1.trans k2, h2.trans k3, fun y => ?_, fun e => ?_⟩
      · rw [h3, reach_cons hb]
        unfold visit
        rw [k1]
        simp only [mem_put]
        grind
      · rw [h4, reach_cons hb]
        unfold visit
        rw [k4, mem_outs hb]
        grind

theorem subtree_ends {sat : List Nat} (hb : ∀ e ∈ sat, e < g.edges.length) (hc : Acyc g sat) (x : Nat) (t : Tree) :
    ∃ N r, ∀ n, N ≤ n → subtree g sat n [x] t = some r := by
  obtain ⟨rank, hr⟩ := hc.down
  have key : ∀ k, ∀ L : List Nat, (∀ y ∈ L, rank y < k) → ∀ t, ∃ m t', ∀ st n,
      subtree g sat (m + n) (L ++ st) t = subtree g sat n st t' := by
    intro k
    induction k with
    | zero =>
      intro L hL t
      cases L with
      | nil => exact ⟨0, t, fun st n => by simp⟩
      | cons y L => exact absurd (hL y (by simp)) (by omega)
    | succ k ih =>
      intro L
      induction L with
      | nil => intro _ t; exact ⟨0, t, fun st n => by simp⟩
      | cons y L ihL =>
        intro hL t
        obtain ⟨m1, t1, h1⟩ := ih ((outs g sat y).map g.dst).reverse (by
          intro z hz
          simp only [List.mem_reverse, List.mem_map] at hz
          obtain ⟨e, he, rfl⟩ := hz
          obtain ⟨h1, h2⟩ := (mem_outs hb).1 he
          have := hr e h1
          have := hL y (by simp)
          rw [h2] at *
          omega) (visit g sat y t)
        obtain ⟨m2, t2, h2⟩ := ihL (fun z hz => hL z (by simp [hz])) t1
        refine ⟨m1 + m2 + 1, t2, fun st n => ?_⟩
        rw [show m1 + m2 + 1 + n = (m1 + (m2 + n)) + 1 by omega, List.cons_append, subtree_step, h1, h2]
  obtain ⟨m, t', hm⟩ := key (rank x + 1) [x] (by simp) t
  refine ⟨m, t', fun n hn => ?_⟩
  have := hm [] (n - m)
  rw [show m + (n - m) = n by omega, subtree_nil] at this
  exact this

/-- Each edge of the subtree is counted once. -/
theorem subtree_total {sat : List Nat} (hb : ∀ e ∈ sat, e < g.edges.length) (hc : Acyc g sat) {n : Nat} {st : List Nat}
    {t t' : Tree} (h : subtree g sat n st t = some t') (ha : ∀ x ∈ st, Arb g sat x)
    (hp : st.Pairwise fun x y => ∀ z, Path g sat x z → ¬ Path g sat y z)
    (hd : ∀ e ∈ sat, (∃ y ∈ st, Path g sat y (g.src e)) → e ∉ t.edges) :
    ∃ new, t'.edges = new ++ t.edges ∧ new.Nodup ∧ t'.total % 65536 = (t.total + g.sum new) % 65536 ∧
      ∀ e ∈ new, e ∈ sat ∧ ∃ y ∈ st, Path g sat y (g.src e) := by
  induction n generalizing st t with
  | zero =>
    cases st with
    | nil => rw [subtree_nil] at h; cases h; exact ⟨[], by simp [Graph.sum]⟩
    | cons x st => cases h
  | succ n ih =>
    cases st with
    | nil => rw [subtree_nil] at h; cases h; exact ⟨[], by simp [Graph.sum]⟩
    | cons x st =>
      rw [subtree_step] at h
      rw [List.pairwise_cons] at hp
      have hdis : ∀ e ∈ outs g sat x, e ∉ t.edges := by
        intro e he
        obtain ⟨h1, h2⟩ := (mem_outs hb).1 he
        exact hd e h1 ⟨x, by simp, by rw [h2]; exact .refl _⟩
      obtain ⟨k1, k2⟩ := addEdges_total (g := g) (outs g sat x) { t with nodes := put x t.nodes } nodup_outs hdis
      obtain ⟨new, h1, h2, h3, h4⟩ := ih h (by
          intro y hy
          simp only [List.mem_append, List.mem_reverse, List.mem_map] at hy
          rcases hy with ⟨e, he, rfl⟩ | hy
          · obtain ⟨h1, h2⟩ := (mem_outs hb).1 he
            exact (ha x (by simp)).sub (by rw [← h2]; exact .edge h1)
          · exact ha y (by simp [hy]))
        (by
          rw [List.pairwise_append]
          refine ⟨?_, hp.2, ?_⟩
          · rw [List.pairwise_reverse, List.pairwise_map]
            have : (outs g sat x).Pairwise fun a b => a ∈ outs g sat x ∧ b ∈ outs g sat x ∧ a ≠ b := by
              have h1 := nodup_outs (g := g) (sat := sat) (x := x)
              rw [List.Nodup, List.pairwise_iff_forall_sublist] at h1
              rw [List.pairwise_iff_forall_sublist]
              intro a b hab
              exact ⟨hab.subset (by simp), hab.subset (by simp), h1 hab⟩
            refine this.imp ?_
            rintro a b ⟨hA, hB, hab⟩ z hz hz'
            obtain ⟨h1, h2⟩ := (mem_outs hb).1 hA
            obtain ⟨h3, h4⟩ := (mem_outs hb).1 hB
            exact (ha x (by simp)).siblings hc h1 h3 h2 h4 hab hz' hz
          · intro y hy w hw z hz hz'
            simp only [List.mem_reverse, List.mem_map] at hy
            obtain ⟨e, he, rfl⟩ := hy
            obtain ⟨h1, h2⟩ := (mem_outs hb).1 he
            exact hp.1 w hw z (by rw [← h2]; exact .step h1 hz) hz')
        (by
          rintro e he ⟨y, hy, hpy⟩
          unfold visit
          rw [k1, List.mem_append, List.mem_reverse]
          rintro (h1 | h1)
          · obtain ⟨-, h2⟩ := (mem_outs hb).1 h1
            rw [h2] at hpy
            simp only [List.mem_append, List.mem_reverse, List.mem_map] at hy
            rcases hy with ⟨f, hf, rfl⟩ | hy
            · obtain ⟨h3, h4⟩ := (mem_outs hb).1 hf
              exact hc f h3 (by rw [h4]; exact hpy)
            · exact hp.1 y hy x (.refl _) hpy
          · have : ∃ z ∈ x :: st, Path g sat z (g.src e) := (reach_cons hb).2 (Or.inr ⟨y, hy, hpy⟩)
            exact hd e he this h1)
      unfold visit at h1 h3
      rw [k1] at h1
      refine ⟨new ++ (outs g sat x).reverse, by rw [h1]; simp, ?_, ?_, ?_⟩
      · rw [List.nodup_append]
        refine ⟨h2, ?_, ?_⟩
        · rw [List.Nodup, List.pairwise_reverse]
          exact nodup_outs.imp fun h => Ne.symm h
        · rintro a ha' b hb' rfl
          obtain ⟨h5, y, hy, hpy⟩ := h4 a ha'
          rw [List.mem_reverse] at hb'
          obtain ⟨h6, h7⟩ := (mem_outs hb).1 hb'
          rw [h7] at hpy
          simp only [List.mem_append, List.mem_reverse, List.mem_map] at hy
          rcases hy with ⟨f, hf, rfl⟩ | hy
          · obtain ⟨h8, h9⟩ := (mem_outs hb).1 hf
            exact hc f h8 (by rw [h9]; exact hpy)
          · exact hp.1 y hy x (.refl _) hpy
      · rw [h3]
        have : g.sum (new ++ (outs g sat x).reverse) = g.sum new + g.sum (outs g sat x) := by
          simp [Graph.sum, List.map_reverse, List.sum_reverse]
        rw [this]
        simp only at k2
        omega
      · intro e he
        rw [List.mem_append, List.mem_reverse] at he
        rcases he with he | he
        · obtain ⟨h5, hy⟩ := h4 e he
          exact ⟨h5, (reach_cons hb).2 (Or.inr hy)⟩
        · obtain ⟨h6, h7⟩ := (mem_outs hb).1 he
          exact ⟨h6, x, by simp, by rw [h7]; exact .refl _⟩

end

end Verif.Flac
