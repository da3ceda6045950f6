import Verif.Cycles.Global
import Verif.OpChecks.TableLemmas
import Verif.Schedule.Props
/-!
# C61: partitions that depend on themselves are split

`split sort n g start` is the graph after post processing, `g` before.
-/
namespace Verif.Cycles

/-- The nodes it starts from are the root or fields. -/
def Starts (g : Graph) (start : List Nat) : Prop :=
  ∀ q ∈ start, q < g.nodes.length ∧ ∀ a r, g.nodes[q]? ≠ some (.partition a r)

theorem gi_start {g : Graph} (hw : WF g) {start : List Nat} (h : Starts g start) : GI g start g [] start :=
  ⟨Same.refl hw, by simp, by simp, fun _ h => Or.inr h, fun q hq => (h q hq).2, fun q hq => (h q hq).1⟩

section
variable {g g' : Graph} {start : List Nat} {sort : List Fld → List Fld} {n : Nat}

/-- In every selection set looked at no field of a partition requires, directly or not, another field of
the same partition.  Missing: partitions may still depend on each other in a cycle
(`C61_split_cycle`, `C61_two_resolvers_cycle`, `C61_key_cycle`). -/
theorem C61_independent_partial (hs : Sorts sort) (hw : WF g) (hst : Starts g start)
    (h : split sort n g start = some g') {q : Nat} (hq : Visited g start q) : Independent g' q := by
  obtain ⟨D, hD⟩ := split_post hw hs (gi_start hw hst) h
  have : q ∈ D := by
    induction hq with
    | start h1 =>
      rcases hD.begin_ _ h1 with h2 | h2
      · exact h2
      · simp at h2
    | next _ h1 ih =>
      rcases hD.next _ ih _ h1 with h2 | h2
      · exact h2
      · simp at h2
  exact hD.indep q this

/-- Every field is still provided by a partition with the same resolver for the same parent, or belongs
to the same field, and by one only. -/
theorem C61_fields (hs : Sorts sort) (hw : WF g) (hst : Starts g start) (h : split sort n g start = some g') :
    (∀ q r f, Under g' q r f ↔ Under g q r f) ∧
      (∀ q f, q < g.nodes.length → (∀ a r, g.nodes[q]? ≠ some (.partition a r)) →
        (⟨q, f, .field⟩ ∈ g'.edges ↔ ⟨q, f, .field⟩ ∈ g.edges)) ∧
      (∀ p p' f, ⟨p, f, .field⟩ ∈ g'.edges → ⟨p', f, .field⟩ ∈ g'.edges → p = p') ∧
      ∀ i, i < g.nodes.length → g'.nodes[i]? = g.nodes[i]? := by
  obtain ⟨D, hD⟩ := split_post hw hs (gi_start hw hst) h
  refine ⟨hD.same.under, fun q f h1 h2 => hD.same.direct q f h2 h1, ?_, fun i hi => hD.same.node hi⟩
  intro p p' f h1 h2
  have := tree_unique hD.same.wf.tree h1 h2 (Or.inr rfl) (Or.inr rfl) rfl
  simp only [Edge.mk.injEq, and_true] at this
  exact this

/-- Requirements and the order of mutations: those of fields and partitions are unchanged, a new
partition has those of a partition next to it with the same resolver and entity. -/
theorem C61_requirements (hs : Sorts sort) (hw : WF g) (hst : Starts g start) (h : split sort n g start = some g') :
    (∀ s d k, s < g.nodes.length → k ≠ .field → k ≠ .queryPartition →
      (⟨s, d, k⟩ ∈ g'.edges ↔ ⟨s, d, k⟩ ∈ g.edges)) ∧
      (∀ q p, p < g.nodes.length → (⟨q, p, .queryPartition⟩ ∈ g'.edges ↔ ⟨q, p, .queryPartition⟩ ∈ g.edges)) ∧
      ∀ p, g.nodes.length ≤ p → p < g'.nodes.length → ∃ q o a r, ⟨q, o, .queryPartition⟩ ∈ g.edges ∧
        ⟨q, p, .queryPartition⟩ ∈ g'.edges ∧ g.nodes[o]? = some (.partition a r) ∧ g'.nodes[p]? = some (.partition a r) ∧
        (∀ d, ⟨p, d, .requiredBySubgraph⟩ ∈ g'.edges ↔ ⟨o, d, .requiredBySubgraph⟩ ∈ g.edges) ∧
        (∀ d, ⟨p, d, .mutationExecutedAfter⟩ ∈ g'.edges ↔ ⟨o, d, .mutationExecutedAfter⟩ ∈ g.edges) := by
  obtain ⟨D, hD⟩ := split_post hw hs (gi_start hw hst) h
  refine ⟨fun s d k h1 h2 h3 => hD.same.other s d k h1 ?_, fun q p hp => hD.same.qp q p hp, ?_⟩
  · rintro (h4 | h4)
    · exact h3 h4
    · exact h2 h4
  · intro p h1 h2
    obtain ⟨q, o, k1, k2, k3, k4⟩ := hD.same.new p h1 h2
    obtain ⟨a, r, k5⟩ := hw.part _ k1 rfl
    refine ⟨q, o, a, r, k1, k2, k5, by rw [k3]; exact k5, fun d => ?_, fun d => ?_⟩
    · rw [k4 d .requiredBySubgraph (by simp [Hier])]; simp [copied]
    · rw [k4 d .mutationExecutedAfter (by simp [Hier])]; simp [copied]

/-- A partition is added only if it has to: of two partitions of the node with the same resolver, at least
one of which is new, one has a field that requires a field of the other. -/
theorem C61_needed (hs : Sorts sort) (hw : WF g) (root : Nat) (stack : List Nat) :
    let g1 := (splitRoot sort g root stack).1
    ∀ p p' r, ⟨root, p, .queryPartition⟩ ∈ g1.edges → ⟨root, p', .queryPartition⟩ ∈ g1.edges →
      (∃ a, g1.nodes[p]? = some (.partition a r)) → (∃ a, g1.nodes[p']? = some (.partition a r)) → p ≠ p' →
      (g.nodes.length ≤ p ∨ g.nodes.length ≤ p') →
      ∃ a b, ⟨p, a, .field⟩ ∈ g1.edges ∧ ⟨p', b, .field⟩ ∈ g1.edges ∧ (Path g a b ∨ Path g b a) := by
  intro g1 p p' r h1 h2 h3 h4 h5 h6
  obtain ⟨F, parts, hF, hL, hN⟩ := (round hw hs root stack).run
  exact hN p p' r ((hL.pts _ _).2 ⟨h1, h3⟩) ((hL.pts _ _).2 ⟨h2, h4⟩) h5 h6

/-- No partition is left without fields if the node had one partition per resolver, as it has when planned
(the first field of a partition is indexed by `query_partition.rs:204-207`). -/
theorem C61_nonempty (hs : Sorts sort) (hw : WF g) (root : Nat) (stack : List Nat) {r : Nat}
    (hu : ∀ p p', ⟨root, p, .queryPartition⟩ ∈ g.edges → ⟨root, p', .queryPartition⟩ ∈ g.edges →
      (∃ a, g.nodes[p]? = some (.partition a r)) → (∃ a, g.nodes[p']? = some (.partition a r)) → p = p')
    (hf : ∃ f, Under g root r f) :
    let g1 := (splitRoot sort g root stack).1
    ∀ p, ⟨root, p, .queryPartition⟩ ∈ g1.edges → (∃ a, g1.nodes[p]? = some (.partition a r)) →
      ∃ f, ⟨p, f, .field⟩ ∈ g1.edges := by
  intro g1 p h1 h2
  obtain ⟨f, hf⟩ := hf
  obtain ⟨F, parts, hF, hL, -⟩ := (round hw hs root stack).run
  have hS := same_of_round hw hF hL
  obtain ⟨p', a', k1, k2, k3⟩ := (hS.under root r f).2 hf
  by_cases hp : p = p'
  · exact ⟨f, by rw [hp]; exact k3⟩
  · by_cases hlen : g.nodes.length ≤ p ∨ g.nodes.length ≤ p'
    · obtain ⟨a, b, h3, -⟩ := C61_needed hs hw root stack p p' r h1 k1 h2 ⟨a', k2⟩ hp hlen
      exact ⟨a, h3⟩
    · have l1 : p < g.nodes.length := by omega
      have l2 : p' < g.nodes.length := by omega
      exfalso
      refine hp (hu p p' ((hS.qp _ _ l1).1 h1) ((hS.qp _ _ l2).1 k1) ?_ ?_)
      · obtain ⟨a, h2⟩ := h2
        exact ⟨a, by rw [← hS.node l1]; exact h2⟩
      · exact ⟨a', by rw [← hS.node l2]; exact k2⟩

/-- If no field is below itself all selection sets are treated. -/
theorem C61_ends (hs : Sorts sort) (hw : WF g) (hst : Starts g start) {rank : Nat → Nat}
    (hr : ∀ q f, Below g q f → rank f < rank q) : ∃ N g', ∀ n, N ≤ n → split sort n g start = some g' := by
  have hmax : ∀ l : List Nat, ∃ k, ∀ q ∈ l, rank q < k := by
    intro l
    induction l with
    | nil => exact ⟨0, by simp⟩
    | cons x t ih =>
      obtain ⟨k, hk⟩ := ih
      refine ⟨max k (rank x + 1), ?_⟩
      intro q hq
      rcases List.mem_cons.1 hq with rfl | hq
      · omega
      · have := hk q hq; omega
  obtain ⟨k, hk⟩ := hmax start
  obtain ⟨m, g', D', -, h⟩ := split_ends hw hs hr k start [] g [] (by simpa using gi_start hw hst) hk
  refine ⟨m, g', fun n hn => ?_⟩
  have := h (n - m)
  rw [show m + (n - m) = n by omega, List.append_nil] at this
  rw [this]
  cases n - m <;> rfl

end

/-! ## Examples -/

/-- An insertion sort. -/
def isort : List Fld → List Fld := Verif.OpChecks.sortBy fun a b => decide (PosLe a.position b.position)

theorem isort_sorts : Sorts isort := by
  intro l
  refine ⟨Verif.OpChecks.sortBy_perm _ _, ?_⟩
  have := Verif.OpChecks.sortBy_sorted (le := fun a b : Fld => decide (PosLe a.position b.position)) ?_ ?_ l
  · simpa [isort] using this
  · intro a b c
    simp only [decide_eq_true_eq]
    rcases a.position with _ | x <;> rcases b.position with _ | y <;> rcases c.position with _ | z <;>
      simp only [PosLe, false_implies, implies_true, true_implies, imp_self] <;> omega
  · intro a b
    simp only [Bool.or_eq_true_iff, decide_eq_true_eq]
    rcases a.position with _ | x <;> rcases b.position with _ | y <;> simp only [PosLe, or_true, true_or]
    omega

/-- Decides that a concrete graph is well-formed. -/
def wfCheck (g : Graph) : Bool :=
  g.edges.all (fun e => decide (e.src < g.nodes.length) && decide (e.dst < g.nodes.length) &&
    (match e.kind, g.nodes[e.dst]? with
      | .queryPartition, some (.partition _ _) => true
      | .queryPartition, _ => false
      | .field, some (.field _) => true
      | .field, _ => false
      | _, _ => true)) &&
  decide (((g.edges.filter fun e => decide (Hier e.kind)).map (·.dst)).Nodup) &&
  -- no other edge to a field from a partition with the resolver of its partition
  g.edges.all fun e => e.kind != .field || g.edges.all fun e' => e'.dst != e.dst || e'.kind == .field ||
    (match g.nodes[e'.src]?, g.nodes[e.src]? with
      | some (.partition _ r), some (.partition _ r') => r != r'
      | _, _ => true)

theorem wf_of_check {g : Graph} (h : wfCheck g = true) : WF g := by
  unfold wfCheck at h
  rw [Bool.and_eq_true, Bool.and_eq_true] at h
  obtain ⟨⟨h1, h2⟩, h3⟩ := h
  rw [List.all_eq_true] at h1 h3
  refine ⟨?_, ?_, ?_, of_decide_eq_true h2, ?_⟩
  · intro e he
    have := h1 e he
    simp only [Bool.and_eq_true, decide_eq_true_eq] at this
    exact this.1
  · intro e he hk
    have := h1 e he
    simp only [hk, Bool.and_eq_true] at this
    have := this.2
    cases hn : g.nodes[e.dst]? with
    | none => simp [hn] at this
    | some n => cases n <;> simp [hn] at this ⊢
  · intro e he hk
    have := h1 e he
    simp only [hk, Bool.and_eq_true] at this
    have := this.2
    cases hn : g.nodes[e.dst]? with
    | none => simp [hn] at this
    | some n => cases n <;> simp [hn] at this ⊢
  · rintro q p p' f r - - ⟨a, hp⟩ ⟨a', hp'⟩ hf e he rfl hd
    have h4 := h3 _ hf
    simp only [bne_self_eq_false, Bool.false_or] at h4
    rw [List.all_eq_true] at h4
    have h5 := h4 e he
    simp only [hd, hp, hp', bne_self_eq_false, Bool.false_or, Bool.or_false] at h5
    simpa using h5

/-- The example of `tests/cycle.rs`: `second` (partition 5) requires `first`, `third` requires `second`;
`first` and `third` are planned in partition 3. -/
def partitionsCycle : Graph :=
  ⟨[.root, .partition 0 0, .field (some 0), .partition 1 1, .field (some 2), .partition 1 2, .field (some 3), .field (some 1)],
   [⟨7, 6, .requiredBySubgraph⟩, ⟨6, 4, .requiredBySubgraph⟩, ⟨5, 6, .field⟩, ⟨3, 7, .field⟩, ⟨3, 4, .field⟩,
    ⟨2, 5, .queryPartition⟩, ⟨2, 3, .queryPartition⟩, ⟨1, 2, .field⟩, ⟨0, 1, .queryPartition⟩]⟩

example : WF partitionsCycle := wf_of_check (by decide)
example : Starts partitionsCycle [0] := by simp [Starts, partitionsCycle]
example : Visited partitionsCycle [0] 2 :=
  .next (q := 0) (.start (by simp)) (Or.inr ⟨0, 1, 0, by decide, rfl, by decide⟩)

example : Under partitionsCycle 2 1 4 := ⟨3, 1, by decide, rfl, by decide⟩

/-- `first` and `third` are in different partitions afterwards. -/
example : (split isort 8 partitionsCycle [0]).map (fun g => (g.nodes.length, g.fieldsOf 3, g.fieldsOf 5, g.fieldsOf 8)) =
    some (9, [7], [6], [4]) := by decide +kernel

example : ∃ rank : Nat → Nat, ∀ q f, Below partitionsCycle q f → rank f < rank q := by
  refine ⟨fun i => if i = 0 then 2 else if i = 2 then 1 else 0, ?_⟩
  rintro q f (⟨h1, h2⟩ | ⟨r, p, a, h1, h2, h3⟩)
  · simp only [partitionsCycle, List.mem_cons, Edge.mk.injEq, reduceCtorEq, and_false, and_true, false_or,
      List.not_mem_nil, or_false] at h1
    rcases h1 with ⟨rfl, rfl⟩ | ⟨rfl, rfl⟩ | ⟨rfl, rfl⟩ | ⟨rfl, rfl⟩
    · exact absurd rfl (h2 1 2)
    · exact absurd rfl (h2 1 1)
    · exact absurd rfl (h2 1 1)
    · exact absurd rfl (h2 0 0)
  · simp only [partitionsCycle, List.mem_cons, Edge.mk.injEq, reduceCtorEq, and_false, and_true, false_or,
      List.not_mem_nil, or_false] at h1 h3
    rcases h1 with ⟨rfl, rfl⟩ | ⟨rfl, rfl⟩ | ⟨rfl, rfl⟩ <;> rcases h3 with ⟨h3, rfl⟩ | ⟨h3, rfl⟩ | ⟨h3, rfl⟩ | ⟨h3, rfl⟩ <;>
      first | (exact absurd h3 (by decide)) | decide

/-! ## Cycles that remain -/

/-- Fields never require themselves, directly or not. -/
def FieldsAcyclic (g : Graph) : Prop := ∃ rank : Nat → Nat, ∀ e ∈ g.edges, e.kind = .requiredBySubgraph → rank e.dst < rank e.src

/-- One subgraph serves `a b c d`, `b` requires `a` and `c` requires `d`. -/
def greedy : Graph :=
  ⟨[.root, .partition 0 0, .field (some 0), .partition 1 1, .field (some 1), .field (some 2), .field (some 3), .field (some 4)],
   [⟨5, 4, .requiredBySubgraph⟩, ⟨6, 7, .requiredBySubgraph⟩, ⟨3, 7, .field⟩, ⟨3, 6, .field⟩, ⟨3, 5, .field⟩,
    ⟨3, 4, .field⟩, ⟨2, 3, .queryPartition⟩, ⟨1, 2, .field⟩, ⟨0, 1, .queryPartition⟩]⟩

/-- The split itself makes a cycle: `a` and `c` end up in one partition, `b` and `d` in the other, though
`{a d}` before `{b c}` was possible. -/
theorem C61_split_cycle : ∃ g', WF greedy ∧ FieldsAcyclic greedy ∧ split isort 8 greedy [0] = some g' ∧
    DependsOn g' 3 8 ∧ DependsOn g' 8 3 := by
  refine ⟨⟨greedy.nodes ++ [.partition 1 1],
    [⟨8, 7, .field⟩, ⟨3, 6, .field⟩, ⟨8, 5, .field⟩, ⟨2, 8, .queryPartition⟩, ⟨3, 4, .field⟩, ⟨1, 2, .field⟩,
      ⟨5, 4, .requiredBySubgraph⟩, ⟨6, 7, .requiredBySubgraph⟩, ⟨2, 3, .queryPartition⟩, ⟨0, 1, .queryPartition⟩]⟩,
    wf_of_check (by decide), ⟨fun i => if i = 5 ∨ i = 6 then 1 else 0, by decide⟩, by decide +kernel, ?_, ?_⟩
  · exact ⟨by decide, 6, 7, .field (.self 3) (by decide), .field (.self 8) (by decide), by decide⟩
  · exact ⟨by decide, 5, 4, .field (.self 8) (by decide), .field (.self 3) (by decide), by decide⟩

/-- Subgraph 1 serves `a` and `b`, subgraph 2 serves `c` and `d`; `c` requires `a` and `b` requires `d`. -/
def crossed : Graph :=
  ⟨[.root, .partition 0 0, .field (some 0), .partition 1 1, .partition 1 2, .field (some 1), .field (some 2),
    .field (some 3), .field (some 4)],
   [⟨7, 5, .requiredBySubgraph⟩, ⟨6, 8, .requiredBySubgraph⟩, ⟨4, 8, .field⟩, ⟨4, 7, .field⟩, ⟨3, 6, .field⟩,
    ⟨3, 5, .field⟩, ⟨2, 4, .queryPartition⟩, ⟨2, 3, .queryPartition⟩, ⟨1, 2, .field⟩, ⟨0, 1, .queryPartition⟩]⟩

theorem C61_two_resolvers_cycle : ∃ g', WF crossed ∧ FieldsAcyclic crossed ∧ split isort 8 crossed [0] = some g' ∧
    g'.nodes = crossed.nodes ∧ DependsOn g' 3 4 ∧ DependsOn g' 4 3 := by
  refine ⟨⟨crossed.nodes, [⟨4, 8, .field⟩, ⟨4, 7, .field⟩, ⟨3, 6, .field⟩, ⟨3, 5, .field⟩, ⟨1, 2, .field⟩,
      ⟨7, 5, .requiredBySubgraph⟩, ⟨6, 8, .requiredBySubgraph⟩, ⟨2, 4, .queryPartition⟩, ⟨2, 3, .queryPartition⟩,
      ⟨0, 1, .queryPartition⟩]⟩,
    wf_of_check (by decide), ⟨fun i => if i = 7 ∨ i = 6 then 1 else 0, by decide⟩, by decide +kernel, rfl, ?_, ?_⟩
  · exact ⟨by decide, 6, 8, .field (.self 3) (by decide), .field (.self 4) (by decide), by decide⟩
  · exact ⟨by decide, 7, 5, .field (.self 4) (by decide), .field (.self 3) (by decide), by decide⟩

/-- Subgraph 1 serves `a` with the key `sku`; subgraph 2 serves `sku` and `c`, which requires `a`. -/
def keyed : Graph :=
  ⟨[.root, .partition 0 0, .field (some 0), .partition 1 1, .partition 1 2, .field (some 1), .field (some 2), .field (some 3)],
   [⟨3, 7, .requiredBySubgraph⟩, ⟨6, 5, .requiredBySubgraph⟩, ⟨4, 7, .field⟩, ⟨4, 6, .field⟩, ⟨3, 5, .field⟩,
    ⟨2, 4, .queryPartition⟩, ⟨2, 3, .queryPartition⟩, ⟨1, 2, .field⟩, ⟨0, 1, .queryPartition⟩]⟩

/-- What partitions require is not followed: fetching `sku`, then `a`, then `c` was possible. -/
theorem C61_key_cycle : ∃ g', WF keyed ∧ FieldsAcyclic keyed ∧ split isort 8 keyed [0] = some g' ∧
    g'.nodes = keyed.nodes ∧ DependsOn g' 3 4 ∧ DependsOn g' 4 3 := by
  refine ⟨⟨keyed.nodes, [⟨4, 7, .field⟩, ⟨4, 6, .field⟩, ⟨3, 5, .field⟩, ⟨1, 2, .field⟩,
      ⟨3, 7, .requiredBySubgraph⟩, ⟨6, 5, .requiredBySubgraph⟩, ⟨2, 4, .queryPartition⟩, ⟨2, 3, .queryPartition⟩,
      ⟨0, 1, .queryPartition⟩]⟩,
    wf_of_check (by decide), ⟨fun i => if i = 6 then 2 else if i = 5 then 1 else if i = 3 then 1 else 0, by decide⟩, by decide +kernel, rfl, ?_, ?_⟩
  · exact ⟨by decide, 3, 7, .self 3, .field (.self 4) (by decide), by decide⟩
  · exact ⟨by decide, 6, 5, .field (.self 4) (by decide), .field (.self 3) (by decide), by decide⟩

/-- `find_edge` takes the newest edge of any kind: if a partition requires a field it provides itself the
requirement is removed instead, and the field ends up in two partitions. -/
theorem C61_parallel_edge :
    ∃ g g', split isort 8 g [0] = some g' ∧ ⟨1, 2, .requiredBySubgraph⟩ ∈ g.edges ∧
      (∀ p, ⟨p, 2, .requiredBySubgraph⟩ ∉ g'.edges) ∧ ⟨1, 2, .field⟩ ∈ g'.edges ∧ ⟨3, 2, .field⟩ ∈ g'.edges := by
  refine ⟨⟨[.root, .partition 0 0, .field (some 0)],
    [⟨1, 2, .requiredBySubgraph⟩, ⟨1, 2, .field⟩, ⟨0, 1, .queryPartition⟩]⟩,
    ⟨[.root, .partition 0 0, .field (some 0), .partition 0 0],
      [⟨3, 2, .field⟩, ⟨0, 3, .queryPartition⟩, ⟨1, 2, .field⟩, ⟨0, 1, .queryPartition⟩]⟩,
    by decide +kernel, by decide, ?_, by decide, by decide⟩
  intro p
  simp

/-! ## What happens to such a plan -/

open Verif.Schedule in
/-- Two partitions below partition `0` that require each other (C12): the execution ends without having
started either, and without an error. -/
theorem C61_never_started : ∃ q o is s, build q = .ok o ∧ Executes o is s ∧ s.phase = .finished ∧
    (q.Needs 1 2 ∧ q.Needs 2 1) ∧ NoFailure s.log ∧ NoSkip s.log ∧
    q.HasTask (.plan 1) ∧ q.HasTask (.plan 2) ∧ .plan 1 ∉ o.starts s.log ∧ .plan 2 ∉ o.starts s.log := by
  let q : Query :=
    { parts := [⟨[], [], none⟩, ⟨[.mk 0 [], .mk 2 []], [], some 0⟩, ⟨[.mk 0 [], .mk 1 []], [], some 0⟩]
      modifiers := []
      requiredBySupergraph := fun _ => []
      mutationOrder := [] }
  refine ⟨q, _, [.complete 0, .ingest true, .ingested, .stop], _, rfl,
    .operation (hasInput := fun _ => true) rfl, rfl, ⟨?_, ?_⟩, ?_, ?_, ?_, ?_, ?_, ?_⟩
  · exact .partition rfl (.here (sub := []) (by simp))
  · exact .partition rfl (.here (sub := []) (by simp))
  · intro p h
    have h : Ev.failed p ∈ [Ev.started (.plan 0), .completed (.plan 0)] := h
    simp at h
  · intro p h
    have h : Ev.skipped p ∈ [Ev.started (.plan 0), .completed (.plan 0)] := h
    simp at h
  · exact .plan (by decide)
  · exact .plan (by decide)
  · show Task.plan 1 ∉ [Task.plan 0]
    decide
  · show Task.plan 2 ∉ [Task.plan 0]
    decide

end Verif.Cycles
