import Verif.QueryGraph.Spec
import Mathlib.Data.List.Nodup
/-!
# Lemmas about the `__typename` fields of the root
-/
namespace Verif.QueryGraph

theorem minBy_some {f : Nat → Nat} {l : List Nat} {x : Nat} (h : minBy f l = some x) : x ∈ l ∧ ∀ y ∈ l, f x ≤ f y := by
  induction l generalizing x with
  | nil => cases h
  | cons a l ih =>
    rw [minBy] at h
    split at h
    · rename_i hm
      simp only [Option.some.injEq] at h
      subst h
      cases l with
      | nil => simp
      | cons b l =>
        rw [minBy] at hm
        split at hm
        · cases hm
        · split at hm <;> cases hm
    · rename_i y hm
      obtain ⟨h1, h2⟩ := ih hm
      split at h
      · rename_i hle
        simp only [Option.some.injEq] at h
        subst h
        refine ⟨by simp, fun z hz => ?_⟩
        rcases List.mem_cons.1 hz with rfl | hz
        · exact Nat.le_refl _
        · exact Nat.le_trans hle (h2 z hz)
      · rename_i hle
        simp only [Option.some.injEq] at h
        subst h
        refine ⟨by simp [h1], fun z hz => ?_⟩
        rcases List.mem_cons.1 hz with rfl | hz
        · omega
        · exact h2 z hz

theorem minBy_none {f : Nat → Nat} {l : List Nat} (h : minBy f l = none) : l = [] := by
  cases l with
  | nil => rfl
  | cons b l =>
    rw [minBy] at h
    split at h
    · cases h
    · split at h <;> cases h

/-- The edges are moved one after the other. -/
theorem moved {root p : Nat} {ts : List Nat} {E : List QEdge} (hp : p ≠ root) (hts : ts.Nodup)
    (hE : ∀ t ∈ ts, ∃ e, E.filter (fun (x : QEdge) => decide (x.src = root ∧ x.dst = t)) = [e]) :
    ∀ e, e ∈ ts.foldl (fun es t => removeEdge es root t ++ [⟨p, t, .field⟩]) E ↔
      (e ∈ E ∧ ¬ (e.src = root ∧ e.dst ∈ ts)) ∨ ∃ t ∈ ts, e = ⟨p, t, .field⟩ := by
  induction ts generalizing E with
  | nil => simp
  | cons t ts ih =>
    have hf : ∀ t', (removeEdge E root t ++ [(⟨p, t, .field⟩ : QEdge)]).filter (fun (x : QEdge) => decide (x.src = root ∧ x.dst = t')) =
        if t' = t then (E.filter (fun (x : QEdge) => decide (x.src = root ∧ x.dst = t'))).tail else E.filter (fun (x : QEdge) => decide (x.src = root ∧ x.dst = t')) := by
      intro t'
      rw [List.filter_append]
      have h0 : [(⟨p, t, .field⟩ : QEdge)].filter (fun (x : QEdge) => decide (x.src = root ∧ x.dst = t')) = [] := by simp [hp]
      rw [h0, List.append_nil]
      unfold removeEdge
      clear hE h0 ih
      induction E with
      | nil => split <;> rfl
      | cons a E ih =>
        rw [List.eraseP_cons]
        by_cases ha : a.src = root ∧ a.dst = t
        · rw [decide_eq_true ha, cond_true]
          by_cases ht : t' = t
          · subst ht
            rw [if_pos rfl, List.filter_cons, if_pos (by simpa using ha)]
            rfl
          · rw [if_neg ht, List.filter_cons, if_neg]
            simp only [decide_eq_true_eq, not_and]
            intro _ hc
            exact ht (hc.symm.trans ha.2)
        · rw [decide_eq_false ha, cond_false, List.filter_cons, List.filter_cons, ih]
          by_cases ht : t' = t
          · subst ht
            rw [if_pos rfl, if_pos rfl, if_neg (by simpa using ha), if_neg (by simpa using ha)]
          · rw [if_neg ht, if_neg ht]
    rw [List.nodup_cons] at hts
    intro e
    rw [List.foldl_cons, ih hts.2 fun t' ht' => by
      rw [hf, if_neg (fun hc => hts.1 (by rw [← hc]; exact ht'))]
      exact hE t' (by simp [ht'])]
    obtain ⟨x, hx⟩ := hE t (by simp)
    have hxs : x ∈ E ∧ x.src = root ∧ x.dst = t := by
      have : x ∈ E.filter (fun (x : QEdge) => decide (x.src = root ∧ x.dst = t)) := by rw [hx]; simp
      simpa using List.mem_filter.1 this
    -- what is left after the removal
    have hm : e ∈ removeEdge E root t ↔ e ∈ E ∧ ¬ (e.src = root ∧ e.dst = t) := by
      constructor
      · intro he
        refine ⟨List.mem_of_mem_eraseP he, fun hc => ?_⟩
        have h1 : e ∈ (removeEdge E root t ++ [(⟨p, t, .field⟩ : QEdge)]).filter (fun (x : QEdge) => decide (x.src = root ∧ x.dst = t)) :=
          List.mem_filter.2 ⟨List.mem_append_left _ he, by simpa using hc⟩
        rw [hf, if_pos rfl, hx] at h1
        simp at h1
      · rintro ⟨he, hn⟩
        exact (List.mem_eraseP_of_neg (by simpa using hn)).2 he
    rw [List.mem_append, hm, List.mem_singleton]
    constructor
    · rintro (⟨⟨h1, h2⟩ | rfl, h3⟩ | ⟨t', h1, rfl⟩)
      · refine .inl ⟨h1, fun hc => ?_⟩
        rcases List.mem_cons.1 hc.2 with h | h
        · exact h2 ⟨hc.1, h⟩
        · exact h3 ⟨hc.1, h⟩
      · exact .inr ⟨t, by simp, rfl⟩
      · exact .inr ⟨t', by simp [h1], rfl⟩
    · rintro (⟨h1, h2⟩ | ⟨t', h1, rfl⟩)
      · exact .inl ⟨.inl ⟨h1, fun hc => h2 ⟨hc.1, by simp [hc.2]⟩⟩, fun hc => h2 ⟨hc.1, by simp [hc.2]⟩⟩
      · rcases List.mem_cons.1 h1 with rfl | h1
        · exact .inl ⟨.inr rfl, fun hc => hp hc.1⟩
        · exact .inr ⟨t', h1, rfl⟩

theorem foldl_min {l : List Nat} {a : Nat} : (∀ x ∈ l, l.foldl min a ≤ x) ∧ l.foldl min a ≤ a ∧ (l.foldl min a < a → l.foldl min a ∈ l) := by
  induction l generalizing a with
  | nil => simp
  | cons b l ih =>
    rw [List.foldl_cons]
    obtain ⟨h1, h2, h3⟩ := ih (a := min a b)
    refine ⟨fun x hx => ?_, by omega, fun h => ?_⟩
    · rcases List.mem_cons.1 hx with rfl | hx
      · omega
      · exact h1 x hx
    · by_cases hb : l.foldl min (min a b) < min a b
      · exact List.mem_cons_of_mem _ (h3 hb)
      · have : l.foldl min (min a b) = b := by omega
        rw [this]; simp

theorem label_field {g : QGraph} {i id split : Nat} {b : Bool} : g.label i = .field id split b ↔ ∃ n, g.nodes[i]? = some (.field id split b, n) := by
  unfold QGraph.label
  cases h : g.nodes[i]? with
  | none => simp
  | some x =>
    obtain ⟨q, n⟩ := x
    simp

theorem label_partition {g : QGraph} {i : Nat} : isPartition (g.label i) = true ↔ g.IsPartition i := by
  unfold QGraph.label QGraph.IsPartition
  cases h : g.nodes[i]? with
  | none => simp [isPartition]
  | some x =>
    obtain ⟨q, n⟩ := x
    cases q <;> simp [isPartition]

theorem mem_positions {g : QGraph} {pos : Positions} {i x : Nat} :
    x ∈ ((g.targets i).filterMap fun j =>
      match g.label j with
      | .field id _ _ => pos id
      | _ => none) ↔ g.HasField pos i x := by
  simp only [List.mem_filterMap, QGraph.targets, List.mem_map, List.mem_filter, decide_eq_true_eq, QGraph.HasField]
  constructor
  · rintro ⟨j, ⟨e, ⟨h1, h2⟩, rfl⟩, h3⟩
    split at h3
    · rename_i id s b hl
      obtain ⟨n, hn⟩ := label_field.1 hl
      exact ⟨e, h1, h2, id, s, b, n, hn, h3⟩
    · cases h3
  · rintro ⟨e, h1, h2, id, s, b, n, h3, h4⟩
    refine ⟨e.dst, ⟨e, ⟨h1, h2⟩, rfl⟩, ?_⟩
    rw [label_field.2 ⟨n, h3⟩]
    exact h4

theorem mem_rootPartitions {g : QGraph} {root p : Nat} : p ∈ rootPartitions g root ↔ g.IsPartition p ∧ ∃ e ∈ g.edges, e.src = root ∧ e.dst = p := by
  simp only [rootPartitions, List.mem_filter, label_partition, QGraph.targets, List.mem_map, decide_eq_true_eq]
  constructor
  · rintro ⟨⟨e, ⟨h1, h2⟩, h3⟩, h4⟩
    exact ⟨h4, e, h1, h2, h3⟩
  · rintro ⟨h4, e, h1, h2, h3⟩
    exact ⟨⟨e, ⟨h1, h2⟩, h3⟩, h4⟩

theorem rootTypename_iff {g : QGraph} {root : Nat} {e : QEdge} : rootTypename g root e = true ↔ e.src = root ∧ e.kind = .field ∧ g.IsTypename e.dst := by
  unfold rootTypename QGraph.IsTypename
  rw [Bool.and_eq_true, decide_eq_true_eq, and_assoc]
  refine and_congr_right fun _ => and_congr_right fun _ => ?_
  constructor
  · intro h
    split at h
    · rename_i id s tn hl
      subst h
      obtain ⟨n, hn⟩ := label_field.1 hl
      exact ⟨id, s, n, hn⟩
    · cases h
  · rintro ⟨id, s, n, h⟩
    rw [label_field.2 ⟨n, h⟩]

/-- What is needed of the graph: edges of the root are the only ones to their targets from it, they lead to nodes other than
the root, to partitions by a partition edge and to `__typename` fields by a field edge. -/
structure RootOk (g : QGraph) (root : Nat) : Prop where
  lt : root < g.nodes.length
  one : ∀ e ∈ g.edges, e.src = root → g.edges.filter (fun (x : QEdge) => decide (x.src = root ∧ x.dst = e.dst)) = [e]
  target : ∀ e ∈ g.edges, e.dst < g.nodes.length
  ne : ∀ e ∈ g.edges, e.src = root → e.dst ≠ root
  partition : ∀ e ∈ g.edges, e.src = root → (e.kind = .partition ↔ g.IsPartition e.dst)
  field : ∀ e ∈ g.edges, e.src = root → g.IsTypename e.dst → e.kind = .field

theorem RootOk.moves {g : QGraph} {root p : Nat} (h : RootOk g root) (hp : p ≠ root) (e : QEdge) :
    e ∈ ((g.edges.filter (rootTypename g root)).map (·.dst)).foldl (fun es t => removeEdge es root t ++ [⟨p, t, .field⟩]) g.edges ↔
      (e ∈ g.edges ∧ ¬ (e.src = root ∧ g.IsTypename e.dst)) ∨ ∃ t, ⟨root, t, .field⟩ ∈ g.edges ∧ g.IsTypename t ∧ e = ⟨p, t, .field⟩ := by
  have hmem : ∀ t, t ∈ (g.edges.filter (rootTypename g root)).map (·.dst) ↔ ⟨root, t, .field⟩ ∈ g.edges ∧ g.IsTypename t := fun t => by
    rw [List.mem_map]
    constructor
    · rintro ⟨x, hx, rfl⟩
      obtain ⟨h1, h2⟩ := List.mem_filter.1 hx
      obtain ⟨h3, h4, h5⟩ := rootTypename_iff.1 h2
      obtain ⟨a, b, c⟩ := x
      simp only at h3 h4 h5 ⊢
      subst h3; subst h4
      exact ⟨h1, h5⟩
    · rintro ⟨h1, h2⟩
      exact ⟨_, List.mem_filter.2 ⟨h1, rootTypename_iff.2 ⟨rfl, rfl, h2⟩⟩, rfl⟩
  have hnd : ((g.edges.filter (rootTypename g root)).map (·.dst)).Nodup := by
    rw [List.nodup_iff_count]
    intro t
    by_cases ht : t ∈ (g.edges.filter (rootTypename g root)).map (·.dst)
    · have hone := h.one _ ((hmem t).1 ht).1 rfl
      rw [List.count_eq_countP, List.countP_map, List.countP_filter, List.countP_eq_length_filter]
      have hsub : (g.edges.filter fun a => ((fun x => x == t) ∘ fun x => x.dst) a && rootTypename g root a).length ≤
          (g.edges.filter (fun (x : QEdge) => decide (x.src = root ∧ x.dst = t))).length := by
        rw [← List.countP_eq_length_filter, ← List.countP_eq_length_filter]
        refine List.countP_mono_left fun x _ hx => ?_
        simp only [Function.comp_apply, Bool.and_eq_true, beq_iff_eq, rootTypename_iff] at hx
        simp [hx.1, hx.2.1]
      rw [hone] at hsub
      simpa using hsub
    · rw [List.count_eq_zero.2 ht]
      omega
  rw [moved hp hnd fun t ht => ⟨_, h.one _ ((hmem t).1 ht).1 rfl⟩]
  have h1 : ∀ x ∈ g.edges, (x.src = root ∧ x.dst ∈ (g.edges.filter (rootTypename g root)).map (·.dst)) ↔ (x.src = root ∧ g.IsTypename x.dst) := fun x hx => by
    refine and_congr_right fun hs => ?_
    rw [hmem]
    refine ⟨fun h => h.2, fun ht => ⟨?_, ht⟩⟩
    have hk := h.field x hx hs ht
    obtain ⟨a, b, c⟩ := x
    simp only at hk hs ⊢
    subst hk; subst hs
    exact hx
  constructor
  · rintro (⟨h2, h3⟩ | ⟨t, h2, h3⟩)
    · exact .inl ⟨h2, fun hc => h3 ((h1 e h2).2 hc)⟩
    · exact .inr ⟨t, ((hmem t).1 h2).1, ((hmem t).1 h2).2, h3⟩
  · rintro (⟨h2, h3⟩ | ⟨t, h2, h3, h4⟩)
    · exact .inl ⟨h2, fun hc => h3 ((h1 e h2).1 hc)⟩
    · exact .inr ⟨t, (hmem t).2 ⟨h2, h3⟩, h4⟩

theorem RootOk.assigned {g : QGraph} {root entity definition : Nat} (pos : Positions) (h : RootOk g root) :
    ∃ p, Assigned pos entity definition g (assignRootTypenames pos entity definition g root) root p := by
  have pk : ∀ {p : Nat}, ⟨root, p, .partition⟩ ∈ g.edges → p ∈ rootPartitions g root := fun hp =>
    mem_rootPartitions.2 ⟨(h.partition _ hp rfl).1 rfl, _, hp, rfl, rfl⟩
  unfold assignRootTypenames firstPartition
  cases hm : minBy (position pos g) (rootPartitions g root) with
  | some p =>
    obtain ⟨h1, h2⟩ := minBy_some hm
    obtain ⟨h3, e, h4, h5, h6⟩ := mem_rootPartitions.1 h1
    have hk : ⟨root, p, .partition⟩ ∈ g.edges := by
      have := (h.partition e h4 h5).2 (by rw [h6]; exact h3)
      obtain ⟨a, b, c⟩ := e
      simp only at h5 h6 this
      subst h5; subst h6; subst this
      exact h4
    have hpr : p ≠ root := by rw [← h6]; exact h.ne e h4 h5
    refine ⟨p, ⟨.inl ⟨rfl, h3, hk, fun p' x hp' hx hlt => ?_⟩, fun e => ?_⟩⟩
    · have hle := h2 p' (pk hp')
      have hx' : position pos g p' ≤ x := foldl_min.1 x (mem_positions.2 hx)
      exact ⟨position pos g p, mem_positions.1 (foldl_min.2.2 (show position pos g p < 65535 by omega)), by omega⟩
    · simp only
      rw [h.moves hpr]
      constructor
      · rintro (h | h)
        · exact .inl h
        · exact .inr (.inr h)
      · rintro (h | rfl | h)
        · exact .inl h
        · refine .inl ⟨hk, fun hc => ?_⟩
          have := h.field _ hk rfl hc.2
          cases this
        · exact .inr h
  | none =>
    have hnil := minBy_none hm
    have hno : ∀ p', ⟨root, p', .partition⟩ ∉ g.edges := fun p' hp' => by
      have := pk hp'
      rw [hnil] at this
      simp at this
    have hnode : ∀ {i : Nat}, i < g.nodes.length → (g.add (.partition entity definition) 0 root .partition).nodes[i]? = g.nodes[i]? := fun hi => by
      simp only [QGraph.add]
      rw [List.getElem?_append_left hi]
    have hlast : (g.add (.partition entity definition) 0 root .partition).nodes[g.nodes.length]? = some (.partition entity definition, 0) := by
      simp only [QGraph.add]
      rw [List.getElem?_append_right (Nat.le_refl _)]
      simp
    have htn : ∀ {i : Nat}, i < g.nodes.length → ((g.add (.partition entity definition) 0 root .partition).IsTypename i ↔ g.IsTypename i) := fun hi => by
      simp only [QGraph.IsTypename, hnode hi]
    have hpn : ∀ {i : Nat}, i < g.nodes.length → ((g.add (.partition entity definition) 0 root .partition).IsPartition i ↔ g.IsPartition i) := fun hi => by
      simp only [QGraph.IsPartition, hnode hi]
    have hlen : (g.add (.partition entity definition) 0 root .partition).nodes.length = g.nodes.length + 1 := by simp [QGraph.add]
    have hmem : ∀ e, e ∈ (g.add (.partition entity definition) 0 root .partition).edges ↔ e ∈ g.edges ∨ e = ⟨root, g.nodes.length, .partition⟩ := fun e => by
      simp [QGraph.add]
    have hok : RootOk (g.add (.partition entity definition) 0 root .partition) root := by
      refine ⟨by have := h.lt; omega, fun e he hs => ?_, fun e he => ?_, fun e he hs => ?_, fun e he hs => ?_, fun e he hs hn => ?_⟩
      · simp only [QGraph.add, List.filter_append]
        rcases (hmem e).1 he with he | rfl
        · rw [h.one e he hs]
          have := h.target e he
          rw [List.filter_cons, if_neg (by simp only [decide_eq_true_eq, not_and]; omega)]
          rfl
        · have : g.edges.filter (fun (x : QEdge) => decide (x.src = root ∧ x.dst = g.nodes.length)) = [] := by
            rw [List.filter_eq_nil_iff]
            intro x hx
            have := h.target x hx
            simp only [decide_eq_true_eq, not_and]
            omega
          rw [this]
          simp
      · rw [hlen]
        rcases (hmem e).1 he with he | rfl
        · have := h.target e he; omega
        · simp
      · rcases (hmem e).1 he with he | rfl
        · exact h.ne e he hs
        · have := h.lt
          simp only; omega
      · rcases (hmem e).1 he with he | rfl
        · rw [hpn (h.target e he)]
          exact h.partition e he hs
        · exact ⟨fun _ => ⟨_, _, _, hlast⟩, fun _ => rfl⟩
      · rcases (hmem e).1 he with he | rfl
        · rw [htn (h.target e he)] at hn
          exact h.field e he hs hn
        · obtain ⟨a, b, c, hn⟩ := hn
          rw [hlast] at hn
          cases hn
    refine ⟨g.nodes.length, ⟨.inr ⟨rfl, rfl, hno⟩, fun e => ?_⟩⟩
    simp only
    rw [hok.moves (by have := h.lt; omega)]
    constructor
    · rintro (⟨h1, h2⟩ | ⟨t, h1, h2, h3⟩)
      · rcases (hmem e).1 h1 with h1 | rfl
        · rw [htn (h.target e h1)] at h2
          exact .inl ⟨h1, h2⟩
        · exact .inr (.inl rfl)
      · rcases (hmem _).1 h1 with h1 | h1
        · rw [htn (h.target _ h1)] at h2
          exact .inr (.inr ⟨t, h1, h2, h3⟩)
        · cases h1
    · rintro (⟨h1, h2⟩ | rfl | ⟨t, h1, h2, h3⟩)
      · exact .inl ⟨(hmem e).2 (.inl h1), by rw [htn (h.target e h1)]; exact h2⟩
      · refine .inl ⟨(hmem _).2 (.inr rfl), fun hc => ?_⟩
        obtain ⟨a, b, c, hn⟩ := hc.2
        simp only at hn
        rw [hlast] at hn
        cases hn
      · exact .inr ⟨t, (hmem _).2 (.inl h1), by rw [htn (h.target _ h1)]; exact h2, h3⟩

end Verif.QueryGraph
