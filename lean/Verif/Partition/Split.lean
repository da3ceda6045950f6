import Verif.Partition.Lemmas
/-! Lemmas on splitting into partitions. -/
namespace Verif.Partition

/-- All the ids of some partitions. -/
abbrev ids (ps : List Part) : List Nat := ps.flatMap (·.1)

def WF (ps : List Part) : Prop := ∀ p ∈ ps, Inc p.1 ∧ p.1 ≠ []

theorem filter_perm (l : List Nat) (q : Nat → Bool) : (l.filter (fun x => !q x) ++ l.filter q).Perm l := by
  have := List.filter_append_perm q l
  exact (List.perm_append_comm).trans this

theorem against_spec {fields sup : List Nat} (ps : List Part) {np : List Nat} (hw : WF ps)
    (hn : (ids ps).Nodup) (hs : ∀ p ∈ ps, ∀ x ∈ sup, x ∈ p.2) (hi : Inc np) :
    ∃ ps' pushed np', against fields sup ps np = some (ps', pushed, np') ∧
      WF ps' ∧ WF pushed ∧ (ids (ps' ++ pushed)).Perm (ids ps) ∧ Inc np' ∧
      (∀ t, t ∈ np' ↔ t ∈ np ∧ t ∉ ids ps) ∧
      ∀ q ∈ ps' ++ pushed, ∀ t ∈ q.1, ∃ p ∈ ps, t ∈ p.1 ∧
        ∀ x, x ∈ q.2 ↔ x ∈ p.2 ∨ (t ∈ np ∧ x ∈ fields) := by
  induction ps generalizing np with
  | nil => exact ⟨[], [], np, rfl, by simp [WF], by simp [WF], by simp, hi, by simp, by simp⟩
  | cons p t ih =>
    unfold against
    by_cases hnp : np = []
    · subst hnp
      refine ⟨p :: t, [], [], by simp, hw, by simp [WF], by simp, by simp, by simp, ?_⟩
      intro q hq u hu
      refine ⟨q, by simpa using hq, hu, by simp⟩
    · have hemp : np.isEmpty = false := by simpa using hnp
      obtain ⟨wp, wt⟩ : (Inc p.1 ∧ p.1 ≠ []) ∧ WF t := by
        refine ⟨hw p (by simp), fun q hq => hw q (by simp [hq])⟩
      have hnd : p.1.Nodup ∧ (ids t).Nodup ∧ ∀ x ∈ p.1, x ∉ ids t := by
        simp only [ids, List.flatMap_cons, List.nodup_append] at hn
        refine ⟨hn.1, hn.2.1, fun x hx hx' => hn.2.2 x hx x hx' rfl⟩
      rw [extract_spec wp.1 hi wp.2 hnp]
      simp only [hemp, Bool.false_eq_true, if_false, Option.bind_some]
      obtain ⟨ps', pushed, np', h1, h2, h3, h4, h5, h6, h7⟩ := ih (np := np.filter (fun x => decide (x ∉ p.1)))
        wt hnd.2.1 (fun q hq => hs q (by simp [hq])) (hi.sublist List.filter_sublist)
      rw [h1]
      have hnp' : ∀ u, u ∈ np' ↔ u ∈ np ∧ u ∉ ids (p :: t) := by
        intro u
        rw [h6]
        simp only [List.mem_filter, decide_eq_true_eq, ids, List.flatMap_cons, List.mem_append, not_or, and_assoc]
      -- partitions that come from `t`
      have hold : ∀ q ∈ ps' ++ pushed, ∀ u ∈ q.1, ∃ p' ∈ p :: t, u ∈ p'.1 ∧
          ∀ x, x ∈ q.2 ↔ x ∈ p'.2 ∨ (u ∈ np ∧ x ∈ fields) := by
        intro q hq u hu
        obtain ⟨p', g1, g2, g3⟩ := h7 q hq u hu
        refine ⟨p', by simp [g1], g2, ?_⟩
        intro x
        rw [g3]
        have hup : u ∉ p.1 := fun h => hnd.2.2 u h (List.mem_flatMap.2 ⟨p', g1, g2⟩)
        simp [hup]
      have hperm : (p.1.filter (fun x => decide (x ∉ np)) ++ p.1.filter (fun x => decide (x ∈ np))).Perm p.1 := by
        have := filter_perm p.1 (fun x => decide (x ∈ np))
        simpa using this
      split
      · rename_i hrest
        have hall : p.1.filter (fun x => decide (x ∈ np)) = p.1 := by
          rw [List.filter_eq_self]
          intro x hx
          have : x ∉ p.1.filter (fun x => decide (x ∉ np)) := by
            rw [List.isEmpty_iff.1 hrest]; simp
          simp only [List.mem_filter, hx, true_and, decide_eq_true_eq, Classical.not_not] at this
          simpa using this
        refine ⟨(p.1.filter (fun x => decide (x ∈ np)), p.2 ++ fields) :: ps', pushed, np', rfl, ?_, h3, ?_, h5, hnp', ?_⟩
        · intro q hq
          rcases List.mem_cons.1 hq with rfl | hq
          · simp only [hall]; exact wp
          · exact h2 q hq
        · simp only [ids, List.cons_append, List.flatMap_cons, hall]
          exact h4.append_left _
        · intro q hq u hu
          rcases List.mem_cons.1 hq with rfl | hq
          · simp only [hall] at hu
            have hun : u ∈ np := by
              rw [← hall] at hu
              simpa using (List.mem_filter.1 hu).2
            exact ⟨p, by simp, hu, by simp [hun]⟩
          · exact hold q hq u hu
      · rename_i hrest
        have hrest' : p.1.filter (fun x => decide (x ∉ np)) ≠ [] := by simpa using hrest
        have wfr : Inc (p.1.filter (fun x => decide (x ∉ np))) := wp.1.sublist List.filter_sublist
        have hkeep : ∀ u ∈ p.1.filter (fun x => decide (x ∉ np)), ∃ p' ∈ p :: t, u ∈ p'.1 ∧
            ∀ x, x ∈ p.2 ↔ x ∈ p'.2 ∨ (u ∈ np ∧ x ∈ fields) := by
          intro u hu
          simp only [List.mem_filter, decide_eq_true_eq] at hu
          exact ⟨p, by simp, hu.1, by simp [hu.2]⟩
        split
        · rename_i hint
          have hint' : p.1.filter (fun x => decide (x ∈ np)) ≠ [] := by simpa using hint
          refine ⟨(_, p.2) :: ps', (_, fields ++ p.2 ++ sup) :: pushed, np', rfl, ?_, ?_, ?_, h5, hnp', ?_⟩
          · intro q hq
            rcases List.mem_cons.1 hq with rfl | hq
            · exact ⟨wfr, hrest'⟩
            · exact h2 q hq
          · intro q hq
            rcases List.mem_cons.1 hq with rfl | hq
            · exact ⟨wp.1.sublist List.filter_sublist, hint'⟩
            · exact h3 q hq
          · simp only [ids, List.cons_append, List.flatMap_cons, List.flatMap_append] at h4 ⊢
            refine List.Perm.trans ?_ ((hperm.append h4))
            simp only [List.append_assoc]
            refine List.Perm.append_left _ ?_
            rw [← List.append_assoc, ← List.append_assoc]
            exact List.perm_append_comm.append_right _
          · intro q hq u hu
            simp only [List.cons_append, List.mem_cons, List.mem_append] at hq
            rcases hq with rfl | hq | rfl | hq
            · exact hkeep u hu
            · exact hold q (by simp [hq]) u hu
            · simp only [List.mem_filter, decide_eq_true_eq] at hu
              refine ⟨p, by simp, hu.1, ?_⟩
              intro x
              simp only [List.mem_append, hu.2, true_and]
              have := hs p (by simp) x
              constructor
              · rintro ((h | h) | h)
                · exact Or.inr h
                · exact Or.inl h
                · exact Or.inl (this h)
              · rintro (h | h)
                · exact Or.inl (Or.inr h)
                · exact Or.inl (Or.inl h)
            · exact hold q (by simp [hq]) u hu
        · rename_i hint
          have hint' : p.1.filter (fun x => decide (x ∈ np)) = [] := by simpa using hint
          rw [hint', List.append_nil] at hperm
          refine ⟨(_, p.2) :: ps', pushed, np', rfl, ?_, h3, ?_, h5, hnp', ?_⟩
          · intro q hq
            rcases List.mem_cons.1 hq with rfl | hq
            · exact ⟨wfr, hrest'⟩
            · exact h2 q hq
          · simp only [ids, List.cons_append, List.flatMap_cons] at h4 ⊢
            exact hperm.append h4
          · intro q hq u hu
            simp only [List.cons_append, List.mem_cons] at hq
            rcases hq with rfl | hq
            · exact hkeep u hu
            · exact hold q hq u hu

/-- The partitions after the conditions `done`. -/
structure Good (output sup : List Nat) (done : List Part) (ps : List Part) : Prop where
  wf : WF ps
  nodup : (ids ps).Nodup
  cover : ∀ t, t ∈ ids ps ↔ t ∈ output ∧ ∃ c ∈ done, t ∈ c.1
  fields : ∀ p ∈ ps, ∀ t ∈ p.1, ∀ x, x ∈ p.2 ↔ x ∈ sup ∨ ∃ c ∈ done, t ∈ c.1 ∧ x ∈ c.2

theorem addCond_good {output sup : List Nat} (ho : Inc output) {done ps : List Part} {c : Part}
    (hc : Inc c.1) (h : Good output sup done ps) :
    ∃ ps', addCond output sup ps c = some ps' ∧ Good output sup (done ++ [c]) ps' := by
  have hs : ∀ p ∈ ps, ∀ x ∈ sup, x ∈ p.2 := by
    intro p hp x hx
    obtain ⟨t, ht⟩ := List.exists_mem_of_ne_nil _ (h.wf p hp).2
    exact (h.fields p hp t ht x).2 (Or.inl hx)
  obtain ⟨ps', pushed, np', h1, h2, h3, h4, h5, h6, h7⟩ :=
    against_spec (fields := c.2) (sup := sup) ps h.wf h.nodup hs (inc_interLoop hc ho)
  have hmi : ∀ t, t ∈ interLoop c.1 output ↔ t ∈ c.1 ∧ t ∈ output := fun t => mem_interLoop hc ho
  refine ⟨ps' ++ pushed ++ (if np'.isEmpty then [] else [(np', c.2 ++ sup)]),
    by simp only [addCond, h1, Option.map_some], ?_⟩
  have hlast : ∀ q ∈ (if np'.isEmpty then [] else [(np', c.2 ++ sup)] : List Part),
      q = (np', c.2 ++ sup) ∧ np' ≠ [] := by
    intro q hq
    split at hq
    · cases hq
    · rename_i hne; exact ⟨by simpa using hq, by simpa using hne⟩
  have hlastids : ids (if np'.isEmpty then [] else [(np', c.2 ++ sup)]) = np' := by
    split
    · rename_i hne; simp [ids, List.isEmpty_iff.1 hne]
    · simp [ids]
  have hids : ids (ps' ++ pushed ++ (if np'.isEmpty then [] else [(np', c.2 ++ sup)])) =
      ids (ps' ++ pushed) ++ np' := by
    simp only [ids, List.flatMap_append] at hlastids ⊢
    rw [hlastids]
  constructor
  · intro q hq
    rcases List.mem_append.1 hq with hq | hq
    · rcases List.mem_append.1 hq with hq | hq
      · exact h2 q hq
      · exact h3 q hq
    · obtain ⟨rfl, hne⟩ := hlast q hq
      exact ⟨h5, hne⟩
  · rw [hids, List.nodup_append]
    refine ⟨h4.nodup_iff.2 h.nodup, h5.nodup, ?_⟩
    rintro a ha b hb rfl
    exact ((h6 a).1 hb).2 (h4.mem_iff.1 ha)
  · intro t
    rw [hids, List.mem_append, h4.mem_iff, h.cover, h6, hmi, h.cover]
    simp only [List.mem_append, List.mem_singleton, or_and_right, exists_or, exists_eq_left]
    constructor
    · rintro (⟨g1, g2⟩ | ⟨⟨g1, g2⟩, g3⟩)
      · exact ⟨g1, Or.inl g2⟩
      · exact ⟨g2, Or.inr g1⟩
    · rintro ⟨g1, g2⟩
      by_cases h' : ∃ c ∈ done, t ∈ c.1
      · exact Or.inl ⟨g1, h'⟩
      · refine Or.inr ⟨⟨?_, g1⟩, fun hh => h' hh.2⟩
        rcases g2 with g2 | g2
        · exact absurd g2 h'
        · exact g2
  · intro q hq t ht x
    simp only [List.mem_append, List.mem_singleton, or_and_right, exists_or, exists_eq_left]
    rcases List.mem_append.1 hq with hq | hq
    · obtain ⟨p, g1, g2, g3⟩ := h7 q hq t ht
      rw [g3, h.fields p g1 t g2, hmi]
      have : t ∈ output := ((h.cover t).1 (List.mem_flatMap.2 ⟨p, g1, g2⟩)).1
      simp only [this, and_true, or_assoc]
    · obtain ⟨rfl, hne⟩ := hlast q hq
      have g := (h6 t).1 ht
      have g1 := (hmi t).1 g.1
      have g2 : ¬ ∃ c ∈ done, t ∈ c.1 := fun hh => g.2 ((h.cover t).2 ⟨g1.2, hh⟩)
      have g3 : ¬ ∃ c ∈ done, t ∈ c.1 ∧ x ∈ c.2 := fun ⟨c, a, b, _⟩ => g2 ⟨c, a, b⟩
      simp only [g1.1, true_and, g3, false_or, List.mem_append]
      exact Or.comm

theorem split_good {output sup : List Nat} (ho : Inc output) {done ps : List Part} (cs : List Part)
    (hc : ∀ c ∈ cs, Inc c.1) (h : Good output sup done ps) :
    ∃ ps', split output sup ps cs = some ps' ∧ Good output sup (done ++ cs) ps' := by
  induction cs generalizing done ps with
  | nil => exact ⟨ps, rfl, by simpa using h⟩
  | cons c t ih =>
    obtain ⟨p1, h1, h2⟩ := addCond_good ho (hc c (by simp)) h
    obtain ⟨p2, h3, h4⟩ := ih (fun c hc' => hc c (by simp [hc'])) h2
    exact ⟨p2, by simp [split, h1, h3], by simpa using h4⟩

/-! ## Singletons -/

theorem chunks_spec {sup : List Nat} (l : List Part) (hone : ∀ c ∈ l, ∃ t, c.1 = [t])
    (hs : l.Pairwise fun a b => a.1.headD 0 ≤ b.1.headD 0) :
    ((chunks sup l).map (·.1)).Pairwise (· < ·) ∧
    (∀ t, t ∈ (chunks sup l).map (·.1) ↔ ∃ c ∈ l, c.1 = [t]) ∧
    ∀ q ∈ chunks sup l, ∀ x, x ∈ q.2 ↔ x ∈ sup ∨ ∃ c ∈ l, c.1 = [q.1] ∧ x ∈ c.2 := by
  induction l with
  | nil => simp [chunks]
  | cons c t ih =>
    rw [List.pairwise_cons] at hs
    obtain ⟨h1, h2, h3⟩ := ih (fun c hc => hone c (by simp [hc])) hs.2
    obtain ⟨u, hu⟩ := hone c (by simp)
    have hge : ∀ v ∈ (chunks sup t).map (·.1), u ≤ v := by
      intro v hv
      obtain ⟨c', hc', he⟩ := (h2 v).1 hv
      have := hs.1 c' hc'
      simpa [hu, he] using this
    unfold chunks
    cases hch : chunks sup t with
    | nil =>
      have hno : ∀ c' ∈ t, False := by
        intro c' hc'
        obtain ⟨v, hv⟩ := hone c' (by simp [hc'])
        have := (h2 v).2 ⟨c', hc', hv⟩
        rw [hch] at this
        cases this
      have : t = [] := by
        cases t with
        | nil => rfl
        | cons a _ => exact (hno a (by simp)).elim
      subst this
      simp [hu, eq_comm]
    | cons q r =>
      obtain ⟨id, fields⟩ := q
      rw [hch] at h1 h2 h3 hge
      simp only [hu, List.head?_cons, Option.some.injEq, List.headD_cons]
      split
      · rename_i he
        subst he
        refine ⟨by simpa using h1, ?_, ?_⟩
        · intro v
          have := h2 v
          simp only [List.map_cons, List.mem_cons] at this ⊢
          rw [this]
          constructor
          · rintro ⟨c', a, b⟩; exact ⟨c', Or.inr a, b⟩
          · rintro ⟨c', rfl | a, b⟩
            · rw [hu] at b
              simp only [List.cons.injEq, and_true] at b
              subst b
              exact this.1 (Or.inl rfl)
            · exact ⟨c', a, b⟩
        · intro q hq x
          rcases List.mem_cons.1 hq with rfl | hq
          · have := h3 (u, fields) (by simp) x
            simp only [List.mem_append, this, List.mem_cons, or_and_right, exists_or, exists_eq_left, hu, true_and]
            constructor
            · rintro ((a | a) | a)
              · exact Or.inl a
              · exact Or.inr (Or.inr a)
              · exact Or.inr (Or.inl a)
            · rintro (a | a | a)
              · exact Or.inl (Or.inl a)
              · exact Or.inr a
              · exact Or.inl (Or.inr a)
          · have hlt : u < q.1 := by
              simp only [List.map_cons, List.pairwise_cons] at h1
              exact h1.1 q.1 (List.mem_map_of_mem hq)
            rw [h3 q (by simp [hq]) x]
            simp only [List.mem_cons, or_and_right, exists_or, exists_eq_left, hu, List.cons.injEq, and_true]
            have : u ≠ q.1 := by omega
            simp [this]
      · rename_i hne
        have hlt : ∀ v ∈ ((id, fields) :: r).map (·.1), u < v := by
          intro v hv
          simp only [List.map_cons, List.pairwise_cons] at h1
          simp only [List.map_cons, List.mem_cons] at hv
          have hu2 : u < id := by
            have := hge id (by simp)
            omega
          rcases hv with rfl | hv
          · exact hu2
          · have := h1.1 v hv; omega
        refine ⟨?_, ?_, ?_⟩
        · rw [List.map_cons, List.pairwise_cons]
          exact ⟨hlt, h1⟩
        · intro v
          rw [List.map_cons, List.mem_cons, h2 v]
          simp only [List.mem_cons, or_and_right, exists_or, exists_eq_left, hu, List.cons.injEq, and_true]
          rw [eq_comm]
        · intro q hq x
          rcases List.mem_cons.1 hq with rfl | hq
          · have hno : ¬ ∃ c' ∈ t, c'.1 = [u] ∧ x ∈ c'.2 := by
              rintro ⟨c', a, b, -⟩
              have := hlt u ((h2 u).2 ⟨c', a, b⟩)
              omega
            simp only [List.mem_append, List.mem_cons, or_and_right, exists_or, exists_eq_left, hu, true_and, hno, or_false]
          · have : u < q.1 := hlt q.1 (List.mem_map_of_mem hq)
            rw [h3 q hq x]
            simp only [List.mem_cons, or_and_right, exists_or, exists_eq_left, hu, List.cons.injEq, and_true]
            have : u ≠ q.1 := by omega
            simp [this]

end Verif.Partition
