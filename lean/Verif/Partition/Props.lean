import Verif.Partition.Split
/-!
# C37: object shapes cover each possible type exactly once
-/
namespace Verif.Partition

/-! ## Lemmas on the result -/

theorem pigeonhole {a b : List Nat} (ha : a.Nodup) (hsub : ∀ x ∈ a, x ∈ b) (hb : b.Nodup)
    (hlen : a.length = b.length) : ∀ x ∈ b, x ∈ a := by
  have hsp : a.Perm (b.filter fun x => decide (x ∈ a)) := by
    rw [List.perm_ext_iff_of_nodup ha (hb.sublist List.filter_sublist)]
    intro x
    simp only [List.mem_filter, decide_eq_true_eq]
    exact ⟨fun h => ⟨hsub x h, h⟩, fun h => h.2⟩
  intro x hx
  have h1 := hsp.length_eq
  have h2 : (b.filter fun x => decide (x ∈ a)) = b := by
    apply List.Sublist.eq_of_length List.filter_sublist
    omega
  rw [← h2] at hx
  simpa using (List.mem_filter.1 hx).2

theorem sum_length (ps : List Part) : (ps.map (·.1.length)).sum = (ids ps).length := by
  induction ps with
  | nil => rfl
  | cons p t ih => rw [List.map_cons, List.sum_cons, ih]; unfold ids; rw [List.flatMap_cons, List.length_append]

theorem find_ids {ps : List Part} {t : Nat} :
    (ps.flatMap fun q => q.1.map fun id => (id, q.2)).find? (·.1 = t) =
      (ps.find? fun q => decide (t ∈ q.1)).map fun q => (t, q.2) := by
  induction ps with
  | nil => rfl
  | cons p r ih =>
    rw [List.flatMap_cons, List.find?_append, ih, List.find?_cons]
    by_cases h : t ∈ p.1
    · have : (p.1.map fun id => (id, p.2)).find? (·.1 = t) = some (t, p.2) := by
        have hsome : ((p.1.map fun id => (id, p.2)).find? (·.1 = t)).isSome := by
          rw [List.find?_isSome]
          exact ⟨(t, p.2), List.mem_map_of_mem h, by simp⟩
        obtain ⟨q, hq⟩ := Option.isSome_iff_exists.1 hsome
        have h1 := List.find?_some hq
        have h2 := List.mem_of_find?_eq_some hq
        obtain ⟨i, -, rfl⟩ := List.mem_map.1 h2
        rw [hq]
        simp at h1
        rw [h1]
      simp [this, h]
    · have : (p.1.map fun id => (id, p.2)).find? (·.1 = t) = none := by
        rw [List.find?_eq_none]
        intro q hq
        obtain ⟨i, hi, rfl⟩ := List.mem_map.1 hq
        simp only [decide_eq_true_eq]
        rintro rfl
        exact h hi
      simp [this, h]

/-- The fields given by a partitioning to a type; `all` when there is no partition. -/
def Result.fieldsOf (r : Result) (all : List Nat) (t : Nat) : List Nat :=
  if r.parts.isEmpty ∧ r.remaining.isNone then all
  else match r.parts.find? fun q => decide (t ∈ q.1) with
    | some q => q.2
    | none => r.remaining.getD []

theorem fieldsOf_good {output : List Nat} (ho : Inc output) {sups rest parts : List Part}
    (hsup : ∀ c ∈ sups, ∀ t ∈ output, t ∈ c.1)
    (hg : Good output (sups.flatMap (·.2)) rest parts) {all : List Nat}
    (hne : parts ≠ [] ∨ (sups ≠ [] ∧ output ≠ [])) {t : Nat} (ht : t ∈ output) (x : Nat) :
    x ∈ (finish output sups parts).fieldsOf all t ↔ ∃ c ∈ sups ++ rest, t ∈ c.1 ∧ x ∈ c.2 := by
  have hsupx : x ∈ sups.flatMap (·.2) ↔ ∃ c ∈ sups, t ∈ c.1 ∧ x ∈ c.2 := by
    rw [List.mem_flatMap]
    constructor
    · rintro ⟨c, a, b⟩; exact ⟨c, a, hsup c a t ht, b⟩
    · rintro ⟨c, a, -, b⟩; exact ⟨c, a, b⟩
  have hsplit : (∃ c ∈ sups ++ rest, t ∈ c.1 ∧ x ∈ c.2) ↔
      (x ∈ sups.flatMap (·.2) ∨ ∃ c ∈ rest, t ∈ c.1 ∧ x ∈ c.2) := by
    rw [hsupx]; simp only [List.mem_append, or_and_right, exists_or]
  rw [hsplit]
  have hrem : t ∉ ids parts → (finish output sups parts).remaining =
      if sups = [] then none else some (sups.flatMap (·.2)) := by
    intro hni
    have : (parts.map (·.1.length)).sum ≠ output.length := by
      rw [sum_length]
      intro he
      exact hni (pigeonhole hg.nodup (fun y hy => ((hg.cover y).1 hy).1) ho.nodup he t ht)
    unfold finish
    cases sups with
    | nil => simp
    | cons a b => simp [this]
  unfold Result.fieldsOf
  have hcond : ¬ ((finish output sups parts).parts.isEmpty = true ∧ (finish output sups parts).remaining.isNone = true) := by
    rintro ⟨h1, h2⟩
    have hp : parts = [] := by simpa [finish] using h1
    rcases hne with h | ⟨h, h'⟩
    · exact h hp
    · have := hrem (by rw [hp]; simp [ids])
      rw [if_neg h] at this
      rw [this] at h2
      simp at h2
  rw [if_neg hcond]
  cases hf : (finish output sups parts).parts.find? fun q => decide (t ∈ q.1) with
  | some q =>
    have h1 := List.find?_some hf
    have h2 := List.mem_of_find?_eq_some hf
    exact hg.fields q h2 t (by simpa using h1) x
  | none =>
    have hni : t ∉ ids parts := by
      intro hh
      obtain ⟨q, hq, hq'⟩ := List.mem_flatMap.1 hh
      have := List.find?_eq_none.1 hf q hq
      simp [hq'] at this
    have hno : ¬ ∃ c ∈ rest, t ∈ c.1 ∧ x ∈ c.2 := by
      rintro ⟨c, a, b, -⟩
      exact hni ((hg.cover t).2 ⟨ht, c, a, b⟩)
    simp only [hno, or_false, hrem hni]
    split
    · rename_i h; simp [h]
    · simp

/-- `partition_object_shapes` on any family of sorted sets of possible types: each type of the output
gets exactly the fields of the conditions that hold it, and no two partitions share a type. -/
theorem C37_partition {sort : List Part → List Part} (hsort : ∀ l, SortOf (sort l) l)
    {output : List Nat} (ho : Inc output) (hne : output ≠ []) {conds : List Part}
    (hc : ∀ c ∈ conds, Inc c.1 ∧ ∀ t ∈ c.1, t ∈ output)
    (hone : output.length = 1 → ∀ c ∈ conds, c.1 ≠ [])
    (hsome : conds = [] ∨ ∃ c ∈ conds, c.1 ≠ []) :
    ∃ r, partitionShapes sort output conds = some r ∧ (ids r.parts).Nodup ∧
      (∀ t ∈ ids r.parts, t ∈ output) ∧
      ∀ t ∈ output, ∀ x, x ∈ r.fieldsOf (conds.flatMap (·.2)) t ↔ ∃ c ∈ conds, t ∈ c.1 ∧ x ∈ c.2 := by
  have hallof : (∀ c ∈ conds, ∀ t ∈ output, t ∈ c.1) → ∀ t ∈ output, ∀ x,
      x ∈ (⟨[], none⟩ : Result).fieldsOf (conds.flatMap (·.2)) t ↔ ∃ c ∈ conds, t ∈ c.1 ∧ x ∈ c.2 := by
    intro h t ht x
    simp only [Result.fieldsOf, List.isEmpty_nil, Option.isNone_none, and_self, if_true, List.mem_flatMap]
    constructor
    · rintro ⟨c, a, b⟩; exact ⟨c, a, h c a t ht, b⟩
    · rintro ⟨c, a, -, b⟩; exact ⟨c, a, b⟩
  unfold partitionShapes
  by_cases h1 : output.length = 1
  · rw [if_pos h1]
    refine ⟨_, rfl, by simp [ids], by simp [ids], hallof ?_⟩
    intro c hcm t ht
    obtain ⟨u, rfl⟩ := List.length_eq_one_iff.1 h1
    obtain ⟨v, hv⟩ := List.exists_mem_of_ne_nil _ (hone h1 c hcm)
    have := (hc c hcm).2 v hv
    simp only [List.mem_singleton] at this ht
    rw [ht, ← this]; exact hv
  · rw [if_neg h1]
    simp only
    have hmem : ∀ c, c ∈ (conds.filter fun c => isSuperset c.1 output) ++ (conds.filter fun c => !isSuperset c.1 output) ↔
        c ∈ conds := by
      intro c
      simp only [List.mem_append, List.mem_filter]
      cases isSuperset c.1 output <;> simp
    have hsupof : ∀ c ∈ (conds.filter fun c => isSuperset c.1 output), ∀ t ∈ output, t ∈ c.1 := by
      intro c hcm
      obtain ⟨a, b⟩ := List.mem_filter.1 hcm
      exact (isSuperset_iff ho (hc c a).1).1 b
    have hrest : ∀ c ∈ (conds.filter fun c => !isSuperset c.1 output), c ∈ conds :=
      fun c h => (List.mem_filter.1 h).1
    generalize hS : (conds.filter fun c => isSuperset c.1 output) = sups at *
    generalize hR : (conds.filter fun c => !isSuperset c.1 output) = rest at *
    have hcongr : ∀ t x, (∃ c ∈ sups ++ rest, t ∈ c.1 ∧ x ∈ c.2) ↔ ∃ c ∈ conds, t ∈ c.1 ∧ x ∈ c.2 := by
      intro t x
      constructor <;> rintro ⟨c, a, b⟩
      · exact ⟨c, (hmem c).1 a, b⟩
      · exact ⟨c, (hmem c).2 a, b⟩
    by_cases h2 : rest = []
    · subst h2
      simp only [List.isEmpty_nil, if_true]
      refine ⟨_, rfl, by simp [ids], by simp [ids], hallof ?_⟩
      intro c hcm
      have := (hmem c).2 hcm
      simp only [List.append_nil] at this
      exact hsupof c this
    · have h2' : rest.isEmpty = false := by simpa using h2
      simp only [h2', Bool.false_eq_true, if_false]
      by_cases h3 : (rest.all fun c => c.1.length = 1) = true
      · rw [if_pos h3]
        have hperm := (hsort rest).1
        have hsing : ∀ c ∈ sort rest, ∃ t, c.1 = [t] := by
          intro c hcm
          have := List.all_eq_true.1 h3 c (hperm.mem_iff.1 hcm)
          exact List.length_eq_one_iff.1 (by simpa using this)
        obtain ⟨g1, g2, g3⟩ := chunks_spec (sup := sups.flatMap (·.2)) (sort rest) hsing (hsort rest).2
        have hids : ids ((chunks (sups.flatMap (·.2)) (sort rest)).map fun (id, f) => ([id], f)) =
            (chunks (sups.flatMap (·.2)) (sort rest)).map (·.1) := by
          generalize chunks (sups.flatMap (·.2)) (sort rest) = l
          induction l with
          | nil => rfl
          | cons a b ih => simp only [ids, List.map_cons, List.flatMap_cons] at ih ⊢; rw [ih]; rfl
        have hin : ∀ t, (∃ c ∈ sort rest, c.1 = [t]) ↔ t ∈ output ∧ ∃ c ∈ rest, t ∈ c.1 := by
          intro t
          constructor
          · rintro ⟨c, a, b⟩
            have ha := hperm.mem_iff.1 a
            exact ⟨(hc c (hrest c ha)).2 t (by rw [b]; simp), c, ha, by rw [b]; simp⟩
          · rintro ⟨-, c, a, b⟩
            have ha := hperm.mem_iff.2 a
            obtain ⟨u, hu⟩ := hsing c ha
            refine ⟨c, ha, ?_⟩
            rw [hu] at b ⊢
            simp only [List.mem_singleton] at b
            rw [b]
        have hg : Good output (sups.flatMap (·.2)) rest
            ((chunks (sups.flatMap (·.2)) (sort rest)).map fun (id, f) => ([id], f)) := by
          constructor
          · intro p hp
            obtain ⟨q, -, rfl⟩ := List.mem_map.1 hp
            simp
          · rw [hids]; exact g1.imp fun h => Nat.ne_of_lt h
          · intro t; rw [hids, g2, hin]
          · intro p hp t ht x
            obtain ⟨q, hq, rfl⟩ := List.mem_map.1 hp
            simp only [List.mem_singleton] at ht
            subst ht
            simp only
            rw [g3 q hq x]
            have : (∃ c ∈ sort rest, c.1 = [q.1] ∧ x ∈ c.2) ↔ ∃ c ∈ rest, q.1 ∈ c.1 ∧ x ∈ c.2 := by
              constructor
              · rintro ⟨c, a, b, d⟩; exact ⟨c, hperm.mem_iff.1 a, by rw [b]; simp, d⟩
              · rintro ⟨c, a, b, d⟩
                obtain ⟨u, hu⟩ := hsing c (hperm.mem_iff.2 a)
                refine ⟨c, hperm.mem_iff.2 a, ?_, d⟩
                rw [hu] at b ⊢
                simp only [List.mem_singleton] at b
                rw [b]
            rw [this]
        have hpn : ((chunks (sups.flatMap (·.2)) (sort rest)).map fun (id, f) => ([id], f)) ≠ [] := by
          obtain ⟨c, hcm⟩ := List.exists_mem_of_ne_nil _ h2
          obtain ⟨u, hu⟩ := hsing c (hperm.mem_iff.2 hcm)
          have := (g2 u).2 ⟨c, hperm.mem_iff.2 hcm, hu⟩
          intro he
          rw [List.map_eq_nil_iff] at he
          rw [he] at this
          cases this
        refine ⟨_, rfl, hg.nodup, fun t ht => ((hg.cover t).1 ht).1, ?_⟩
        intro t ht x
        rw [fieldsOf_good ho hsupof hg (Or.inl hpn) ht x, hcongr]
      · rw [if_neg h3]
        obtain ⟨raw, e1, hg⟩ := split_good (sup := sups.flatMap (·.2)) ho (done := []) (ps := []) rest
          (fun c h => (hc c (hrest c h)).1)
          ⟨by simp [WF], by simp [ids], by simp [ids], by simp⟩
        simp only [List.nil_append] at hg
        have hfil : raw.filter (fun p => !p.1.isEmpty) = raw := by
          rw [List.filter_eq_self]
          intro p hp
          simpa using (hg.wf p hp).2
        rw [e1]
        simp only [Option.map_some, hfil]
        refine ⟨_, rfl, hg.nodup, fun t ht => ((hg.cover t).1 ht).1, ?_⟩
        intro t ht x
        have hpn : raw ≠ [] ∨ (sups ≠ [] ∧ output ≠ []) := by
          apply Classical.byContradiction
          intro hcon
          have hr : raw = [] := Classical.byContradiction fun h => hcon (Or.inl h)
          have hs : sups = [] := Classical.byContradiction fun h => hcon (Or.inr ⟨h, hne⟩)
          subst hr; subst hs
          rcases hsome with h | ⟨c, a, b⟩
          · subst h; simp at hR; exact h2 hR
          · obtain ⟨u, hu⟩ := List.exists_mem_of_ne_nil _ b
            have hcr : c ∈ rest := by simpa using (hmem c).2 a
            have := (hg.cover u).2 ⟨(hc c a).2 u hu, c, hcr, hu⟩
            simp [ids] at this
        rw [fieldsOf_good ho hsupof hg hpn ht x, hcongr]

/-! ## From fields to shapes -/

theorem groupFields_spec {poss : Nat → List Nat} (hp : ∀ c, Inc (poss c)) {output : List Nat}
    (ho : Inc output) (fs : List Field) :
    ∃ conds, groupFields poss output fs = some conds ∧
      (∀ c ∈ conds, Inc c.1 ∧ c.2 ≠ [] ∧ ∀ t ∈ c.1, t ∈ output) ∧
      (conds.flatMap (·.2)) = fs.map (·.id) ∧
      (∀ f t, fs.head? = some f → ∃ c, conds.head? = some c ∧ (t ∈ c.1 ↔ t ∈ output ∧ ∀ d ∈ f.conds, t ∈ poss d)) ∧
      (∀ c ∈ conds, ∃ f ∈ fs, ∀ t, t ∈ c.1 ↔ t ∈ output ∧ ∀ d ∈ f.conds, t ∈ poss d) ∧
      ∀ t x, (∃ c ∈ conds, t ∈ c.1 ∧ x ∈ c.2) ↔
        ∃ f ∈ fs, f.id = x ∧ t ∈ output ∧ ∀ d ∈ f.conds, t ∈ poss d := by
  induction fs with
  | nil => exact ⟨[], rfl, by simp, rfl, by simp, by simp, by simp⟩
  | cons f t ih =>
    obtain ⟨conds, h1, h2, h3, h4, h5, h6⟩ := ih
    obtain ⟨w, w1, w2, w3⟩ := possibleTypes_spec hp ho f.conds
    have hnew : ∀ cs, groupFields poss output (f :: t) = some ((w, [f.id]) :: cs) → cs = conds →
      ∃ conds, groupFields poss output (f :: t) = some conds ∧
      (∀ c ∈ conds, Inc c.1 ∧ c.2 ≠ [] ∧ ∀ t ∈ c.1, t ∈ output) ∧
      (conds.flatMap (·.2)) = (f :: t).map (·.id) ∧
      (∀ f' u, (f :: t).head? = some f' → ∃ c, conds.head? = some c ∧ (u ∈ c.1 ↔ u ∈ output ∧ ∀ d ∈ f'.conds, u ∈ poss d)) ∧
      (∀ c ∈ conds, ∃ f' ∈ f :: t, ∀ u, u ∈ c.1 ↔ u ∈ output ∧ ∀ d ∈ f'.conds, u ∈ poss d) ∧
      ∀ u x, (∃ c ∈ conds, u ∈ c.1 ∧ x ∈ c.2) ↔
        ∃ f' ∈ f :: t, f'.id = x ∧ u ∈ output ∧ ∀ d ∈ f'.conds, u ∈ poss d := by
      rintro cs hcs rfl
      refine ⟨_, hcs, ?_, ?_, ?_, ?_, ?_⟩
      · intro c hc
        rcases List.mem_cons.1 hc with rfl | hc
        · exact ⟨w2, by simp, fun u hu => ((w3 u).1 hu).1⟩
        · exact h2 c hc
      · simp [h3]
      · intro f' u hf'
        simp only [List.head?_cons, Option.some.injEq] at hf'
        subst hf'
        exact ⟨_, rfl, w3 u⟩
      · intro c hc
        rcases List.mem_cons.1 hc with rfl | hc
        · exact ⟨f, by simp, w3⟩
        · obtain ⟨f', a, b⟩ := h5 c hc
          exact ⟨f', by simp [a], b⟩
      · intro u x
        simp only [List.mem_cons, or_and_right, exists_or, exists_eq_left]
        rw [h6 u x, w3]
        refine or_congr ?_ Iff.rfl
        simp only [List.not_mem_nil, or_false]
        constructor
        · rintro ⟨a, rfl⟩; exact ⟨rfl, a⟩
        · rintro ⟨rfl, a⟩; exact ⟨a, rfl⟩
    cases t with
    | nil =>
      have hcn : conds = [] := by simpa [groupFields] using h1.symm
      exact hnew [] (by simp [groupFields, w1]) hcn.symm
    | cons f2 t2 =>
      cases conds with
      | nil =>
        obtain ⟨c, hc, -⟩ := h4 f2 0 rfl
        cases hc
      | cons c0 r =>
        obtain ⟨tys, gids⟩ := c0
        by_cases he : f.conds = f2.conds
        · have hw : ∀ u, u ∈ tys ↔ u ∈ output ∧ ∀ d ∈ f.conds, u ∈ poss d := by
            intro u
            obtain ⟨c, hc, hcc⟩ := h4 f2 u rfl
            simp only [List.head?_cons, Option.some.injEq] at hc
            subst hc
            rw [he]; exact hcc
          refine ⟨(tys, f.id :: gids) :: r, ?_, ?_, ?_, ?_, ?_, ?_⟩
          · unfold groupFields; rw [h1]; simp [he]
          · intro c hc
            rcases List.mem_cons.1 hc with rfl | hc
            · have := h2 (tys, gids) (by simp)
              exact ⟨this.1, by simp, this.2.2⟩
            · exact h2 c (by simp [hc])
          · simp only [List.flatMap_cons, List.map_cons, List.cons_append] at h3 ⊢
            rw [h3]
          · intro f' u hf'
            simp only [List.head?_cons, Option.some.injEq] at hf'
            subst hf'
            exact ⟨_, rfl, hw u⟩
          · intro c hc
            rcases List.mem_cons.1 hc with rfl | hc
            · exact ⟨f, by simp, hw⟩
            · obtain ⟨f', a, b⟩ := h5 c (by simp [hc])
              exact ⟨f', List.mem_cons_of_mem _ a, b⟩
          · intro u x
            have := h6 u x
            have hsp : (∃ f' ∈ f :: f2 :: t2, f'.id = x ∧ u ∈ output ∧ ∀ d ∈ f'.conds, u ∈ poss d) ↔
                (f.id = x ∧ u ∈ output ∧ ∀ d ∈ f.conds, u ∈ poss d) ∨
                  ∃ f' ∈ f2 :: t2, f'.id = x ∧ u ∈ output ∧ ∀ d ∈ f'.conds, u ∈ poss d := by
              constructor
              · rintro ⟨g, hg, a⟩
                rcases List.mem_cons.1 hg with rfl | hg
                · exact Or.inl a
                · exact Or.inr ⟨g, hg, a⟩
              · rintro (a | ⟨g, hg, a⟩)
                · exact ⟨f, by simp, a⟩
                · exact ⟨g, List.mem_cons_of_mem _ hg, a⟩
            rw [hsp]
            constructor
            · rintro ⟨c, hc, a, b⟩
              rcases List.mem_cons.1 hc with rfl | hc
              · rcases List.mem_cons.1 b with rfl | b
                · exact Or.inl ⟨rfl, (hw u).1 a⟩
                · exact Or.inr (this.1 ⟨(tys, gids), by simp, a, b⟩)
              · exact Or.inr (this.1 ⟨c, by simp [hc], a, b⟩)
            · rintro (⟨rfl, a⟩ | a)
              · exact ⟨(tys, f.id :: gids), by simp, (hw u).2 a, by simp⟩
              · obtain ⟨c, hc, a, b⟩ := this.2 a
                rcases List.mem_cons.1 hc with rfl | hc
                · exact ⟨(tys, f.id :: gids), by simp, a, List.mem_cons_of_mem _ b⟩
                · exact ⟨c, by simp [hc], a, b⟩
        · exact hnew ((tys, gids) :: r) (by unfold groupFields; rw [h1]; simp [he, w1]) rfl

theorem fieldsFor_shape {p : Result} {all : List Nat} {t : Nat} :
    fieldsFor (if p.parts.isEmpty ∧ p.remaining.isNone then .concrete all
      else .poly (p.parts.flatMap fun q => q.1.map fun id => (id, q.2)) p.remaining) t =
    p.fieldsOf all t := by
  unfold Result.fieldsOf
  split
  · rfl
  · simp only [fieldsFor, find_ids]
    cases p.parts.find? fun q => decide (t ∈ q.1) <;> rfl

theorem fieldsOf_congr {p : Result} {a b : List Nat} (h : ∀ x, x ∈ a ↔ x ∈ b) {t x : Nat} :
    x ∈ p.fieldsOf a t ↔ x ∈ p.fieldsOf b t := by
  unfold Result.fieldsOf
  split
  · exact h x
  · rfl

/-- An object of type `t` has the field `x`: there is such a field, and `t` satisfies all the type
conditions around it. -/
def Selected (poss : Nat → List Nat) (fields : List Field) (t x : Nat) : Prop :=
  ∃ f ∈ fields, f.id = x ∧ ∀ c ∈ f.conds, t ∈ poss c

/-- For every selection set in which some field can apply to some type of the output, whatever the
order of the fields after sorting: an object of each type of the output gets exactly the fields whose
type conditions it satisfies.  `hprune` is what the collection of fields guarantees: each type
condition has a type in common with the output (`operation_fields.rs:140-175`). -/
theorem C37_exact_partial {sort : List Part → List Part} (hsort : ∀ l, SortOf (sort l) l)
    {poss : Nat → List Nat} (hp : ∀ c, Inc (poss c)) {output : List Nat} (ho : Inc output)
    (hne : output ≠ []) {fields sorted : List Field} (hperm : sorted.Perm fields)
    (hprune : ∀ f ∈ fields, ∀ c ∈ f.conds, ∃ t ∈ output, t ∈ poss c)
    (hsome : fields = [] ∨ ∃ f ∈ fields, ∃ t ∈ output, ∀ c ∈ f.conds, t ∈ poss c) :
    ∃ s, shapeOf sort poss output fields sorted = some s ∧
      ∀ t ∈ output, ∀ x, x ∈ fieldsFor s t ↔ Selected poss fields t x := by
  obtain ⟨conds, h1, h2, h3, -, h5, h6⟩ := groupFields_spec hp ho sorted
  have hone : output.length = 1 → ∀ c ∈ conds, c.1 ≠ [] := by
    intro hl c hc
    obtain ⟨u, rfl⟩ := List.length_eq_one_iff.1 hl
    obtain ⟨f, hf, hfc⟩ := h5 c hc
    intro he
    have : u ∈ c.1 := by
      rw [hfc]
      refine ⟨by simp, ?_⟩
      intro d hd
      obtain ⟨v, hv, hv'⟩ := hprune f (hperm.mem_iff.1 hf) d hd
      simp only [List.mem_singleton] at hv
      rw [← hv]; exact hv'
    rw [he] at this
    cases this
  have hsome' : conds = [] ∨ ∃ c ∈ conds, c.1 ≠ [] := by
    rcases hsome with rfl | ⟨f, hf, t, ht, hall⟩
    · left
      have := hperm.eq_nil
      subst this
      simpa [groupFields] using h1.symm
    · right
      obtain ⟨c, hc, htc, -⟩ := (h6 t f.id).2 ⟨f, hperm.mem_iff.2 hf, rfl, ht, hall⟩
      exact ⟨c, hc, fun he => by rw [he] at htc; cases htc⟩
  obtain ⟨r, r1, -, -, r2⟩ := C37_partition hsort ho hne (fun c hc => ⟨(h2 c hc).1, (h2 c hc).2.2⟩) hone hsome'
  refine ⟨_, by simp only [shapeOf, h1, Option.bind_some, r1, Option.map_some]; rfl, ?_⟩
  intro t ht x
  rw [fieldsFor_shape]
  have hall : ∀ y, y ∈ fields.map (·.id) ↔ y ∈ conds.flatMap (·.2) := by
    intro y; rw [h3]; exact ((hperm.map _).mem_iff).symm
  rw [fieldsOf_congr hall, r2 t ht x, h6 t x]
  simp only [ht, true_and, Selected]
  constructor
  · rintro ⟨f, a, b⟩; exact ⟨f, hperm.mem_iff.1 a, b⟩
  · rintro ⟨f, a, b⟩; exact ⟨f, hperm.mem_iff.2 a, b⟩

/-- No two shapes of a selection set are for the same type, and they are for types of the output. -/
theorem C37_disjoint {sort : List Part → List Part} (hsort : ∀ l, SortOf (sort l) l)
    {poss : Nat → List Nat} (hp : ∀ c, Inc (poss c)) {output : List Nat} (ho : Inc output)
    (hne : output ≠ []) {fields sorted : List Field} (hperm : sorted.Perm fields)
    (hprune : ∀ f ∈ fields, ∀ c ∈ f.conds, ∃ t ∈ output, t ∈ poss c)
    {ps : List (Nat × List Nat)} {fb : Option (List Nat)}
    (hs : shapeOf sort poss output fields sorted = some (.poly ps fb)) :
    (ps.map (·.1)).Nodup ∧ ∀ q ∈ ps, q.1 ∈ output := by
  obtain ⟨conds, h1, h2, h3, -, h5, h6⟩ := groupFields_spec hp ho sorted
  have hone : output.length = 1 → ∀ c ∈ conds, c.1 ≠ [] := by
    intro hl c hc
    obtain ⟨u, rfl⟩ := List.length_eq_one_iff.1 hl
    obtain ⟨f, hf, hfc⟩ := h5 c hc
    intro he
    have : u ∈ c.1 := by
      rw [hfc]
      refine ⟨by simp, ?_⟩
      intro d hd
      obtain ⟨v, hv, hv'⟩ := hprune f (hperm.mem_iff.1 hf) d hd
      simp only [List.mem_singleton] at hv
      rw [← hv]; exact hv'
    rw [he] at this
    cases this
  by_cases hsome : conds = [] ∨ ∃ c ∈ conds, c.1 ≠ []
  · obtain ⟨r, r1, r2, r3, -⟩ := C37_partition hsort ho hne (fun c hc => ⟨(h2 c hc).1, (h2 c hc).2.2⟩) hone hsome
    simp only [shapeOf, h1, Option.bind_some, r1, Option.map_some, Option.some.injEq] at hs
    split at hs
    · cases hs
    · cases hs
      have hm : (r.parts.flatMap fun q => q.1.map fun id => (id, q.2)).map (·.1) = ids r.parts := by
        rw [List.map_flatMap]
        congr 1
        funext q
        rw [List.map_map]
        exact List.map_id _
      refine ⟨by rw [hm]; exact r2, ?_⟩
      intro q hq
      apply r3
      rw [← hm]
      exact List.mem_map_of_mem hq
  · -- no field applies to any type: there is no partition at all
    have hemp : ∀ c ∈ conds, c.1 = [] := fun c hc =>
      Classical.byContradiction fun h => hsome (Or.inr ⟨c, hc, h⟩)
    have hcn : conds ≠ [] := fun h => hsome (Or.inl h)
    have h1' : output.length ≠ 1 := by
      intro hl
      obtain ⟨c, hc⟩ := List.exists_mem_of_ne_nil _ hcn
      exact hone hl c hc (hemp c hc)
    have hns : ∀ c ∈ conds, isSuperset c.1 output = false := by
      intro c hc
      rw [hemp c hc, isSuperset, if_pos (by have := List.length_pos_iff.2 hne; simpa using this)]
    have hS : (conds.filter fun c => isSuperset c.1 output) = [] := by
      rw [List.filter_eq_nil_iff]; intro c hc; simp [hns c hc]
    have hR : (conds.filter fun c => !isSuperset c.1 output) = conds := by
      rw [List.filter_eq_self]; intro c hc; simp [hns c hc]
    have h3' : (conds.all fun c => c.1.length = 1) = false := by
      obtain ⟨c, hc⟩ := List.exists_mem_of_ne_nil _ hcn
      rw [List.all_eq_false]
      exact ⟨c, hc, by simp [hemp c hc]⟩
    obtain ⟨raw, e1, hg⟩ := split_good (sup := ([] : List Part).flatMap (·.2)) ho (done := []) (ps := []) conds
      (fun c h => (h2 c h).1) ⟨by simp [WF], by simp [ids], by simp [ids], by simp⟩
    have hraw : raw = [] := by
      cases raw with
      | nil => rfl
      | cons p t =>
        exfalso
        obtain ⟨u, hu⟩ := List.exists_mem_of_ne_nil _ (hg.wf p (by simp)).2
        obtain ⟨-, c, hc, hcu⟩ := (hg.cover u).1 (List.mem_flatMap.2 ⟨p, by simp, hu⟩)
        rw [hemp c (by simpa using hc)] at hcu
        cases hcu
    subst hraw
    have hcf : conds.isEmpty = false := by simpa using hcn
    have : partitionShapes sort output conds = some ⟨[], none⟩ := by
      unfold partitionShapes
      rw [if_neg h1']
      simp only [hS, hR, hcf, h3', Bool.false_eq_true, if_false, e1, Option.map_some]
      simp [finish]
    simp [shapeOf, h1, this] at hs

/-- **The claim is false**: when no field of a selection set can apply to any type of the output (each
type condition meets the output, but not all of them at once), all the fields are in the shape of every
type. Here `{ f(out: {1, 2}) { ... on X { ... on Y { g } } } }` with `X = {1, 5}` and `Y = {2, 5}`. -/
theorem C37_false (sort : List Part → List Part) :
    let poss : Nat → List Nat := fun c => if c = 0 then [1, 5] else [2, 5]
    let fields := [⟨7, [0, 1]⟩]
    shapeOf sort poss [1, 2] fields fields = some (.concrete [7]) ∧
      7 ∈ fieldsFor (.concrete [7]) 1 ∧ ¬ Selected poss fields 1 7 ∧ ¬ Selected poss fields 2 7 ∧
      ∀ f ∈ fields, ∀ c ∈ f.conds, ∃ t ∈ [1, 2], t ∈ poss c := by
  refine ⟨?_, by simp [fieldsFor], by simp [Selected], by simp [Selected], by simp⟩
  simp [shapeOf, groupFields, possibleTypes, interLoop, keepAll, keep, keepLoop, partitionShapes, isSuperset,
    split, addCond, against, finish]

/-! ## The hypotheses are met -/

/-- Type 0 is `{1, 2, 3}`, type 1 is `{2, 4}`, type 2 is `{3}`. -/
def possEx : Nat → List Nat
  | 0 => [1, 2, 3] | 1 => [2, 4] | _ => [3]

def fieldsEx : List Field := [⟨10, []⟩, ⟨11, [0]⟩, ⟨12, [1]⟩, ⟨13, [0, 2]⟩]

example : (∀ c, Inc (possEx c)) ∧ Inc [1, 2, 3, 4, 5] ∧
    ∀ f ∈ fieldsEx, ∀ c ∈ f.conds, ∃ t ∈ [1, 2, 3, 4, 5], t ∈ possEx c := by
  refine ⟨?_, by decide, by decide⟩
  intro c
  unfold possEx
  split <;> decide

example : shapeOf id possEx [1, 2, 3, 4, 5] fieldsEx fieldsEx =
    some (.poly [(1, [11, 10]), (2, [12, 11, 10, 10]), (4, [12, 10]), (3, [13, 11, 10, 10])] (some [10])) := by
  simp [shapeOf, fieldsEx, possEx, groupFields, possibleTypes, interLoop, keepAll, keep, keepLoop, swap,
    partitionShapes, isSuperset, supLoop, split, addCond, against, finish, extract, exLoop, compact, moveLoop]

end Verif.Partition
