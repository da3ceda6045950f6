import Verif.FieldTypes.Lemmas
/-
Property C03: composing the types of one field over all subgraphs.
-/
namespace Verif.FieldTypes
open Verif.Wrapping Verif.Common

/-- Every value of `t` is a value of `u`. -/
def Sub (t u : GType) : Prop := ∀ v, t.Admits v → u.Admits v

/-- `den` says which GraphQL type each subgraph wrote, and all of them are over list depth `d`. -/
structure Denotes (den : FieldType → GType) (d : Nat) (fts : List FieldType) : Prop where
  reach : ∀ x ∈ fts, Reachable x.wrapping (den x)
  depth : ∀ x ∈ fts, (den x).depth = d

/-- C03, output positions. MISSING for the full property: the hypothesis `Denotes.depth` (all
subgraphs use the same number of list levels); without it the claim is false, see
`C03_output_depth_mismatch_accepted`. The composed type is the least type containing the values of
every subgraph, over the name all subgraphs use; composition is refused iff two subgraphs disagree on
the name or on more than the outermost nullability. -/
theorem C03_output_least_upper_bound_partial (den : FieldType → GType) (d : Nat) (fts : List FieldType)
    (h : Denotes den d fts) :
    (composeAll composeForOutput fts = none ↔
      fts = [] ∨ ∃ a ∈ fts, ∃ b ∈ fts,
        a.definitionNameId ≠ b.definitionNameId ∨ (den a).nullable ≠ (den b).nullable) ∧
    ∀ r, composeAll composeForOutput fts = some r →
      r ∈ fts ∧ (∀ x ∈ fts, x.definitionNameId = r.definitionNameId) ∧
      (∀ x ∈ fts, Sub (den x) (den r)) ∧
      (∀ u, (∀ x ∈ fts, Sub (den x) u) → Sub (den r) u) := by
  cases fts with
  | nil => simp [composeAll]
  | cons a rest =>
    obtain ⟨f1, f2⟩ := fold_spec stepSpec_output den d a rest h.reach h.depth
    constructor
    · simp only [composeAll, f1]
      constructor
      · rintro ⟨x, hx, hn⟩
        refine .inr ⟨a, by simp, x, by simp [hx], ?_⟩
        unfold SameNullable at hn; exact Decidable.not_and_iff_not_or_not.mp hn
      · rintro (h0 | ⟨x, hx, y, hy, hn⟩)
        · cases h0
        · apply Classical.byContradiction
          intro hall
          have hs : ∀ z ∈ a :: rest, SameNullable a z (den a) (den z) := by
            intro z hz
            rcases List.mem_cons.mp hz with rfl | hz
            · exact ⟨rfl, rfl⟩
            · apply Classical.byContradiction
              intro hc; exact hall ⟨z, hz, hc⟩
          have := (hs x hx).symm.trans (hs y hy)
          unfold SameNullable at this
          rcases hn with hn | hn
          · exact hn this.1
          · exact hn this.2
    · intro r hr
      simp only [composeAll] at hr
      obtain ⟨g1, g2, g3⟩ := f2 r hr
      have hnone : ¬ ∃ x ∈ rest, ¬ SameNullable a x (den a) (den x) := by
        intro hc; rw [f1.mpr hc] at hr; cases hr
      have hs : ∀ z ∈ a :: rest, SameNullable r z (den r) (den z) := by
        intro z hz
        apply g2.symm.trans
        rcases List.mem_cons.mp hz with rfl | hz
        · exact ⟨rfl, rfl⟩
        · apply Classical.byContradiction
          intro hc; exact hnone ⟨z, hz, hc⟩
      refine ⟨g1, fun x hx => (hs x hx).1.symm, ?_, fun u hu => hu r g1⟩
      intro x hx v hv
      rw [admits_split] at hv ⊢
      refine ⟨?_, ?_⟩
      · intro hreq
        apply hv.1
        rw [g3, foldl_and] at hreq
        simp only [Bool.and_eq_true, List.all_eq_true, List.mem_map, id] at hreq
        rcases List.mem_cons.mp hx with rfl | hx
        · exact hreq.1
        · exact hreq.2 _ ⟨x, hx, rfl⟩
      · rw [(hs x hx).2]; exact hv.2

/-- C03, input positions (arguments and input object fields): the composed type is the greatest type
whose values every subgraph accepts. Same missing hypothesis as above. -/
theorem C03_input_greatest_lower_bound_partial (den : FieldType → GType) (d : Nat) (fts : List FieldType)
    (h : Denotes den d fts) :
    (composeAll composeForInput fts = none ↔
      fts = [] ∨ ∃ a ∈ fts, ∃ b ∈ fts,
        a.definitionNameId ≠ b.definitionNameId ∨ (den a).nullable ≠ (den b).nullable) ∧
    ∀ r, composeAll composeForInput fts = some r →
      r ∈ fts ∧ (∀ x ∈ fts, x.definitionNameId = r.definitionNameId) ∧
      (∀ x ∈ fts, Sub (den r) (den x)) ∧
      (∀ u, (∀ x ∈ fts, Sub u (den x)) → Sub u (den r)) := by
  cases fts with
  | nil => simp [composeAll]
  | cons a rest =>
    obtain ⟨f1, f2⟩ := fold_spec stepSpec_input den d a rest h.reach h.depth
    constructor
    · simp only [composeAll, f1]
      constructor
      · rintro ⟨x, hx, hn⟩
        refine .inr ⟨a, by simp, x, by simp [hx], ?_⟩
        unfold SameNullable at hn; exact Decidable.not_and_iff_not_or_not.mp hn
      · rintro (h0 | ⟨x, hx, y, hy, hn⟩)
        · cases h0
        · apply Classical.byContradiction
          intro hall
          have hs : ∀ z ∈ a :: rest, SameNullable a z (den a) (den z) := by
            intro z hz
            rcases List.mem_cons.mp hz with rfl | hz
            · exact ⟨rfl, rfl⟩
            · apply Classical.byContradiction
              intro hc; exact hall ⟨z, hz, hc⟩
          have := (hs x hx).symm.trans (hs y hy)
          unfold SameNullable at this
          rcases hn with hn | hn
          · exact hn this.1
          · exact hn this.2
    · intro r hr
      simp only [composeAll] at hr
      obtain ⟨g1, g2, g3⟩ := f2 r hr
      have hnone : ¬ ∃ x ∈ rest, ¬ SameNullable a x (den a) (den x) := by
        intro hc; rw [f1.mpr hc] at hr; cases hr
      have hs : ∀ z ∈ a :: rest, SameNullable r z (den r) (den z) := by
        intro z hz
        apply g2.symm.trans
        rcases List.mem_cons.mp hz with rfl | hz
        · exact ⟨rfl, rfl⟩
        · apply Classical.byContradiction
          intro hc; exact hnone ⟨z, hz, hc⟩
      refine ⟨g1, fun x hx => (hs x hx).1.symm, ?_, fun u hu => hu r g1⟩
      intro x hx v hv
      rw [admits_split] at hv ⊢
      refine ⟨?_, ?_⟩
      · intro hreq
        apply hv.1
        rw [g3, foldl_or]
        simp only [Bool.or_eq_true, List.any_eq_true, List.mem_map, id]
        rcases List.mem_cons.mp hx with rfl | hx
        · exact .inl hreq
        · exact .inr ⟨_, ⟨x, hx, rfl⟩, hreq⟩
      · rw [← (hs x hx).2]; exact hv.2

/-- C03, order independence (same missing hypothesis): listing the subgraphs in another order gives
the same composed type, or the same refusal. -/
theorem C03_order_independent_partial (den : FieldType → GType) (d : Nat) (fts fts' : List FieldType)
    (h : Denotes den d fts) (hp : fts.Perm fts') :
    composeAll composeForOutput fts = composeAll composeForOutput fts' ∧
    composeAll composeForInput fts = composeAll composeForInput fts' := by
  have h' : Denotes den d fts' :=
    ⟨fun x hx => h.reach x (hp.mem_iff.mpr hx), fun x hx => h.depth x (hp.mem_iff.mpr hx)⟩
  have hmem : ∀ x, x ∈ fts ↔ x ∈ fts' := fun x => hp.mem_iff
  have hnil : fts = [] ↔ fts' = [] := by
    constructor
    · rintro rfl; exact hp.nil_eq.symm
    · rintro rfl; exact hp.eq_nil
  have heq : ∀ r r' : FieldType, r ∈ fts → r' ∈ fts → r.definitionNameId = r'.definitionNameId →
      (den r).nullable = (den r').nullable → (den r).required = (den r').required → r = r' := by
    intro r r' hr hr' hn hnu hreq
    have ht := gtype_eq_of _ _ hnu hreq (reachable_wf (h.reach r hr)) (reachable_wf (h.reach r' hr'))
    have h1 := h.reach r hr
    rw [ht] at h1
    have := reachable_inj h1 (h.reach r' hr')
    cases r; cases r'; simp_all
  constructor
  · obtain ⟨a1, a2⟩ := C03_output_least_upper_bound_partial den d fts h
    obtain ⟨b1, b2⟩ := C03_output_least_upper_bound_partial den d fts' h'
    have hiff : composeAll composeForOutput fts = none ↔ composeAll composeForOutput fts' = none := by
      rw [a1, b1, hnil]; simp only [hmem]
    cases hc : composeAll composeForOutput fts with
    | none => rw [hiff.mp hc]
    | some r =>
      cases hc' : composeAll composeForOutput fts' with
      | none => rw [hiff.mpr hc'] at hc; cases hc
      | some r' =>
        obtain ⟨m1, n1, u1, _⟩ := a2 r hc
        obtain ⟨m2, n2, u2, _⟩ := b2 r' hc'
        have m2' := (hmem r').mpr m2
        have s1 := u1 r' m2'
        have s2 := u2 r ((hmem r).mp m1)
        have hnu : (den r).nullable = (den r').nullable := by
          apply Classical.byContradiction
          intro hne
          have : composeAll composeForOutput fts = none := a1.mpr (.inr ⟨r, m1, r', m2', .inr hne⟩)
          rw [this] at hc; cases hc
        have hreq : (den r).required = (den r').required := by
          have e1 := admits_null_iff (den r)
          have e2 := admits_null_iff (den r')
          cases hx : (den r).required <;> cases hy : (den r').required <;> try rfl
          · rw [hx] at e1; rw [hy] at e2
            have := s2 _ (e1.mpr rfl); rw [e2] at this; cases this
          · rw [hx] at e1; rw [hy] at e2
            have := s1 _ (e2.mpr rfl); rw [e1] at this; cases this
        rw [heq r r' m1 m2' (n1 r' m2').symm hnu hreq]
  · obtain ⟨a1, a2⟩ := C03_input_greatest_lower_bound_partial den d fts h
    obtain ⟨b1, b2⟩ := C03_input_greatest_lower_bound_partial den d fts' h'
    have hiff : composeAll composeForInput fts = none ↔ composeAll composeForInput fts' = none := by
      rw [a1, b1, hnil]; simp only [hmem]
    cases hc : composeAll composeForInput fts with
    | none => rw [hiff.mp hc]
    | some r =>
      cases hc' : composeAll composeForInput fts' with
      | none => rw [hiff.mpr hc'] at hc; cases hc
      | some r' =>
        obtain ⟨m1, n1, u1, _⟩ := a2 r hc
        obtain ⟨m2, n2, u2, _⟩ := b2 r' hc'
        have m2' := (hmem r').mpr m2
        have s1 := u1 r' m2'
        have s2 := u2 r ((hmem r).mp m1)
        have hnu : (den r).nullable = (den r').nullable := by
          apply Classical.byContradiction
          intro hne
          have : composeAll composeForInput fts = none := a1.mpr (.inr ⟨r, m1, r', m2', .inr hne⟩)
          rw [this] at hc; cases hc
        have hreq : (den r).required = (den r').required := by
          have e1 := admits_null_iff (den r)
          have e2 := admits_null_iff (den r')
          cases hx : (den r).required <;> cases hy : (den r').required <;> try rfl
          · rw [hx] at e1; rw [hy] at e2
            have := s1 _ (e1.mpr rfl); rw [e2] at this; cases this
          · rw [hx] at e1; rw [hy] at e2
            have := s2 _ (e2.mpr rfl); rw [e1] at this; cases this
        rw [heq r r' m1 m2' (n1 r' m2').symm hnu hreq]

/-- C03, what is refused when the list depths differ: every mismatch except (a) one side is not a list
at all, or (b) the left side has exactly one list level more. -/
theorem C03_depth_mismatch_refused_partial (a b : FieldType) (t u : GType)
    (ha : Reachable a.wrapping t) (hb : Reachable b.wrapping u)
    (hm : t.depth ≠ u.depth) (h0 : t.depth ≠ 0) (h0' : u.depth ≠ 0) (h1 : t.depth ≠ u.depth + 1) :
    composeForOutput a b = none ∧ composeForInput a b = none := by
  have hc : compose a b = none := by
    obtain ⟨i, ls, hr, rfl⟩ := reachable_rep ha
    obtain ⟨i', ls', hr', rfl⟩ := reachable_rep hb
    rw [readBack_depth] at *
    rw [readBack_depth] at *
    unfold compose
    have hab : a ≠ b := by
      rintro rfl
      apply hm
      rw [← rep_listWrappings hr, ← rep_listWrappings hr']
    rw [if_neg hab, rep_listWrappings hr, rep_listWrappings hr']
    cases ls with
    | nil => simp at h0
    | cons x ls =>
      cases ls' with
      | nil => simp at h0'
      | cons y ls' =>
        have hl : composeLoop b.wrapping.isNonNull (some (x, y)) ls ls' = none := by
          simp only [List.length_cons] at hm h1
          rcases Nat.lt_or_ge ls.length ls'.length with hlt | hge
          · exact composeLoop_longer_other _ _ _ _ _ hlt
          · exact composeLoop_shorter_other _ _ _ _ _ (by omega)
        simp [zipNext, hl]
  simp [composeForOutput, composeForInput, hc]

/-! ### The full property is false of the code -/

def tString : FieldType := ⟨7, .new⟩
def tList : FieldType := ⟨7, ⟨0b0000100000000000#16⟩⟩
def tListList : FieldType := ⟨7, ⟨0b0001000000000000#16⟩⟩

/-- C03 is false when list depths differ: `f: String` in one subgraph and `f: [String]` in another
compose to `[String]`, although the first subgraph returns values outside of that type. -/
theorem C03_output_depth_mismatch_accepted :
    Reachable tString.wrapping .named ∧ Reachable tList.wrapping (.list .named) ∧
    composeAll composeForOutput [tString, tList] = some tList ∧
    ¬ Sub .named (.list .named) := by
  refine ⟨⟨[], by decide, by decide⟩, ⟨[.list], by decide, by decide⟩, by decide, ?_⟩
  intro h
  have := h (.leaf 0) (by simp [GType.Admits])
  simp [GType.Admits] at this

/-- C03 is false: the outcome depends on the order of the subgraphs. `[[String]]` then `[String]` is
accepted, `[String]` then `[[String]]` is refused. -/
theorem C03_order_dependent_when_depth_differs :
    Reachable tList.wrapping (.list .named) ∧ Reachable tListList.wrapping (.list (.list .named)) ∧
    composeAll composeForOutput [tListList, tList] = some tList ∧
    composeAll composeForOutput [tList, tListList] = none := by
  refine ⟨⟨[.list], by decide, by decide⟩, ⟨[.list, .list], by decide, by decide⟩, ?_, ?_⟩
  · decide
  · decide

/-- Non-vacuity of `Denotes`: three subgraphs, `[X!]`, `[X!]!`, `[X!]`. -/
example : ∃ den, Denotes den 1
    [⟨3, ⟨0b1000100000000000#16⟩⟩, ⟨3, ⟨0b1000100000000001#16⟩⟩, ⟨3, ⟨0b1000100000000000#16⟩⟩] := by
  refine ⟨fun x => if x.wrapping.bits = 0b1000100000000001#16 then .nonNull (.list (.nonNull .named))
    else .list (.nonNull .named), ?_, ?_⟩
  · intro x hx
    simp only [List.mem_cons, List.not_mem_nil, or_false] at hx
    rcases hx with rfl | rfl | rfl
    · exact ⟨[.nonNull, .list], by decide, by decide⟩
    · exact ⟨[.nonNull, .listNonNull], by decide, by decide⟩
    · exact ⟨[.nonNull, .list], by decide, by decide⟩
  · intro x hx
    simp only [List.mem_cons, List.not_mem_nil, or_false] at hx
    rcases hx with rfl | rfl | rfl <;> decide

end Verif.FieldTypes
