import Verif.SchemaDiff.Lemmas
/-!
# C54: the schema differ reports exactly the differences
-/
namespace Verif.SchemaDiff

/-- The differ does not crash when no directive has the name of a type. -/
theorem C54_no_crash_partial (s t : Doc) (hs : Coherent s) (ht : Coherent t) : diff s t ≠ none := by
  obtain ⟨r, hr, -⟩ := diff_parts hs ht
  rw [hr]; simp

/-- A definition is reported as added or removed iff its name has that kind in one document only. -/
theorem C54_definitions_partial (s t : Doc) (hs : Coherent s) (ht : Coherent t) (r : List Change)
    (hr : diff s t = some r) (n : Nat) (c : CK) :
    (.type n, c) ∈ r ↔
      (∃ k, HasType t n k ∧ ¬ HasType s n k ∧ c = addDef k) ∨
      (∃ k, HasType s n k ∧ ¬ HasType t n k ∧ c = removeDef k) := by
  obtain ⟨r', hr', hm⟩ := diff_parts hs ht
  rw [hr] at hr'
  cases hr'
  have hadd : addedKind = addDef := by funext k; cases k <;> rfl
  have hrem : removedKind = removeDef := by funext k; cases k <;> rfl
  rw [hm]
  have hs1 := fun k => type_iff (n := n) (k := k) hs
  have ht1 := fun k => type_iff (n := n) (k := k) ht
  constructor
  · rintro (h | h | h | ⟨⟨n', a, b⟩, hx, l, hl, hc⟩ | ⟨x, -, l, hl, hc⟩ | ⟨x, -, l, hl, hc⟩)
    · obtain ⟨k, h⟩ := schema_shape h; cases h
    · obtain ⟨k, h⟩ := ext_shape h; cases h
    · obtain ⟨_, _, _, h⟩ := impl_shape h; cases h
    · obtain ⟨k, h⟩ := def_shape hl hc
      cases h
      obtain ⟨h0, h1, h2⟩ := types_entry.1 (types_mem.1 hx)
      cases a with
      | none =>
        cases b with
        | none => exact absurd ⟨rfl, rfl⟩ h0
        | some b =>
          simp only [defChanges] at hl
          cases hl
          simp only [List.mem_singleton, Prod.mk.injEq, true_and] at hc
          exact Or.inl ⟨b, (ht1 b).1 h2, (none_iff hs1).1 h1 b, by rw [hc, hadd]⟩
      | some a =>
        cases b with
        | none =>
          simp only [defChanges] at hl
          cases hl
          simp only [List.mem_singleton, Prod.mk.injEq, true_and] at hc
          exact Or.inr ⟨a, (hs1 a).1 h1, (none_iff ht1).1 h2 a, by rw [hc, hrem]⟩
        | some b =>
          simp only [defChanges] at hl
          split at hl
          · rename_i hab
            cases hl
            simp only [List.mem_cons, Prod.mk.injEq, true_and, List.not_mem_nil, or_false] at hc
            rcases hc with rfl | rfl
            · refine Or.inr ⟨a, (hs1 a).1 h1, fun h => hab ?_, by rw [hrem]⟩
              exact ht.types _ a b h ((ht1 b).1 h2)
            · refine Or.inl ⟨b, (ht1 b).1 h2, fun h => hab ?_, by rw [hadd]⟩
              exact hs.types _ a b ((hs1 a).1 h1) h
          · cases hl; cases hc
    · obtain ⟨k, h⟩ := field_shape hl hc; cases h
    · obtain ⟨k, h⟩ := arg_shape hl hc; cases h
  · intro h
    refine Or.inr (Or.inr (Or.inr (Or.inl ?_)))
    rcases h with ⟨k, hk, hnk, rfl⟩ | ⟨k, hk, hnk, rfl⟩
    · have h2 := (ht1 k).2 hk
      cases h1 : last (s.flatMap Def.types) n with
      | none =>
        exact ⟨(n, none, some k), types_mem.2 (types_entry.2 ⟨by simp, h1, h2⟩), _, rfl, by simp [hadd]⟩
      | some j =>
        refine ⟨(n, some j, some k), types_mem.2 (types_entry.2 ⟨by simp, h1, h2⟩), ?_⟩
        have hne : j ≠ k := by rintro rfl; exact hnk ((hs1 j).1 h1)
        exact ⟨[(.type n, removedKind j), (.type n, addedKind k)], by simp [defChanges, hne], by simp [hadd]⟩
    · have h1 := (hs1 k).2 hk
      cases h2 : last (t.flatMap Def.types) n with
      | none =>
        exact ⟨(n, some k, none), types_mem.2 (types_entry.2 ⟨by simp, h1, h2⟩), _, rfl, by simp [hrem]⟩
      | some j =>
        refine ⟨(n, some k, some j), types_mem.2 (types_entry.2 ⟨by simp, h1, h2⟩), ?_⟩
        have hne : k ≠ j := by rintro rfl; exact hnk ((ht1 k).1 h2)
        exact ⟨[(.type n, removedKind k), (.type n, addedKind j)], by simp [defChanges, hne], by simp [hrem]⟩

/-- A field, enum value or union member of a type that keeps its kind is reported as added, removed or
changed iff it was. -/
theorem C54_members_partial (s t : Doc) (hs : Coherent s) (ht : Coherent t) (r : List Change)
    (hr : diff s t = some r) (n f : Nat) (c : CK) :
    (.field n f, c) ∈ r ↔ ∃ k, HasType s n k ∧ HasType t n k ∧
      ((c = addMember k ∧ (∀ u, ¬ HasMember s n f u) ∧ ∃ u, HasMember t n f u) ∨
       (c = removeMember k ∧ (∃ u, HasMember s n f u) ∧ ∀ u, ¬ HasMember t n f u) ∨
       (c = .changeFieldType ∧ ∃ u v, HasMember s n f (some u) ∧ HasMember t n f (some v) ∧ u ≠ v)) := by
  obtain ⟨r', hr', hm⟩ := diff_parts hs ht
  rw [hr] at hr'
  cases hr'
  rw [hm]
  have hs1 := fun k => type_iff (n := n) (k := k) hs
  have ht1 := fun k => type_iff (n := n) (k := k) ht
  have hs2 := fun u => member_iff (n := n) (f := f) (t := u) hs
  have ht2 := fun u => member_iff (n := n) (f := f) (t := u) ht
  constructor
  · rintro (h | h | h | ⟨x, -, l, hl, hc⟩ | ⟨⟨⟨n', f'⟩, a, b⟩, hx, l, hl, hc⟩ | ⟨x, -, l, hl, hc⟩)
    · obtain ⟨k, h⟩ := schema_shape h; cases h
    · obtain ⟨k, h⟩ := ext_shape h; cases h
    · obtain ⟨_, _, _, h⟩ := impl_shape h; cases h
    · obtain ⟨k, h⟩ := def_shape hl hc; cases h
    · obtain ⟨k, h⟩ := field_shape hl hc
      cases h
      obtain ⟨h0, h1, h2⟩ := fields_entry.1 (fields_mem.1 hx)
      unfold fieldChanges at hl
      simp only at hl
      split at hl
      · cases hl
      · cases hl
      · cases hl; cases hc
      · cases hl; cases hc
      · rename_i x y hxy
        obtain ⟨-, h3, h4⟩ := types_entry.1 hxy
        split at hl
        · cases hl; cases hc
        · rename_i he
          simp only [ne_eq, Classical.not_not] at he
          subst he
          refine ⟨x, (hs1 x).1 h3, (ht1 x).1 h4, ?_⟩
          split at hl
          · cases hl
          · split at hl
            · cases hl
            · rename_i u
              refine Or.inl ⟨?_, (none_iff hs2).1 h1, _, (ht2 _).1 h2⟩
              exact add_kind hl hc
            · refine Or.inr (Or.inl ⟨?_, ⟨_, (hs2 _).1 h1⟩, (none_iff ht2).1 h2⟩)
              exact remove_kind hl hc
            · rename_i u v
              split at hl
              · rename_i hcond
                split at hl
                · cases hl
                · cases hl
                  simp only [List.mem_singleton, Prod.mk.injEq, true_and] at hc
                  rename_i hnd _ w
                  obtain ⟨k', hk', -, -, h7⟩ := member_type ((hs2 _).1 h1)
                  have hkk := hs.types _ x k' ((hs1 x).1 h3) hk'
                  subst hkk
                  have hh : x = .object ∨ x = .interface ∨ x = .inputObject := by
                    rcases hcond.1 with h | h | h <;> simp [h]
                  have := h7.1 hh
                  cases u with
                  | none => exact absurd rfl this
                  | some u =>
                    exact Or.inr (Or.inr ⟨hc, u, w, (hs2 _).1 h1, (ht2 _).1 h2, fun e => hcond.2 (by rw [e])⟩)
              · cases hl; cases hc
    · obtain ⟨k, h⟩ := arg_shape hl hc; cases h
  · rintro ⟨k, hk1, hk2, h⟩
    refine Or.inr (Or.inr (Or.inr (Or.inr (Or.inl ?_))))
    have hl := types_entry.2 ⟨by simp, (hs1 k).2 hk1, (ht1 k).2 hk2⟩
    rcases h with ⟨rfl, h1, u, hu⟩ | ⟨rfl, ⟨u, hu⟩, h2⟩ | ⟨rfl, u, v, hu, hv, huv⟩
    · refine ⟨((n, f), none, some u), fields_mem.2 (fields_entry.2 ⟨by simp, (none_iff hs2).2 h1, (ht2 u).2 hu⟩),
        [(.field n f, addMember k)], ?_, by simp⟩
      obtain ⟨k', hk', h5, h6, -⟩ := member_type hu
      have := ht.types n k k' hk2 hk'
      subst this
      unfold fieldChanges
      simp only [hl]
      cases k <;> simp_all [addMember]
    · refine ⟨((n, f), some u, none), fields_mem.2 (fields_entry.2 ⟨by simp, (hs2 u).2 hu, (none_iff ht2).2 h2⟩),
        [(.field n f, removeMember k)], ?_, by simp⟩
      obtain ⟨k', hk', h5, h6, -⟩ := member_type hu
      have := hs.types n k k' hk1 hk'
      subst this
      unfold fieldChanges
      simp only [hl]
      cases k <;> simp_all [removeMember]
    · refine ⟨((n, f), some (some u), some (some v)), fields_mem.2 (fields_entry.2 ⟨by simp, (hs2 _).2 hu, (ht2 _).2 hv⟩),
        [(.field n f, .changeFieldType)], ?_, by simp⟩
      obtain ⟨k', hk', h5, h6, h7⟩ := member_type hu
      have := hs.types n k k' hk1 hk'
      subst this
      have hh := h7.2 (by simp)
      unfold fieldChanges
      simp only [hl]
      rcases hh with rfl | rfl | rfl <;> simp [huv]

/-- An argument of a field that exists in both documents is reported as added, removed or changed iff it
was. -/
theorem C54_arguments_partial (s t : Doc) (hs : Coherent s) (ht : Coherent t) (r : List Change)
    (hr : diff s t = some r) (n f a : Nat) (c : CK) :
    (.arg n f a, c) ∈ r ↔ (∃ u, HasMember s n f u) ∧ (∃ u, HasMember t n f u) ∧
      ((c = .addFieldArgument ∧ (∀ x, HasArg s n f x → x.name ≠ a) ∧ ∃ x, HasArg t n f x ∧ x.name = a) ∨
       (c = .removeFieldArgument ∧ (∃ x, HasArg s n f x ∧ x.name = a) ∧ ∀ x, HasArg t n f x → x.name ≠ a) ∨
       ∃ x y, HasArg s n f x ∧ HasArg t n f y ∧ x.name = a ∧ y.name = a ∧
         ((c = .changeFieldArgumentType ∧ x.ty ≠ y.ty) ∨
          (c = .addFieldArgumentDefault ∧ x.default = none ∧ y.default ≠ none) ∨
          (c = .removeFieldArgumentDefault ∧ x.default ≠ none ∧ y.default = none) ∨
          (c = .changeFieldArgumentDefault ∧ x.default ≠ none ∧ y.default ≠ none ∧ x.default ≠ y.default))) := by
  obtain ⟨r', hr', hm⟩ := diff_parts hs ht
  rw [hr] at hr'
  cases hr'
  rw [hm]
  have hs2 := fun u => member_iff (n := n) (f := f) (t := u) hs
  have ht2 := fun u => member_iff (n := n) (f := f) (t := u) ht
  have hs3 := fun v => arg_iff (n := n) (f := f) (a := a) (v := v) hs
  have ht3 := fun v => arg_iff (n := n) (f := f) (a := a) (v := v) ht
  have hdiff : ∀ x y : Arg, (Path.arg n f a, c) ∈ argDiff (.arg n f a) x y ↔
      ((c = .changeFieldArgumentType ∧ x.ty ≠ y.ty) ∨
          (c = .addFieldArgumentDefault ∧ x.default = none ∧ y.default ≠ none) ∨
          (c = .removeFieldArgumentDefault ∧ x.default ≠ none ∧ y.default = none) ∨
          (c = .changeFieldArgumentDefault ∧ x.default ≠ none ∧ y.default ≠ none ∧ x.default ≠ y.default)) := by
    intro x y
    obtain ⟨_, xt, xd⟩ := x
    obtain ⟨_, yt, yd⟩ := y
    unfold argDiff
    rw [List.mem_append]
    apply or_congr
    · by_cases h : xt = yt <;> simp [h]
    · cases xd <;> cases yd <;> simp
      rename_i p q
      by_cases h : p = q <;> simp [h]
  constructor
  · rintro (h | h | h | ⟨x, -, l, hl, hc⟩ | ⟨x, -, l, hl, hc⟩ | ⟨⟨⟨n', f', a'⟩, p, q⟩, hx, l, hl, hc⟩)
    · obtain ⟨k, h⟩ := schema_shape h; cases h
    · obtain ⟨k, h⟩ := ext_shape h; cases h
    · obtain ⟨_, _, _, h⟩ := impl_shape h; cases h
    · obtain ⟨k, h⟩ := def_shape hl hc; cases h
    · obtain ⟨k, h⟩ := field_shape hl hc; cases h
    · obtain ⟨k, h⟩ := arg_shape hl hc
      cases h
      obtain ⟨h0, h1, h2⟩ := args_mem.1 hx
      unfold argChanges at hl
      simp only at hl
      split at hl
      · cases hl
      · cases hl; cases hc
      · rename_i parent hnot hpar
        obtain ⟨pa, pb⟩ := parent
        obtain ⟨g0, g1, g2⟩ := fields_entry.1 hpar
        cases pa with
        | none =>
          cases pb with
          | none => exact absurd ⟨rfl, rfl⟩ g0
          | some v => exact (hnot v rfl).elim
        | some u =>
          have hsm := (hs2 u).1 g1
          split at hl
          · cases hl
          · rename_i y
            cases hl
            simp only [List.mem_singleton, Prod.mk.injEq, true_and] at hc
            have hy := (ht3 y).1 h2
            obtain ⟨v, hv⟩ := arg_member hy.1
            exact ⟨⟨u, hsm⟩, ⟨v, hv⟩, Or.inl ⟨hc, fun x hx1 hx2 => (none_iff hs3).1 h1 x ⟨hx1, hx2⟩, y, hy⟩⟩
          · rename_i x
            split at hl
            · rename_i hg
              cases hl
              simp only [List.mem_singleton, Prod.mk.injEq, true_and] at hc
              cases pb with
              | none => simp at hg
              | some v =>
                exact ⟨⟨u, hsm⟩, ⟨v, (ht2 v).1 g2⟩, Or.inr (Or.inl ⟨hc, ⟨x, (hs3 x).1 h1⟩,
                  fun y hy1 hy2 => (none_iff ht3).1 h2 y ⟨hy1, hy2⟩⟩)⟩
            · cases hl; cases hc
          · rename_i x y
            cases hl
            have hx := (hs3 x).1 h1
            have hy := (ht3 y).1 h2
            obtain ⟨v, hv⟩ := arg_member hy.1
            exact ⟨⟨u, hsm⟩, ⟨v, hv⟩, Or.inr (Or.inr ⟨x, y, hx.1, hy.1, hx.2, hy.2, (hdiff x y).1 hc⟩)⟩
  · rintro ⟨⟨u, hu⟩, ⟨v, hv⟩, h⟩
    refine Or.inr (Or.inr (Or.inr (Or.inr (Or.inr ?_))))
    have hl := fields_entry.2 ⟨by simp, (hs2 u).2 hu, (ht2 v).2 hv⟩
    rcases h with ⟨rfl, h1, y, hy⟩ | ⟨rfl, ⟨x, hx⟩, h2⟩ | ⟨x, y, hx, hy, hxa, hya, hc⟩
    · refine ⟨((n, f, a), none, some y), args_mem.2 ⟨by simp, (none_iff hs3).2 fun x hx => h1 x hx.1 hx.2, (ht3 y).2 hy⟩,
        [(.arg n f a, .addFieldArgument)], ?_, by simp⟩
      unfold argChanges
      simp only [hl]
    · refine ⟨((n, f, a), some x, none), args_mem.2 ⟨by simp, (hs3 x).2 hx, (none_iff ht3).2 fun y hy => h2 y hy.1 hy.2⟩,
        [(.arg n f a, .removeFieldArgument)], ?_, by simp⟩
      unfold argChanges
      simp [hl]
    · refine ⟨((n, f, a), some x, some y), args_mem.2 ⟨by simp, (hs3 x).2 ⟨hx, hxa⟩, (ht3 y).2 ⟨hy, hya⟩⟩,
        argDiff (.arg n f a) x y, ?_, (hdiff x y).2 hc⟩
      unfold argChanges
      simp only [hl]

/-- An interface is reported as gained or lost iff it was, for types whose interfaces are all given in one
place. -/
theorem C54_interfaces_partial (s t : Doc) (hs : Coherent s) (ht : Coherent t) (hs1 : OneImplClause s)
    (ht1 : OneImplClause t) (r : List Change) (hr : diff s t = some r) (n i : Nat) (c : CK) :
    (.impl n i, c) ∈ r ↔ ∃ is js, HasImpls s n is ∧ HasImpls t n js ∧
      ((c = .removeInterfaceImplementation ∧ i ∈ is ∧ i ∉ js) ∨
       (c = .addInterfaceImplementation ∧ i ∈ js ∧ i ∉ is)) := by
  obtain ⟨r', hr', hm⟩ := diff_parts hs ht
  rw [hr] at hr'
  cases hr'
  rw [hm]
  constructor
  · rintro (h | h | h | ⟨x, -, l, hl, hc⟩ | ⟨x, -, l, hl, hc⟩ | ⟨x, -, l, hl, hc⟩)
    · obtain ⟨k, h⟩ := schema_shape h; cases h
    · obtain ⟨k, h⟩ := ext_shape h; cases h
    · obtain ⟨⟨n', a, b⟩, hx, h⟩ := List.mem_flatMap.1 h
      obtain ⟨-, h1, h2⟩ := impls_mem.1 hx
      cases a <;> cases b <;> simp at h
      rename_i is js
      have hI := (impl_iff hs1).1 h1
      have hJ := (impl_iff ht1).1 h2
      rcases h with ⟨j, ⟨hj1, hj2⟩, ⟨rfl, rfl⟩, rfl⟩ | ⟨j, ⟨hj1, hj2⟩, ⟨rfl, rfl⟩, rfl⟩
      · exact ⟨is, js, hI, hJ, Or.inl ⟨rfl, hj1, hj2⟩⟩
      · exact ⟨is, js, hI, hJ, Or.inr ⟨rfl, hj1, hj2⟩⟩
    · obtain ⟨k, h⟩ := def_shape hl hc; cases h
    · obtain ⟨k, h⟩ := field_shape hl hc; cases h
    · obtain ⟨k, h⟩ := arg_shape hl hc; cases h
  · rintro ⟨is, js, hi, hj, h⟩
    refine Or.inr (Or.inr (Or.inl ?_))
    refine List.mem_flatMap.2 ⟨(n, some is, some js), impls_mem.2 ⟨by simp, (impl_iff hs1).2 hi, (impl_iff ht1).2 hj⟩, ?_⟩
    rcases h with ⟨rfl, h1, h2⟩ | ⟨rfl, h1, h2⟩
    · simp [h1, h2]
    · simp [h1, h2]

/-- Changes of the schema definition, for documents with at most one. -/
theorem C54_schema_partial (s t : Doc) (hs : Coherent s) (ht : Coherent t)
    (hs1 : ∀ a b, a ∈ s.schemas → b ∈ s.schemas → a = b) (ht1 : ∀ a b, a ∈ t.schemas → b ∈ t.schemas → a = b)
    (r : List Change) (hr : diff s t = some r) (c : CK) :
    (.schema, c) ∈ r ↔
      (c = .addSchemaDefinition ∧ (∀ q m u, .schema q m u ∉ s) ∧ ∃ q m u, .schema q m u ∈ t) ∨
      (c = .removeSchemaDefinition ∧ (∃ q m u, .schema q m u ∈ s) ∧ ∀ q m u, .schema q m u ∉ t) ∨
      ∃ q m u q' m' u', .schema q m u ∈ s ∧ .schema q' m' u' ∈ t ∧
        ((c = .changeQueryType ∧ q ≠ q') ∨ (c = .changeMutationType ∧ m ≠ m') ∨
          (c = .changeSubscriptionType ∧ u ≠ u')) := by
  obtain ⟨r', hr', hm⟩ := diff_parts hs ht
  rw [hr] at hr'
  cases hr'
  have hmem : ∀ (d : Doc) q m u, (q, m, u) ∈ d.schemas ↔ .schema q m u ∈ d := by
    intro d q m u
    simp only [Doc.schemas, List.mem_filterMap]
    constructor
    · rintro ⟨x, hx, h⟩
      cases x <;> simp at h
      obtain ⟨rfl, rfl, rfl⟩ := h
      exact hx
    · intro h; exact ⟨_, h, rfl⟩
  have hlast : ∀ d : Doc, (∀ a b, a ∈ d.schemas → b ∈ d.schemas → a = b) →
      ∀ v : Option Nat × Option Nat × Option Nat, d.schemas.getLast? = some v ↔ .schema v.1 v.2.1 v.2.2 ∈ d := by
    intro d hd v
    rw [← hmem]
    constructor
    · exact List.mem_of_getLast?
    · intro hv
      cases hl : d.schemas.getLast? with
      | none => rw [List.getLast?_eq_none_iff] at hl; rw [hl] at hv; cases hv
      | some w => rw [hd w v (List.mem_of_getLast? hl) hv]
  have hS := hlast s hs1
  have hT := hlast t ht1
  have hred : (Path.schema, c) ∈ r ↔ (Path.schema, c) ∈ schemaChanges (s.schemas.getLast?, t.schemas.getLast?) := by
    rw [hm, (traverse_schema s t).1]
    constructor
    · rintro (h | h | h | ⟨x, -, l, hl, hc⟩ | ⟨x, -, l, hl, hc⟩ | ⟨x, -, l, hl, hc⟩)
      · exact h
      · obtain ⟨k, h⟩ := ext_shape h; cases h
      · obtain ⟨_, _, _, h⟩ := impl_shape h; cases h
      · obtain ⟨k, h⟩ := def_shape hl hc; cases h
      · obtain ⟨k, h⟩ := field_shape hl hc; cases h
      · obtain ⟨k, h⟩ := arg_shape hl hc; cases h
    · exact Or.inl
  rw [hred]
  cases h1 : s.schemas.getLast? with
  | none =>
    have hn : ∀ q m u, Def.schema q m u ∉ s := fun q m u h => by
      have := (hS (q, m, u)).2 h; rw [h1] at this; cases this
    cases h2 : t.schemas.getLast? with
    | none =>
      have hn' : ∀ q m u, Def.schema q m u ∉ t := fun q m u h => by
        have := (hT (q, m, u)).2 h; rw [h2] at this; cases this
      simp [schemaChanges, hn, hn']
    | some v =>
      have hv := (hT v).1 h2
      simp only [schemaChanges, List.mem_singleton, Prod.mk.injEq, true_and]
      constructor
      · intro h; exact Or.inl ⟨h, hn, _, _, _, hv⟩
      · rintro (h | ⟨-, ⟨q, m, u, h⟩, -⟩ | ⟨q, m, u, _, _, _, h, -⟩)
        · exact h.1
        · exact absurd h (hn q m u)
        · exact absurd h (hn q m u)
  | some v =>
    have hv := (hS v).1 h1
    cases h2 : t.schemas.getLast? with
    | none =>
      have hn' : ∀ q m u, Def.schema q m u ∉ t := fun q m u h => by
        have := (hT (q, m, u)).2 h; rw [h2] at this; cases this
      simp only [schemaChanges, List.mem_singleton, Prod.mk.injEq, true_and]
      constructor
      · intro h; exact Or.inr (Or.inl ⟨h, ⟨_, _, _, hv⟩, hn'⟩)
      · rintro (⟨-, -, q, m, u, h⟩ | h | ⟨_, _, _, q, m, u, -, h, -⟩)
        · exact absurd h (hn' q m u)
        · exact h.1
        · exact absurd h (hn' q m u)
    | some w =>
      have hw := (hT w).1 h2
      simp only [schemaChanges, List.mem_append, or_assoc]
      constructor
      · intro h
        refine Or.inr (Or.inr ⟨_, _, _, _, _, _, hv, hw, ?_⟩)
        rcases h with h | h | h
        · split at h
          · simp at h; exact Or.inl ⟨h, by assumption⟩
          · cases h
        · split at h
          · simp at h; exact Or.inr (Or.inl ⟨h, by assumption⟩)
          · cases h
        · split at h
          · simp at h; exact Or.inr (Or.inr ⟨h, by assumption⟩)
          · cases h
      · rintro (⟨-, h, -⟩ | ⟨-, -, h⟩ | ⟨q, m, u, q', m', u', hq, hq', h⟩)
        · exact absurd hv (h _ _ _)
        · exact absurd hw (h _ _ _)
        · have e1 := (hS (q, m, u)).2 hq
          have e2 := (hT (q', m', u')).2 hq'
          rw [h1] at e1
          rw [h2] at e2
          cases e1
          cases e2
          rcases h with ⟨rfl, h⟩ | ⟨rfl, h⟩ | ⟨rfl, h⟩ <;> simp [h]

/-- Schema extensions are only counted, and a surplus is always reported for the first one. -/
theorem C54_extensions_partial (s t : Doc) (hs : Coherent s) (ht : Coherent t) (r : List Change)
    (hr : diff s t = some r) (i : Nat) (c : CK) :
    (.schemaExt i, c) ∈ r ↔ i = 0 ∧
      ((c = .addSchemaExtension ∧ s.count .schemaExt < t.count .schemaExt) ∨
       (c = .removeSchemaExtension ∧ t.count .schemaExt < s.count .schemaExt)) := by
  obtain ⟨r', hr', hm⟩ := diff_parts hs ht
  rw [hr] at hr'
  cases hr'
  have hred : (Path.schemaExt i, c) ∈ r ↔
      (Path.schemaExt i, c) ∈ schemaExtChanges (extPairs (s.count .schemaExt) (t.count .schemaExt)) := by
    rw [hm, (traverse_schema s t).2]
    constructor
    · rintro (h | h | h | ⟨x, -, l, hl, hc⟩ | ⟨x, -, l, hl, hc⟩ | ⟨x, -, l, hl, hc⟩)
      · obtain ⟨k, h⟩ := schema_shape h; cases h
      · exact h
      · obtain ⟨_, _, _, h⟩ := impl_shape h; cases h
      · obtain ⟨k, h⟩ := def_shape hl hc; cases h
      · obtain ⟨k, h⟩ := field_shape hl hc; cases h
      · obtain ⟨k, h⟩ := arg_shape hl hc; cases h
    · exact fun h => Or.inr (Or.inl h)
  rw [hred]
  generalize s.count .schemaExt = a
  generalize t.count .schemaExt = b
  simp only [schemaExtChanges, extPairs, List.mem_flatMap, List.mem_map, List.mem_range]
  constructor
  · rintro ⟨x, ⟨j, hj, rfl⟩, h⟩
    by_cases h1 : j < a <;> by_cases h2 : j < b <;> simp [h1, h2] at h
    · exact ⟨h.1, Or.inr ⟨h.2, by omega⟩⟩
    · exact ⟨h.1, Or.inl ⟨h.2, by omega⟩⟩
  · rintro ⟨rfl, ⟨rfl, h⟩ | ⟨rfl, h⟩⟩
    · exact ⟨_, ⟨a, by omega, rfl⟩, by simp [h]⟩
    · exact ⟨_, ⟨b, by omega, rfl⟩, by simp [h]⟩

/-- **The claim is false**: a directive and a type may share a name, but they share one entry of the map,
so that a field of the type is looked up as a field of a directive, and the differ panics. -/
theorem C54_false_crash :
    diff [.object 1 [] [⟨2, 3, []⟩], .directive 1] [.object 1 [] [⟨2, 3, []⟩], .directive 1] = none := by
  decide

/-- **The claim is false**: a type extension overwrites the interfaces of the type it extends, so that the
removal of an interface from the type is not reported. -/
theorem C54_false_interfaces :
    diff [.object 1 [7] [⟨2, 3, []⟩], .object 1 [] [⟨4, 3, []⟩]] [.object 1 [] [⟨2, 3, []⟩], .object 1 [] [⟨4, 3, []⟩]] =
      some [] := by
  decide

/-! A pair of documents that meets the hypotheses, with several changes; the second has an extension. -/
def src : Doc := [.object 1 [7] [⟨2, 3, [⟨9, 3, none⟩]⟩, ⟨4, 3, []⟩], .enum 5 [20, 21], .schema (some 1) none none]
def tgt : Doc := [.object 1 [] [⟨2, 6, [⟨9, 3, some 1⟩]⟩], .enum 5 [20], .enum 5 [22], .scalar 8, .schema (some 1) (some 2) none]

example : diff src tgt = some [(.schema, .changeMutationType), (.impl 1 7, .removeInterfaceImplementation),
    (.type 8, .addScalar),
    (.field 1 4, .removeField), (.field 5 21, .removeEnumValue), (.field 1 2, .changeFieldType),
    (.field 5 22, .addEnumValue), (.arg 1 2 9, .addFieldArgumentDefault)] := by
  decide

theorem coherent_of {d : Doc} (h1 : ∀ x ∈ d.flatMap Def.types, ∀ y ∈ d.flatMap Def.types, x.1 = y.1 → x.2 = y.2)
    (h2 : ∀ x ∈ d.flatMap Def.members, ∀ y ∈ d.flatMap Def.members, x.1 = y.1 → x.2 = y.2)
    (h3 : ∀ x ∈ d.flatMap Def.args, ∀ y ∈ d.flatMap Def.args, x.1 = y.1 → x.2 = y.2) : Coherent d where
  types n j k hj hk := h1 _ (hasType_mem.1 hj) _ (hasType_mem.1 hk) rfl
  members n f t u ht hu := h2 _ (hasMember_mem.1 ht) _ (hasMember_mem.1 hu) rfl
  args n f a b ha hb hab := by
    obtain ⟨x, hx, hxa⟩ := ha
    obtain ⟨y, hy, hyb⟩ := hb
    exact h3 _ (List.mem_flatMap.2 ⟨x, hx, hxa⟩) _ (List.mem_flatMap.2 ⟨y, hy, hyb⟩) (by rw [hab])

example : Coherent src ∧ Coherent tgt :=
  ⟨coherent_of (by decide) (by decide) (by decide), coherent_of (by decide) (by decide) (by decide)⟩

example : OneImplClause src ∧ OneImplClause tgt := by
  constructor <;>
  · intro n is js hi hj
    have h : ∀ d : Doc, (∀ x ∈ d.flatMap Def.impls, ∀ y ∈ d.flatMap Def.impls, x.1 = y.1 → x.2 = y.2) →
        HasImpls d n is → HasImpls d n js → is = js :=
      fun d hd h1 h2 => hd _ (hasImpls_mem.1 h1) _ (hasImpls_mem.1 h2) rfl
    exact h _ (by decide) hi hj

end Verif.SchemaDiff
