import Verif.Derived.Lemmas

namespace Verif.Derived

theorem listDerive_null (table : Table) (o : Outer) (b : Batch) (path : Path) (st : St) :
    listDerive table o b path .null st = some (.null, st) := rfl

theorem missing_reports (path : Path) (had : List RField) : ∀ (ps : List Plain) (propagated : Bool) (fields : List RField) (st : St),
    Reports (missingTold path had ps propagated) st (missing path had ps propagated fields st).2
  | [], propagated, fields, st => by
    have : missingTold path had [] propagated = .nothing := by
      unfold missingTold
      simp [told_nothing]
    rw [this]
    exact .refl st
  | p :: ps, propagated, fields, st => by
    rw [missing]
    have hany : (had.any (fun f => decide (f.key = p.key))) = false ↔ ∀ f ∈ had, f.key ≠ p.key := by
      rw [List.any_eq_false]
      simp
    have skip : ¬ (p.present = true ∧ p.nonNull = true ∧ p.key.pos ≠ none ∧ ∀ f ∈ had, f.key ≠ p.key) →
        missingTold path had (p :: ps) propagated = missingTold path had ps propagated := by
      intro h
      unfold missingTold
      rw [List.filter_cons, if_neg (by simpa using h)]
    by_cases h1 : (p.present && !had.any (fun f => decide (f.key = p.key))) = true
    · rw [if_pos h1]
      simp only [Bool.and_eq_true, Bool.not_eq_true'] at h1
      have h2 := hany.mp h1.2
      by_cases hn : p.nonNull = true
      · rw [if_pos hn]
        by_cases hk : p.key.pos.isSome = true
        · rw [if_pos hk]
          have hk' : p.key.pos ≠ none := by
            intro h
            rw [h] at hk
            cases hk
          have here : missingTold path had (p :: ps) propagated =
              (told path [⟨.invalidResponse, path, some p.key.name⟩] (if propagated then 0 else 1)).and (missingTold path had ps true) := by
            unfold missingTold
            simp only [told_and]
            rw [List.filter_cons, if_pos (by simpa using ⟨h1.1, hn, hk', h2⟩)]
            cases propagated <;> simp
          rw [here]
          refine Reports.trans ?_ (missing_reports path had ps true fields _)
          cases propagated with
          | true => exact (pushError_reports path _ st).1
          | false =>
            have := (propagate_reports path st).1.trans (pushError_reports path ⟨.invalidResponse, path, some p.key.name⟩ (propagate path st)).1
            rw [told_and] at this
            exact this
        · rw [if_neg hk, skip (by
            rintro ⟨_, _, h, _⟩
            apply hk
            cases hp : p.key.pos with
            | none => exact absurd hp h
            | some _ => rfl)]
          exact missing_reports path had ps propagated fields st
      · rw [if_neg hn, skip (fun h => hn h.2.1)]
        exact missing_reports path had ps propagated _ st
    · rw [if_neg h1, skip (by
        rintro ⟨h, _, _, h2⟩
        apply h1
        rw [h, hany.mpr h2]
        rfl)]
      exact missing_reports path had ps propagated fields st

theorem shapeErrors_spec (path : Path) (key : Nat) (nonNull : Bool) : ∀ (es : List Nat) (propagated : Bool) (st : St),
    (shapeErrors path key nonNull es propagated st).1 = (propagated || (nonNull && !es.isEmpty)) ∧
    ∃ errs, (shapeErrors path key nonNull es propagated st).2.errors = st.errors ++ errs ∧
      errs = es.map (fun e => ⟨.query e, path, some key⟩) ∧ (shapeErrors path key nonNull es propagated st).2.hidden = st.hidden
  | [], propagated, st => by simp [shapeErrors]
  | e :: es, propagated, st => by
    rw [shapeErrors]
    have hp := (propagate_reports path (pushError ⟨.query e, path, some key⟩ st)).1
    have he : (propagate path (pushError ⟨.query e, path, some key⟩ st)).errors = st.errors ++ [⟨.query e, path, some key⟩] := by
      rw [hp.errors]
      unfold told
      cases deepest path <;> simp [pushError]
    by_cases h : (!propagated && nonNull) = true
    · rw [if_pos h]
      obtain ⟨h1, errs, h2, h3, h4⟩ := shapeErrors_spec path key nonNull es true (propagate path (pushError ⟨.query e, path, some key⟩ st))
      refine ⟨?_, _, ?_, rfl, ?_⟩
      · rw [h1]
        cases propagated <;> cases nonNull <;> simp at h ⊢
      · rw [h2, he, h3]
        simp
      · rw [h4, hp.hidden]
        rfl
    · rw [if_neg h]
      obtain ⟨h1, errs, h2, h3, h4⟩ := shapeErrors_spec path key nonNull es propagated (pushError ⟨.query e, path, some key⟩ st)
      refine ⟨?_, _, ?_, rfl, ?_⟩
      · rw [h1]
        cases propagated <;> cases nonNull <;> simp at h ⊢
      · rw [h2, h3]
        simp [pushError]
      · rw [h4]
        rfl

theorem shapeErrors_nulls (path : Path) (key : Nat) (nonNull : Bool) : ∀ (es : List Nat) (propagated : Bool) (st : St),
    (shapeErrors path key nonNull es propagated st).2.nulls = st.nulls ++ (told path [] (if propagated = false ∧ nonNull = true ∧ es ≠ [] then 1 else 0)).nulls ∧
    (shapeErrors path key nonNull es propagated st).2.root = (st.root || (told path [] (if propagated = false ∧ nonNull = true ∧ es ≠ [] then 1 else 0)).root)
  | [], propagated, st => by
    simp [shapeErrors, told_nothing, Told.nothing]
  | e :: es, propagated, st => by
    rw [shapeErrors]
    by_cases h : (!propagated && nonNull) = true
    · rw [if_pos h]
      have ih := shapeErrors_nulls path key nonNull es true (propagate path (pushError ⟨.query e, path, some key⟩ st))
      have hp := (propagate_reports path (pushError ⟨.query e, path, some key⟩ st)).1
      simp only [Bool.true_eq_false, false_and, if_false, told_nothing, Told.nothing, List.append_nil, Bool.or_false] at ih
      rw [if_pos (by simpa using h), ih.1, ih.2, hp.nulls, hp.root]
      exact ⟨rfl, rfl⟩
    · rw [if_neg h]
      have ih := shapeErrors_nulls path key nonNull es propagated (pushError ⟨.query e, path, some key⟩ st)
      have hno : ¬ (propagated = false ∧ nonNull = true) := by simpa using h
      rw [if_neg (fun k => hno ⟨k.1, k.2.1⟩)] at ih ⊢
      exact ih

/-- What is said of the errors of fields. -/
theorem handleErrors_spec (path : Path) (table : Table) : ∀ (fs : List (Nat × Key × Bool)) (propagated : Bool) (fields : List RField) (st : St),
    ((handleErrors path table fs propagated fields st).1 = true ↔ propagated = true ∨ ∃ f ∈ fs, f.2.2 = true ∧ queryErrs table f.1 ≠ []) ∧
    (handleErrors path table fs propagated fields st).2.2.errors = st.errors ++
      fs.flatMap (fun f => (queryErrs table f.1).map (fun e => ⟨.query e, path, some f.2.1.name⟩)) ∧
    (handleErrors path table fs propagated fields st).2.2.nulls = st.nulls ++ (shapesTold path table fs propagated).nulls ∧
    (handleErrors path table fs propagated fields st).2.2.root = (st.root || (shapesTold path table fs propagated).root)
  | [], propagated, fields, st => by
    simp [handleErrors, shapesTold, told_nothing, Told.nothing]
  | (id, key, nonNull) :: fs, propagated, fields, st => by
    rw [handleErrors]
    simp only [findAll_query]
    have hs := shapeErrors_spec path key.name nonNull (queryErrs table id) propagated st
    have hn := shapeErrors_nulls path key.name nonNull (queryErrs table id) propagated st
    generalize hr : shapeErrors path key.name nonNull (queryErrs table id) propagated st = r at hs hn
    obtain ⟨h1, errs, h2, h3, h4⟩ := hs
    have hide : ∀ s : St, (hideField key fields s).2.errors = s.errors ∧ (hideField key fields s).2.nulls = s.nulls ∧ (hideField key fields s).2.root = s.root := by
      intro s
      unfold hideField
      cases fields.find? (fun f => decide (f.key = key)) <;> exact ⟨rfl, rfl, rfl⟩
    have hh : ∃ h : List RField × St, (if (queryErrs table id).isEmpty = true then (fields, r.2) else hideField key fields r.2) = h ∧
        h.2.errors = r.2.errors ∧ h.2.nulls = r.2.nulls ∧ h.2.root = r.2.root := by
      refine ⟨_, rfl, ?_⟩
      split
      · exact ⟨rfl, rfl, rfl⟩
      · exact hide r.2
    obtain ⟨h, e, g1, g2, g3⟩ := hh
    rw [e]
    obtain ⟨i1, i2, i3, i4⟩ := handleErrors_spec path table fs r.1 h.1 h.2
    have hnull : (told path ([] : List Err) (if propagated = false ∧ nonNull = true ∧ queryErrs table id ≠ [] then 1 else 0)).nulls ++
          (shapesTold path table fs r.1).nulls = (shapesTold path table ((id, key, nonNull) :: fs) propagated).nulls ∧
        ((told path ([] : List Err) (if propagated = false ∧ nonNull = true ∧ queryErrs table id ≠ [] then 1 else 0)).root ||
          (shapesTold path table fs r.1).root) = (shapesTold path table ((id, key, nonNull) :: fs) propagated).root := by
      have hb : r.1 = true ↔ propagated = true ∨ (nonNull = true ∧ queryErrs table id ≠ []) := by
        rw [h1]
        cases propagated <;> cases nonNull <;> simp
      have count : (if propagated = false ∧ nonNull = true ∧ queryErrs table id ≠ [] then 1 else 0) +
          (if r.1 = true ∨ ∀ f ∈ fs, f.2.2 = true → queryErrs table f.1 = [] then 0 else 1) =
          (if propagated = true ∨ ∀ f ∈ (id, key, nonNull) :: fs, f.2.2 = true → queryErrs table f.1 = [] then 0 else 1) := by
        simp only [List.forall_mem_cons]
        clear hn i1 i2 i3 i4 hr h1
        have key : ∀ A : Prop, ∀ [Decidable A],
            (if propagated = false ∧ nonNull = true ∧ queryErrs table id ≠ [] then 1 else 0) + (if r.1 = true ∨ A then 0 else 1) =
            (if propagated = true ∨ (nonNull = true → queryErrs table id = []) ∧ A then 0 else 1) := by
          intro A _
          by_cases hA : A <;> cases hr1 : r.1 <;> rw [hr1] at hb <;>
            cases propagated <;> cases nonNull <;> by_cases hq : queryErrs table id = [] <;> simp_all
        have := key (∀ f ∈ fs, f.2.2 = true → queryErrs table f.1 = [])
        exact this
      have := told_and path [] (fs.flatMap (fun f => (queryErrs table f.1).map (fun e => ⟨.query e, path, some f.2.1.name⟩)))
        (if propagated = false ∧ nonNull = true ∧ queryErrs table id ≠ [] then 1 else 0)
        (if r.1 = true ∨ ∀ f ∈ fs, f.2.2 = true → queryErrs table f.1 = [] then 0 else 1)
      rw [count] at this
      unfold shapesTold
      have n1 := congrArg Told.nulls this
      have n2 := congrArg Told.root this
      refine ⟨?_, ?_⟩
      · refine n1.trans ?_
        unfold told
        cases deepest path <;> rfl
      · refine n2.trans ?_
        unfold told
        cases deepest path <;> rfl
    refine ⟨?_, ?_, ?_, ?_⟩
    · rw [i1, h1]
      cases propagated <;> cases nonNull <;> simp
    · rw [i2, g1, h2, h3, List.flatMap_cons, List.append_assoc]
    · rw [i3, g2, hn.1, List.append_assoc, hnull.1]
    · rw [i4, g3, hn.2, Bool.or_assoc, hnull.2]

/-- The keys of the derived fields are put at the end. -/
theorem deriveAll_keys (path : Path) (parent : Nat) (table : Table) : ∀ (os : List Outer) (rest : Table) (fields : List RField) (st : St)
    (fields' : List RField) (st' : St), deriveAll path parent os table rest fields st = some (fields', st') →
    ∃ more, fields' = fields ++ more ∧ more.map RField.key = (os.filter (fun o => o.present)).map Outer.key
  | [], rest, fields, st, fields', st', h => by
    rw [deriveAll] at h
    cases h
    exact ⟨[], by simp, rfl⟩
  | o :: os, rest, fields, st, fields', st', h => by
    rw [deriveAll] at h
    rw [List.filter_cons]
    by_cases hp : o.present = true
    · rw [if_pos hp] at h ⊢
      split at h
      · cases h
      · rename_i fs s hi
        unfold ingest at hi
        simp only [Option.map_eq_some_iff, Prod.mk.injEq] at hi
        obtain ⟨x, hx, rfl, rfl⟩ := hi
        obtain ⟨more, h1, h2⟩ := deriveAll_keys path parent table os _ _ _ _ _ h
        refine ⟨⟨o.key, x.1⟩ :: more, ?_, ?_⟩
        · rw [h1, List.append_assoc]
          rfl
        · rw [List.map_cons, List.map_cons, h2]
    · rw [if_neg hp] at h
      obtain ⟨more, h1, h2⟩ := deriveAll_keys path parent table os _ _ _ _ _ h
      refine ⟨more, h1, ?_⟩
      rw [if_neg hp, h2]

/-- The errors of the query for the derived fields are told. -/
theorem deriveAll_absent (path : Path) (parent : Nat) (table : Table) : ∀ (os : List Outer) (rest : Table) (fields : List RField) (st : St),
    (∀ o ∈ os, o.present = false) → Sorted rest → os.Pairwise (fun a b => a.id < b.id) →
    ∃ st', deriveAll path parent os table rest fields st = some (fields, st') ∧
      Reports (os.foldr (fun o t => (told path ((queryErrs rest o.id).map (fun e => ⟨.query e, path, some o.key.name⟩))
        (if o.nonNull then (queryErrs rest o.id).length else 0)).and t) .nothing) st st'
  | [], rest, fields, st, _, _, _ => ⟨st, rfl, .refl st⟩
  | o :: os, rest, fields, st, ha, hs, hp => by
    rw [List.pairwise_cons] at hp
    obtain ⟨t1, t2, t3⟩ := takeErrors_spec o.id rest hs
    have p := pushErrors_reports path o.key.name o.nonNull (takeErrors o.id rest).1 st
    obtain ⟨s, e, r⟩ := deriveAll_absent path parent table os (takeErrors o.id rest).2 fields
      (pushErrors path o.key.name o.nonNull (takeErrors o.id rest).1 st) (fun x hx => ha x (List.mem_cons_of_mem _ hx)) t2 hp.2
    refine ⟨s, ?_, ?_⟩
    · rw [deriveAll]
      rw [if_neg (by rw [ha o List.mem_cons_self]; simp)]
      exact e
    · rw [List.foldr_cons]
      have := p.1.trans r
      rw [t1] at this
      have hfold : ∀ l : List Outer, (∀ x ∈ l, o.id < x.id) →
          l.foldr (fun o' t => (told path ((queryErrs (takeErrors o.id rest).2 o'.id).map (fun e => ⟨.query e, path, some o'.key.name⟩))
            (if o'.nonNull then (queryErrs (takeErrors o.id rest).2 o'.id).length else 0)).and t) Told.nothing =
          l.foldr (fun o' t => (told path ((queryErrs rest o'.id).map (fun e => ⟨.query e, path, some o'.key.name⟩))
            (if o'.nonNull then (queryErrs rest o'.id).length else 0)).and t) Told.nothing := by
        intro l hl
        induction l with
        | nil => rfl
        | cons x l ih =>
          rw [List.foldr_cons, List.foldr_cons, ih (fun y hy => hl y (List.mem_cons_of_mem _ hy)), t3 x.id (hl x List.mem_cons_self)]
      rw [hfold os hp.1] at this
      exact this

theorem valueAt_find (k : Key) : ∀ fields : List RField, (fields.find? (fun f => decide (f.key = k))).map RField.value = valueAt k fields
  | [] => rfl
  | f :: fields => by
    rw [List.find?_cons, valueAt]
    by_cases h : f.key = k
    · simp [h]
    · rw [if_neg h, ← valueAt_find k fields]
      simp [h]

theorem valueAt_append (k : Key) (b : List RField) : ∀ a : List RField, valueAt k (a ++ b) = (valueAt k a).or (valueAt k b)
  | [] => rfl
  | f :: a => by
    rw [List.cons_append, valueAt, valueAt, valueAt_append k b a]
    split <;> rfl

theorem valueAt_setFirst (k k' : Key) (v : Value) : ∀ fields : List RField,
    valueAt k' (setFirst k v fields) = if k' = k then (valueAt k fields).map (fun _ => v) else valueAt k' fields
  | [] => by simp [setFirst, valueAt]
  | f :: fields => by
    rw [setFirst]
    by_cases h : f.key = k
    · rw [if_pos h, valueAt, valueAt, valueAt]
      simp only [h]
      by_cases e : k' = k
      · simp [e]
      · simp [e, Ne.symm e]
    · rw [if_neg h, valueAt, valueAt, valueAt, valueAt_setFirst k k' v fields]
      by_cases e : k' = k
      · subst e
        simp [h]
      · simp [e]

theorem hideField_spec (k : Key) (fields : List RField) (st : St) :
    (∀ k', k' ≠ k → valueAt k' (hideField k fields st).1 = valueAt k' fields) ∧
    (valueAt k fields = none → valueAt k (hideField k fields st).1 = some .null) ∧
    (∀ v, valueAt k fields = some v → ∃ n, valueAt k (hideField k fields st).1 = some (.inaccessible n) ∧
      (hideField k fields st).2.hidden[n]? = some v) ∧
    ∃ more, (hideField k fields st).2.hidden = st.hidden ++ more := by
  unfold hideField
  have hv := valueAt_find k fields
  cases hf : fields.find? (fun f => decide (f.key = k)) with
  | none =>
    rw [hf] at hv
    simp only [Option.map_none] at hv
    refine ⟨?_, ?_, ?_, [], by simp⟩
    · intro k' hk
      simp [valueAt_append, valueAt, Ne.symm hk]
    · intro _
      simp [valueAt_append, valueAt, ← hv]
    · intro v h
      rw [← hv] at h
      cases h
  | some f =>
    rw [hf] at hv
    simp only [Option.map_some] at hv
    refine ⟨?_, ?_, ?_, [f.value], rfl⟩
    · intro k' hk
      simp [valueAt_setFirst, hk]
    · intro h
      rw [← hv] at h
      cases h
    · intro v h
      rw [← hv] at h
      cases h
      exact ⟨st.hidden.length, by simp [valueAt_setFirst, ← hv], by simp⟩

/-- The fields with errors are hidden. -/
theorem handleErrors_fields (path : Path) (table : Table) : ∀ (fs : List (Nat × Key × Bool)) (propagated : Bool) (fields : List RField) (st : St),
    (fs.map (fun f => f.2.1)).Nodup →
    (∀ k, (∀ f ∈ fs, f.2.1 = k → queryErrs table f.1 = []) → valueAt k (handleErrors path table fs propagated fields st).2.1 = valueAt k fields) ∧
    (∀ f ∈ fs, queryErrs table f.1 ≠ [] → valueAt f.2.1 fields = none →
      valueAt f.2.1 (handleErrors path table fs propagated fields st).2.1 = some .null) ∧
    (∀ f ∈ fs, queryErrs table f.1 ≠ [] → ∀ v, valueAt f.2.1 fields = some v →
      ∃ n, valueAt f.2.1 (handleErrors path table fs propagated fields st).2.1 = some (.inaccessible n) ∧
        (handleErrors path table fs propagated fields st).2.2.hidden[n]? = some v) ∧
    ∃ more, (handleErrors path table fs propagated fields st).2.2.hidden = st.hidden ++ more
  | [], propagated, fields, st, _ => by
    refine ⟨fun _ _ => rfl, ?_, ?_, [], ?_⟩
    · intro f hf
      cases hf
    · intro f hf
      cases hf
    · simp [handleErrors]
  | (id, key, nonNull) :: fs, propagated, fields, st, hd => by
    rw [List.map_cons, List.nodup_cons] at hd
    have hnot : ∀ f ∈ fs, f.2.1 ≠ key := fun f hf e => hd.1 (List.mem_map.mpr ⟨f, hf, e⟩)
    rw [handleErrors]
    simp only [findAll_query]
    obtain ⟨h1, errs, h2, h3, h4⟩ := shapeErrors_spec path key.name nonNull (queryErrs table id) propagated st
    generalize shapeErrors path key.name nonNull (queryErrs table id) propagated st = r at h1 h2 h3 h4
    by_cases hq : queryErrs table id = []
    · rw [if_pos (by rw [hq]; rfl)]
      obtain ⟨i1, i2, i3, more, i4⟩ := handleErrors_fields path table fs r.1 fields r.2 hd.2
      refine ⟨?_, ?_, ?_, more, by rw [i4, h4]⟩
      · intro k hk
        exact i1 k (fun f hf => hk f (List.mem_cons_of_mem _ hf))
      · intro f hf he
        rcases List.mem_cons.mp hf with e | hf'
        · rw [e] at he
          exact absurd hq he
        · exact i2 f hf' he
      · intro f hf he
        rcases List.mem_cons.mp hf with e | hf'
        · rw [e] at he
          exact absurd hq he
        · exact i3 f hf' he
    · rw [if_neg (by simpa using hq)]
      obtain ⟨g1, g2, g3, new, g4⟩ := hideField_spec key fields r.2
      obtain ⟨i1, i2, i3, more, i4⟩ := handleErrors_fields path table fs r.1 (hideField key fields r.2).1 (hideField key fields r.2).2 hd.2
      have here := i1 key (fun f hf e => absurd e (hnot f hf))
      refine ⟨?_, ?_, ?_, new ++ more, by rw [i4, g4, h4, List.append_assoc]⟩
      · intro k hk
        rw [i1 k (fun f hf => hk f (List.mem_cons_of_mem _ hf))]
        apply g1
        intro e
        exact hq (hk (id, key, nonNull) List.mem_cons_self e.symm)
      · intro f hf he hv
        rcases List.mem_cons.mp hf with e | hf'
        · subst e
          exact here.trans (g2 hv)
        · exact i2 f hf' he ((g1 _ (hnot f hf')).trans hv)
      · intro f hf he v hv
        rcases List.mem_cons.mp hf with e | hf'
        · subst e
          obtain ⟨n, n1, n2⟩ := g3 v hv
          refine ⟨n, here.trans n1, ?_⟩
          rw [i4, List.getElem?_append_left]
          · exact n2
          · exact (List.getElem?_eq_some_iff.mp n2).1
        · exact i3 f hf' he v ((g1 _ (hnot f hf')).trans hv)

end Verif.Derived
