import Verif.Derived.Spec

namespace Verif.Derived

/-! ## Sources -/

theorem lookup_under : ∀ (src : List RField) (n : Nat), lookup src n = under src n
  | [], _ => rfl
  | f :: src, n => by
    unfold lookup
    rw [under, List.find?_cons]
    by_cases h : f.key.name = n
    · simp [h]
    · simp only [h, decide_false, if_false]
      exact lookup_under src n

/-! ## Order -/

theorem le_total (a b : Key) : a.le b = true ∨ b.le a = true := by
  obtain ⟨p, m⟩ := a
  obtain ⟨q, n⟩ := b
  cases p <;> cases q <;> simp [Key.le]
  · omega
  · omega

theorem le_trans {a b c : Key} (h : a.le b = true) (k : b.le c = true) : a.le c = true := by
  obtain ⟨p, m⟩ := a
  obtain ⟨q, n⟩ := b
  obtain ⟨r, o⟩ := c
  cases p <;> cases q <;> cases r <;> simp [Key.le] at h k ⊢
  · omega
  · omega

theorem before_of_le {a b : Key} (h : a.le b = true) (hn : a ≠ b) : Before a b := by
  obtain ⟨p, m⟩ := a
  obtain ⟨q, n⟩ := b
  cases p <;> cases q <;> simp [Key.le, Before] at h hn ⊢
  · omega
  · omega

theorem mem_insertKey {f x : RField} : ∀ {l : List RField}, x ∈ insertKey f l ↔ x = f ∨ x ∈ l
  | [] => by simp [insertKey]
  | g :: l => by
    rw [insertKey]
    split
    · simp
    · rw [List.mem_cons, mem_insertKey (l := l), List.mem_cons]
      constructor
      · rintro (h | h | h)
        · exact Or.inr (Or.inl h)
        · exact Or.inl h
        · exact Or.inr (Or.inr h)
      · rintro (h | h | h)
        · exact Or.inr (Or.inl h)
        · exact Or.inl h
        · exact Or.inr (Or.inr h)

theorem mem_sortKeys {x : RField} : ∀ {l : List RField}, x ∈ sortKeys l ↔ x ∈ l
  | [] => by simp [sortKeys]
  | f :: l => by rw [sortKeys, mem_insertKey, mem_sortKeys, List.mem_cons]

theorem insertKey_sorted (f : RField) : ∀ {l : List RField}, l.Pairwise (fun a b => a.key.le b.key = true) →
    (insertKey f l).Pairwise (fun a b => a.key.le b.key = true)
  | [], _ => by simp [insertKey]
  | g :: l, h => by
    rw [insertKey]
    rw [List.pairwise_cons] at h
    split
    · rename_i hfg
      rw [List.pairwise_cons]
      refine ⟨?_, List.pairwise_cons.mpr h⟩
      intro x hx
      rcases List.mem_cons.mp hx with rfl | hx
      · exact hfg
      · exact le_trans hfg (h.1 x hx)
    · rename_i hfg
      rw [List.pairwise_cons]
      refine ⟨?_, insertKey_sorted f h.2⟩
      intro x hx
      rcases mem_insertKey.mp hx with rfl | hx
      · exact (le_total g.key x.key).resolve_right hfg
      · exact h.1 x hx

theorem sortKeys_sorted : ∀ l : List RField, (sortKeys l).Pairwise (fun a b => a.key.le b.key = true)
  | [] => List.Pairwise.nil
  | f :: l => by rw [sortKeys]; exact insertKey_sorted f (sortKeys_sorted l)

theorem insertKey_nodup {f : RField} : ∀ {l : List RField}, (l.map RField.key).Nodup → f.key ∉ l.map RField.key →
    ((insertKey f l).map RField.key).Nodup
  | [], _, _ => by simp [insertKey]
  | g :: l, h, hf => by
    rw [insertKey]
    split
    · rw [List.map_cons, List.nodup_cons]
      exact ⟨hf, h⟩
    · rw [List.map_cons, List.nodup_cons] at h ⊢
      rw [List.map_cons, List.mem_cons, not_or] at hf
      refine ⟨?_, insertKey_nodup h.2 hf.2⟩
      intro hm
      obtain ⟨x, hx, e⟩ := List.mem_map.mp hm
      rcases mem_insertKey.mp hx with rfl | hx
      · exact hf.1 e
      · exact h.1 (e ▸ List.mem_map_of_mem hx)

theorem sortKeys_nodup : ∀ {l : List RField}, (l.map RField.key).Nodup → ((sortKeys l).map RField.key).Nodup
  | [], _ => by simp [sortKeys]
  | f :: l, h => by
    rw [List.map_cons, List.nodup_cons] at h
    rw [sortKeys]
    refine insertKey_nodup (sortKeys_nodup h.2) ?_
    intro hm
    obtain ⟨x, hx, e⟩ := List.mem_map.mp hm
    exact h.1 (e ▸ List.mem_map_of_mem (mem_sortKeys.mp hx))

theorem ordered_sortKeys {l : List RField} (h : (l.map RField.key).Nodup) : (sortKeys l).Pairwise (fun a b => Before a.key b.key) := by
  have h1 := sortKeys_sorted l
  have h2 := sortKeys_nodup h
  unfold List.Nodup at h2
  rw [List.pairwise_map] at h2
  exact (h1.and h2).imp (fun h => before_of_le h.1 h.2)

/-! ## Reports -/

theorem Reports.refl (st : St) : Reports .nothing st st := ⟨by simp [Told.nothing], by simp [Told.nothing], by simp [Told.nothing], rfl, rfl⟩

theorem Reports.trans {a b : Told} {s t u : St} (h : Reports a s t) (k : Reports b t u) : Reports (a.and b) s u :=
  ⟨by rw [k.errors, h.errors, List.append_assoc]; rfl, by rw [k.nulls, h.nulls, List.append_assoc]; rfl,
    by rw [k.root, h.root, Bool.or_assoc]; rfl, k.lists.trans h.lists, k.hidden.trans h.hidden⟩

theorem told_and (path : Path) (a b : List Err) (m n : Nat) : (told path a m).and (told path b n) = told path (a ++ b) (m + n) := by
  unfold told Told.and
  cases deepest path with
  | some s => simp [List.replicate_append_replicate]
  | none =>
    simp only [List.append_nil, Told.mk.injEq, true_and]
    by_cases h : 0 < m <;> by_cases k : 0 < n <;> simp [h, k] <;> omega

theorem told_nothing (path : Path) : told path [] 0 = .nothing := by
  unfold told Told.nothing
  cases deepest path <;> rfl

theorem nothing_and (a : Told) : Told.nothing.and a = a := by
  unfold Told.and Told.nothing
  simp

theorem and_nothing (a : Told) : a.and .nothing = a := by
  unfold Told.and Told.nothing
  simp

theorem deepest_find : ∀ p : Path, p.reverse.find? Seg.isNullable = deepest p
  | [] => rfl
  | .field o k n :: p => by
    rw [List.reverse_cons, List.find?_append, deepest_find p, deepest]
    cases n <;> rfl
  | .index o k n :: p => by
    rw [List.reverse_cons, List.find?_append, deepest_find p, deepest]
    cases n <;> rfl

/-- The same objects and references. -/
def Quiet (s t : St) : Prop := t.objects = s.objects ∧ t.refs = s.refs

theorem Quiet.trans {s t u : St} (h : Quiet s t) (k : Quiet t u) : Quiet s u := ⟨k.1.trans h.1, k.2.trans h.2⟩

theorem propagate_reports (path : Path) (st : St) : Reports (told path [] 1) st (propagate path st) ∧ Quiet st (propagate path st) := by
  unfold propagate told
  rw [deepest_find]
  cases deepest path with
  | some s => exact ⟨⟨by simp, by simp [List.replicate], by simp, rfl, rfl⟩, rfl, rfl⟩
  | none => exact ⟨⟨by simp, by simp, by simp, rfl, rfl⟩, rfl, rfl⟩

theorem pushError_reports (path : Path) (e : Err) (st : St) : Reports (told path [e] 0) st (pushError e st) ∧ Quiet st (pushError e st) := by
  unfold told pushError
  cases deepest path with
  | some s => exact ⟨⟨by simp, by simp, by simp, rfl, rfl⟩, rfl, rfl⟩
  | none => exact ⟨⟨by simp, by simp, by simp, rfl, rfl⟩, rfl, rfl⟩

theorem pushErrors_reports (path : Path) (key : Nat) (nonNull : Bool) : ∀ (es : List Nat) (st : St),
    Reports (told path (es.map (fun e => ⟨.query e, path, some key⟩)) (if nonNull then es.length else 0)) st
      (pushErrors path key nonNull es st) ∧ Quiet st (pushErrors path key nonNull es st)
  | [], st => by
    rw [List.map_nil]
    have e : (if nonNull then ([] : List Nat).length else 0) = 0 := by cases nonNull <;> rfl
    rw [e, told_nothing]
    exact ⟨.refl st, rfl, rfl⟩
  | e :: es, st => by
    rw [pushErrors]
    have h1 := pushError_reports path ⟨.query e, path, some key⟩ st
    cases nonNull with
    | true =>
      have h2 := propagate_reports path (pushError ⟨.query e, path, some key⟩ st)
      have h3 := pushErrors_reports path key true es (propagate path (pushError ⟨.query e, path, some key⟩ st))
      refine ⟨?_, (h1.2.trans h2.2).trans h3.2⟩
      have := (h1.1.trans h2.1).trans h3.1
      rw [told_and, told_and] at this
      have e1 : 0 + 1 + (if true = true then es.length else 0) = (if true = true then (e :: es).length else 0) := by
        simp only [if_true, List.length_cons]
        omega
      rw [e1] at this
      exact this
    | false =>
      have h3 := pushErrors_reports path key false es (pushError ⟨.query e, path, some key⟩ st)
      refine ⟨?_, h1.2.trans h3.2⟩
      have := h1.1.trans h3.1
      rw [told_and] at this
      exact this

/-! ## The table of errors -/

theorem queryErrs_none {t : Table} {id : Nat} (h : ∀ x ∈ t, x.1 ≠ id) : queryErrs t id = [] := by
  induction t with
  | nil => rfl
  | cons x t ih =>
    rw [queryErrs, if_neg (h x List.mem_cons_self)]
    exact ih (fun y hy => h y (List.mem_cons_of_mem _ hy))

theorem findAll_query (id : Nat) : ∀ t : Table, findAll id t = queryErrs t id
  | [] => rfl
  | x :: t => by
    unfold findAll
    rw [queryErrs, List.filter_cons]
    by_cases h : x.1 = id
    · simp only [h, decide_true, if_true, List.map_cons]
      exact congrArg _ (findAll_query id t)
    · simp only [h, decide_false, Bool.false_eq_true, if_false]
      exact findAll_query id t

theorem takeErrors_spec (id : Nat) : ∀ t : Table, Sorted t → (takeErrors id t).1 = queryErrs t id ∧ Sorted (takeErrors id t).2 ∧
    ∀ j, id < j → queryErrs (takeErrors id t).2 j = queryErrs t j
  | [], h => ⟨rfl, h, fun _ _ => rfl⟩
  | (i, e) :: t, h => by
    have hs := List.pairwise_cons.mp h
    have ih := takeErrors_spec id t hs.2
    rw [takeErrors]
    by_cases h1 : i < id
    · rw [if_pos h1, queryErrs, if_neg (by simp only; omega)]
      refine ⟨ih.1, ih.2.1, fun j hj => ?_⟩
      rw [queryErrs, if_neg (by simp only; omega)]
      exact ih.2.2 j hj
    · rw [if_neg h1]
      by_cases h2 : i = id
      · rw [if_pos h2, queryErrs, if_pos h2]
        refine ⟨by rw [← ih.1], ih.2.1, fun j hj => ?_⟩
        rw [queryErrs, if_neg (by simp only; omega)]
        exact ih.2.2 j hj
      · rw [if_neg h2]
        refine ⟨?_, h, fun _ _ => rfl⟩
        rw [queryErrs_none]
        intro x hx
        rcases List.mem_cons.mp hx with rfl | hx
        · exact h2
        · have := hs.1 x hx
          simp only at this
          omega

theorem skipErrors_spec (id : Nat) : ∀ t : Table, Sorted t → Sorted (skipErrors id t) ∧ ∀ j, id ≤ j → queryErrs (skipErrors id t) j = queryErrs t j
  | [], h => ⟨h, fun _ _ => rfl⟩
  | (i, e) :: t, h => by
    have hs := List.pairwise_cons.mp h
    have ih := skipErrors_spec id t hs.2
    unfold skipErrors at ih ⊢
    rw [List.dropWhile_cons]
    by_cases h1 : i < id
    · rw [if_pos (by simpa using h1)]
      refine ⟨ih.1, fun j hj => ?_⟩
      rw [queryErrs, if_neg (by simp only; omega)]
      exact ih.2 j hj
    · rw [if_neg (by simpa using h1)]
      exact ⟨h, fun _ _ => rfl⟩

/-! ## One object -/

/-- The fields made for some of the fields of a shape. -/
def made (src : List RField) : List DField → List RField
  | [] => []
  | f :: fs =>
    match under src f.expected with
    | some v => ⟨f.key, v⟩ :: made src fs
    | none => made src fs

theorem mem_made {src : List RField} {k : Key} {v : Value} : ∀ {fs : List DField},
    ⟨k, v⟩ ∈ made src fs ↔ ∃ f ∈ fs, f.key = k ∧ under src f.expected = some v
  | [] => by simp [made]
  | f :: fs => by
    rw [made]
    cases h : under src f.expected with
    | none =>
      simp only
      rw [mem_made]
      constructor
      · rintro ⟨g, hg, h1, h2⟩
        exact ⟨g, List.mem_cons_of_mem _ hg, h1, h2⟩
      · rintro ⟨g, hg, h1, h2⟩
        rcases List.mem_cons.mp hg with rfl | hg
        · rw [h] at h2
          cases h2
        · exact ⟨g, hg, h1, h2⟩
    | some w =>
      simp only
      rw [List.mem_cons, mem_made]
      constructor
      · rintro (h1 | ⟨g, hg, h1, h2⟩)
        · cases h1
          exact ⟨f, List.mem_cons_self, rfl, h⟩
        · exact ⟨g, List.mem_cons_of_mem _ hg, h1, h2⟩
      · rintro ⟨g, hg, h1, h2⟩
        rcases List.mem_cons.mp hg with rfl | hg
        · rw [h] at h2
          cases h2
          exact Or.inl (by rw [h1])
        · exact Or.inr ⟨g, hg, h1, h2⟩

theorem made_keys {src : List RField} : ∀ {fs : List DField}, ((made src fs).map RField.key).Sublist (fs.map DField.key)
  | [] => by simp [made]
  | f :: fs => by
    rw [made]
    cases under src f.expected with
    | none => exact (made_keys (fs := fs)).cons _
    | some v => exact (made_keys (fs := fs)).cons_cons _

/-- There is a value to be found with in one of the fields. -/
def blank (src : List RField) (f : DField) : Bool :=
  match under src f.expected with
  | some .null => true
  | some .unexpected => true
  | some _ => false
  | none => true

theorem deriveField_spec (path : Path) (f : DField) (src acc : List RField) (isNull : Bool) (st : St) :
    ∃ st', deriveField path f src acc isNull st = (acc ++ made src [f], isNull && blank src f, st') ∧ Quiet st st' ∧
      Reports (told path (open Classical in if Unreported src f then [⟨.invalidResponse, path, some f.key.name⟩] else [])
        (open Classical in if Nulls src f then 1 else 0)) st st' := by
  unfold deriveField blank
  rw [lookup_under]
  simp only [made]
  cases hu : under src f.expected with
  | none =>
    cases hr : f.report with
    | true =>
      have h1 := propagate_reports path st
      have h2 := pushError_reports path ⟨.invalidResponse, path, some f.key.name⟩ (propagate path st)
      refine ⟨_, by simp, h1.2.trans h2.2, ?_⟩
      rw [if_pos ⟨hr, Or.inl hu⟩, if_pos ⟨hr, Or.inl hu⟩]
      have := h1.1.trans h2.1
      rw [told_and] at this
      exact this
    | false =>
      refine ⟨st, by simp, ⟨rfl, rfl⟩, ?_⟩
      rw [if_neg (fun h => by rw [h.1] at hr; cases hr), if_neg (fun h => by rw [h.1] at hr; cases hr), told_nothing]
      exact .refl st
  | some v =>
    have other : v ≠ .unexpected → ¬ Unreported src f ∧ ¬ Nulls src f := by
      intro hv
      constructor
      · rintro ⟨_, h | ⟨h, _⟩⟩
        · rw [hu] at h; cases h
        · rw [hu] at h; cases h; exact hv rfl
      · rintro ⟨_, h | ⟨h, _⟩⟩
        · rw [hu] at h; cases h
        · rw [hu] at h; cases h; exact hv rfl
    have quiet : ∀ (hv : v ≠ .unexpected), Reports (told path (open Classical in if Unreported src f then [⟨.invalidResponse, path, some f.key.name⟩] else [])
        (open Classical in if Nulls src f then 1 else 0)) st st := by
      intro hv
      rw [if_neg (other hv).1, if_neg (other hv).2, told_nothing]
      exact .refl st
    cases v with
    | null => exact ⟨st, by simp, ⟨rfl, rfl⟩, quiet (by simp)⟩
    | scalar n => exact ⟨st, by simp, ⟨rfl, rfl⟩, quiet (by simp)⟩
    | typename n => exact ⟨st, by simp, ⟨rfl, rfl⟩, quiet (by simp)⟩
    | inaccessible n => exact ⟨st, by simp, ⟨rfl, rfl⟩, quiet (by simp)⟩
    | object n => exact ⟨st, by simp, ⟨rfl, rfl⟩, quiet (by simp)⟩
    | list n => exact ⟨st, by simp, ⟨rfl, rfl⟩, quiet (by simp)⟩
    | numbers n => exact ⟨st, by simp, ⟨rfl, rfl⟩, quiet (by simp)⟩
    | unexpected =>
      simp only [Bool.and_true]
      refine ⟨_, rfl, ?_, ?_⟩
      · cases f.report <;> cases f.fromAsked <;> cases f.nonNull <;> simp only [if_true, Bool.false_eq_true, if_false]
        all_goals first
          | exact ⟨rfl, rfl⟩
          | exact (propagate_reports path _).2
          | exact (pushError_reports path _ _).2.trans (propagate_reports path _).2
      · cases hr : f.report with
        | false =>
          rw [if_neg (fun h => by rw [h.1] at hr; cases hr), if_neg (fun h => by rw [h.1] at hr; cases hr), told_nothing]
          exact .refl st
        | true =>
          cases ha : f.fromAsked with
          | true =>
            rw [if_neg (by
              rintro ⟨_, h | ⟨_, h⟩⟩
              · rw [hu] at h; cases h
              · rw [ha] at h; cases h)]
            cases hn : f.nonNull with
            | true =>
              rw [if_pos ⟨hr, Or.inr ⟨hu, hn⟩⟩]
              exact (propagate_reports path st).1
            | false =>
              rw [if_neg (by
                rintro ⟨_, h | ⟨_, h⟩⟩
                · rw [hu] at h; cases h
                · rw [hn] at h; cases h), told_nothing]
              exact .refl st
          | false =>
            rw [if_pos ⟨hr, Or.inr ⟨hu, ha⟩⟩]
            cases hn : f.nonNull with
            | true =>
              rw [if_pos ⟨hr, Or.inr ⟨hu, hn⟩⟩]
              have := (pushError_reports path ⟨.invalidResponse, path, some f.key.name⟩ st).1.trans (propagate_reports path _).1
              rw [told_and] at this
              exact this
            | false =>
              rw [if_neg (by
                rintro ⟨_, h | ⟨_, h⟩⟩
                · rw [hu] at h; cases h
                · rw [hn] at h; cases h)]
              exact (pushError_reports path _ st).1

theorem made_cons (src : List RField) (f : DField) (fs : List DField) : made src (f :: fs) = made src [f] ++ made src fs := by
  rw [made, made]
  cases under src f.expected <;> simp [made]

theorem deriveFields_spec (path : Path) (src : List RField) (table : Table) : ∀ (fs : List DField) (rest : Table) (acc : List RField)
    (isNull : Bool) (st : St), Sorted rest → fs.Pairwise (fun a b => a.id < b.id) → (∀ f ∈ fs, queryErrs rest f.id = queryErrs table f.id) →
    ∃ st', deriveFields path src fs rest acc isNull st = (acc ++ made src fs, isNull && fs.all (blank src), st') ∧ Quiet st st' ∧
      Reports (fieldsTold table path src fs) st st'
  | [], rest, acc, isNull, st, _, _, _ => ⟨st, by simp [deriveFields, made], ⟨rfl, rfl⟩, by rw [fieldsTold]; exact .refl st⟩
  | f :: fs, rest, acc, isNull, st, hs, hp, hq => by
    rw [List.pairwise_cons] at hp
    obtain ⟨t1, t2, t3⟩ := takeErrors_spec f.id rest hs
    have p := pushErrors_reports path f.key.name f.nonNull (takeErrors f.id rest).1 st
    obtain ⟨s1, e1, q1, r1⟩ := deriveField_spec path f src acc isNull (pushErrors path f.key.name f.nonNull (takeErrors f.id rest).1 st)
    obtain ⟨s2, e2, q2, r2⟩ := deriveFields_spec path src table fs (takeErrors f.id rest).2 (acc ++ made src [f]) (isNull && blank src f) s1 t2 hp.2
      (fun g hg => by rw [t3 g.id (hp.1 g hg)]; exact hq g (List.mem_cons_of_mem _ hg))
    refine ⟨s2, ?_, (p.2.trans q1).trans q2, ?_⟩
    · rw [deriveFields, e1, e2, made_cons src f fs, List.all_cons, List.append_assoc, Bool.and_assoc]
    · have := (p.1.trans r1).trans r2
      rw [told_and, t1, hq f List.mem_cons_self] at this
      rw [fieldsTold, fieldTold]
      exact this

theorem nothing_blank {shape : Shape} {src : List RField} : shape.fields.all (blank src) = true ↔ Nothing shape src := by
  unfold Nothing
  rw [List.all_eq_true]
  constructor
  · intro h f hf v hv
    have := h f hf
    unfold blank at this
    rw [hv] at this
    cases v <;> simp at this ⊢
  · intro h f hf
    unfold blank
    cases hu : under src f.expected with
    | none => rfl
    | some v =>
      rcases h f hf v hu with rfl | rfl <;> rfl

theorem typenameFields_spec {shape : Shape} (h : shape.typenames ≠ [] → shape.type ≠ none) :
    ∃ ts, typenameFields shape = some ts ∧ ts.map RField.key = shape.typenames ∧
      ∀ k v, ⟨k, v⟩ ∈ ts ↔ k ∈ shape.typenames ∧ ∃ t, shape.type = some t ∧ v = .typename t := by
  unfold typenameFields
  cases ht : shape.typenames with
  | nil => exact ⟨[], rfl, rfl, by simp⟩
  | cons k ks =>
    rw [ht] at h
    cases hty : shape.type with
    | none => exact absurd hty (h (by simp))
    | some t =>
      refine ⟨_, rfl, ?_, ?_⟩
      · rw [List.map_map]
        exact List.map_id _
      · intro j v
        rw [List.mem_map]
        constructor
        · rintro ⟨x, hx, e⟩
          cases e
          exact ⟨hx, t, rfl, rfl⟩
        · rintro ⟨hx, t', e, rfl⟩
          cases e
          exact ⟨j, hx, rfl⟩

theorem makeObject_spec {shape : Shape} {fields : List RField} (path : Path) (st : St)
    (ht : shape.typenames ≠ [] ∨ shape.set ≠ none → shape.type ≠ none) (hk : (fields.map RField.key ++ shape.typenames).Nodup) :
    ∃ fs st', makeObject shape path fields st = some (.object st.objects.length, st') ∧ st'.objects = st.objects ++ [⟨shape.type, fs⟩] ∧
      st'.refs = st.refs ++ refsOf shape path (.object st.objects.length) ∧ Reports .nothing st st' ∧
      fs.Pairwise (fun a b => Before a.key b.key) ∧
      ∀ k v, ⟨k, v⟩ ∈ fs ↔ ⟨k, v⟩ ∈ fields ∨ (k ∈ shape.typenames ∧ ∃ t, shape.type = some t ∧ v = .typename t) := by
  obtain ⟨ts, h1, h2, h3⟩ := typenameFields_spec (fun h => ht (Or.inl h))
  unfold makeObject
  rw [h1]
  simp only [pushObject]
  have hord : (sortKeys (fields ++ ts)).Pairwise (fun a b => Before a.key b.key) := by
    apply ordered_sortKeys
    rw [List.map_append, h2]
    exact hk
  have hmem : ∀ k v, ⟨k, v⟩ ∈ sortKeys (fields ++ ts) ↔ ⟨k, v⟩ ∈ fields ∨ (k ∈ shape.typenames ∧ ∃ t, shape.type = some t ∧ v = .typename t) := by
    intro k v
    rw [mem_sortKeys, List.mem_append, h3]
  unfold pushRef refsOf
  cases hs : shape.set with
  | none =>
    refine ⟨sortKeys (fields ++ ts), _, rfl, rfl, ?_, ?_, hord, hmem⟩
    · simp
    · exact ⟨by simp [Told.nothing], by simp [Told.nothing], by simp [Told.nothing], rfl, rfl⟩
  | some s =>
    cases hty : shape.type with
    | none => exact absurd hty (ht (Or.inr (by rw [hs]; simp)))
    | some t =>
      rw [hty] at hmem
      refine ⟨sortKeys (fields ++ ts), _, rfl, rfl, rfl, ?_, hord, hmem⟩
      exact ⟨by simp [Told.nothing], by simp [Told.nothing], by simp [Told.nothing], rfl, rfl⟩

/-- What is said of an entity that is derived from the fields of an object. -/
structure Good (shape : Shape) (path : Path) (nullable : Bool) (src : List RField) (t : Told) (st st' : St) (w : Value) : Prop where
  reports : Reports t st st'
  refs : st'.refs = st.refs ++ refsOf shape path w
  objects : ∃ new, st'.objects = st.objects ++ new
  entity : IsEntity shape nullable src st'.objects w

theorem objectDerive_spec {table : Table} {shape : Shape} (path : Path) (nullable : Bool) (src : List RField) (st : St)
    (hs : Sorted table) (hok : ShapeOk shape) :
    ∃ w st', objectDerive table shape path nullable src st = some (w, st') ∧
      Good shape path nullable src (fieldsTold table path src shape.fields) st st' w := by
  unfold objectDerive
  simp only
  have hskip : ∃ first, firstId shape.fields = first ∧ ∀ f ∈ shape.fields, first ≤ f.id := by
    cases hf : shape.fields with
    | nil => exact ⟨0, rfl, by simp⟩
    | cons f fs =>
      refine ⟨f.id, rfl, ?_⟩
      intro g hg
      have := hok.ids
      rw [hf, List.pairwise_cons] at this
      rcases List.mem_cons.mp hg with rfl | hg
      · omega
      · have := this.1 g hg; omega
  obtain ⟨first, hfirst, hle⟩ := hskip
  rw [hfirst]
  obtain ⟨k1, k2⟩ := skipErrors_spec first table hs
  obtain ⟨s1, e1, q1, r1⟩ := deriveFields_spec path src table shape.fields (skipErrors first table) [] true st k1 hok.ids
    (fun f hf => k2 f.id (hle f hf))
  rw [e1]
  simp only [List.nil_append, Bool.true_and]
  by_cases hn : (shape.fields.all (blank src) && nullable) = true
  · rw [if_pos hn]
    rw [Bool.and_eq_true, nothing_blank] at hn
    refine ⟨.null, s1, rfl, r1, ?_, ⟨[], by rw [q1.1]; simp⟩, Or.inl ⟨hn.2, hn.1, rfl⟩⟩
    rw [q1.2]
    simp [refsOf]
  · rw [if_neg hn]
    have hn' : ¬ (nullable = true ∧ Nothing shape src) := by
      rintro ⟨a, b⟩
      exact hn (by rw [Bool.and_eq_true]; exact ⟨nothing_blank.mpr b, a⟩)
    have hk : ((made src shape.fields).map RField.key ++ shape.typenames).Nodup :=
      hok.keys.sublist (made_keys.append (List.Sublist.refl _))
    obtain ⟨fs, s2, e2, o2, f2, r2, h1, h2⟩ := makeObject_spec path s1 hok.type hk
    refine ⟨_, s2, e2, ?_, ?_, ⟨_, by rw [o2, q1.1]⟩, Or.inr ⟨hn', s1.objects.length, fs, rfl, ?_, h1, ?_⟩⟩
    · have := r1.trans r2
      rw [and_nothing] at this
      exact this
    · rw [f2, q1.2]
    · rw [o2]
      simp
    · intro k v
      rw [h2, mem_made]

/-! ## Lists -/

/-- The states while a list is gone through. -/
def Within (st st' : St) : Prop := st'.lists = st.lists ∧ ∃ new, st'.objects = st.objects ++ new

theorem items_spec (read : Path → Value → St → Option (Value × St)) (nullable : Bool) (path : Path) (list : Nat) (shape : Shape)
    (item : Path → Value → Told) (P : Value → Value → List Obj → Prop) (hmono : ∀ v w a b, P v w a → P v w (a ++ b)) (st : St) :
    ∀ (vs : List Value) (i : Nat) (st0 : St), Within st st0 →
    (∀ v ∈ vs, ∀ p st1, Within st st1 → ∃ w st2, read p v st1 = some (w, st2) ∧ Reports (item p v) st1 st2 ∧
      st2.refs = st1.refs ++ refsOf shape p w ∧ (∃ new, st2.objects = st1.objects ++ new) ∧ P v w st2.objects) →
    ∃ ws st', items read nullable path list i vs st0 = some (ws, st') ∧ ws.length = vs.length ∧ Within st0 st' ∧
      Reports (itemsTold item nullable path list i vs) st0 st' ∧ st'.refs = st0.refs ++ itemRefs shape nullable path list i ws ∧
      ∀ (j : Nat) v w, vs[j]? = some v → ws[j]? = some w → P v w st'.objects
  | [], i, st0, hw, _ => ⟨[], st0, rfl, rfl, ⟨rfl, [], by simp⟩, by rw [itemsTold]; exact .refl st0, by simp [itemRefs], by simp⟩
  | v :: vs, i, st0, hw, h => by
    obtain ⟨w, s1, e1, r1, f1, ⟨n1, o1⟩, p1⟩ := h v List.mem_cons_self (path ++ [.index list i nullable]) st0 hw
    have hw1 : Within st s1 := by
      obtain ⟨a, b, hb⟩ := hw
      refine ⟨r1.lists.trans a, b ++ n1, ?_⟩
      rw [o1, hb, List.append_assoc]
    obtain ⟨ws, s2, e2, l2, w2, r2, f2, p2⟩ := items_spec read nullable path list shape item P hmono st vs (i + 1) s1 hw1
      (fun x hx => h x (List.mem_cons_of_mem _ hx))
    obtain ⟨w2a, n2, w2b⟩ := w2
    refine ⟨w :: ws, s2, ?_, by simp [l2], ⟨w2a.trans r1.lists, n1 ++ n2, ?_⟩, ?_, ?_, ?_⟩
    · rw [items, e1]
      simp only [e2, Option.map_some]
    · rw [w2b, o1, List.append_assoc]
    · rw [itemsTold]
      exact r1.trans r2
    · rw [f2, f1, itemRefs, List.append_assoc]
    · intro j x y hx hy
      cases j with
      | zero =>
        simp only [List.getElem?_cons_zero, Option.some.injEq] at hx hy
        subst hx hy
        rw [w2b]
        exact hmono _ _ _ _ p1
      | succ j =>
        simp only [List.getElem?_cons_succ] at hx hy
        exact p2 j x y hx hy

theorem getElem?_grow {α : Type} {a b : List α} {i : Nat} {x : α} (h : a[i]? = some x) : (a ++ b)[i]? = some x := by
  rw [List.getElem?_append_left (List.getElem?_eq_some_iff.mp h).1]
  exact h

theorem IsEntity.grow {shape : Shape} {nullable : Bool} {src : List RField} {a b : List Obj} {w : Value}
    (h : IsEntity shape nullable src a w) : IsEntity shape nullable src (a ++ b) w := by
  rcases h with h | ⟨h, d, fs, h1, h2, h3⟩
  · exact Or.inl h
  · exact Or.inr ⟨h, d, fs, h1, getElem?_grow h2, h3⟩

theorem unexpectedAt_reports (o : Outer) (b : Batch) (path : Path) (nullable : Bool) (st : St) :
    Reports (unexpectedTold o b path nullable) st (unexpectedAt o b path nullable st) ∧ Quiet st (unexpectedAt o b path nullable st) := by
  unfold unexpectedTold unexpectedAt
  cases o.report with
  | false => exact ⟨.refl st, rfl, rfl⟩
  | true =>
    simp only [if_true]
    cases hk : b.key.pos with
    | none =>
      simp only [Option.isNone_none, if_true]
      have h1 := pushError_reports path ⟨.invalidResponse, path, none⟩ st
      cases nullable with
      | true => exact h1
      | false =>
        have h2 := propagate_reports path (pushError ⟨.invalidResponse, path, none⟩ st)
        refine ⟨?_, h1.2.trans h2.2⟩
        have := h1.1.trans h2.1
        rw [told_and] at this
        exact this
    | some p =>
      have e : (Option.some p = none) = False := by simp
      simp only [Option.isNone_some, Bool.false_eq_true, if_false, e]
      cases nullable with
      | true =>
        simp only [if_true, told_nothing]
        exact ⟨.refl st, rfl, rfl⟩
      | false => exact propagate_reports path st

end Verif.Derived
