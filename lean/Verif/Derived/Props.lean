import Verif.Derived.Rest

/-!
# C84: derived entities have the values of the fields they are derived from
-/
namespace Verif.Derived

/-- An entity derived from fields of its parent: null if it may be and none of them has a value, otherwise a new object with just
the values of those fields, which is made known under its path; and what is reported. -/
theorem C84_object (table : Table) (shape : Shape) (path : Path) (nullable : Bool) (src : List RField) (st : St)
    (hs : Sorted table) (hok : ShapeOk shape) :
    ∃ w st', objectDerive table shape path nullable src st = some (w, st') ∧ IsEntity shape nullable src st'.objects w ∧
      (∃ new, st'.objects = st.objects ++ new) ∧ st'.refs = st.refs ++ refsOf shape path w ∧
      Reports (fieldsTold table path src shape.fields) st st' := by
  obtain ⟨w, st', h1, h2⟩ := objectDerive_spec path nullable src st hs hok
  exact ⟨w, st', h1, h2.entity, h2.objects, h2.refs, h2.reports⟩

/-- A list of entities derived from a list of objects: an item for each item, made of it. -/
theorem C84_objects_partial (table : Table) (o : Outer) (b : Batch) (path : Path) (id : Nat) (vs : List Value) (st : St)
    (hs : Sorted table) (hok : ShapeOk o.shape) (hn : ∀ f ∈ o.shape.fields, f.scalar = false) (hl : st.lists[id]? = some vs)
    (hv : ∀ v ∈ vs, v = .null ∨ v = .unexpected ∨ ∃ n, n < st.objects.length ∧ v = .object n) :
    ∃ ws st', listDerive table o b path (.list id) st = some (.list st.lists.length, st') ∧
      st'.lists = st.lists ++ [ws] ∧ ws.length = vs.length ∧ (∃ new, st'.objects = st.objects ++ new) ∧
      (∀ (i : Nat) v w, vs[i]? = some v → ws[i]? = some w → Item o.shape (!b.innerRequired) st.objects st'.objects v w) ∧
      st'.refs = st.refs ++ itemRefs o.shape (!b.innerRequired) path id 0 ws ∧
      ∃ st1, Reports (itemsTold (itemTold table o b st.objects) (!b.innerRequired) path id 0 vs) st st1 ∧
        st'.errors = st1.errors ∧ st'.nulls = st1.nulls ∧ st'.root = st1.root := by
  have hfind : o.shape.fields.find? (fun f => f.scalar) = none := by
    rw [List.find?_eq_none]
    intro f hf
    rw [hn f hf]
    simp
  obtain ⟨ws, s1, e1, l1, ⟨w1, n1, w2⟩, r1, f1, p1⟩ := items_spec (objectItem table o b) (!b.innerRequired) path id o.shape
    (itemTold table o b st.objects) (fun v w os => Item o.shape (!b.innerRequired) st.objects os v w)
    (by
      intro v w x y h
      cases h with
      | null => exact .null
      | unexpected => exact .unexpected
      | object h1 h2 => exact .object h1 h2.grow)
    st vs 0 st ⟨rfl, [], by simp⟩ (by
      intro v hvm p s hw
      rcases hv v hvm with rfl | rfl | ⟨n, hn, rfl⟩
      · exact ⟨.null, s, rfl, .refl s, by simp [refsOf], ⟨[], by simp⟩, .null⟩
      · have := unexpectedAt_reports o b p (!b.innerRequired) s
        exact ⟨.unexpected, _, rfl, this.1, by rw [this.2.2]; simp [refsOf], ⟨[], by rw [this.2.1]; simp⟩, .unexpected⟩
      · obtain ⟨obj, hobj⟩ : ∃ obj, st.objects[n]? = some obj := ⟨_, List.getElem?_eq_getElem hn⟩
        obtain ⟨new, hnew⟩ := hw.2
        have hobj' : s.objects[n]? = some obj := by rw [hnew]; exact getElem?_grow hobj
        obtain ⟨w, s2, h1, h2⟩ := objectDerive_spec (shape := o.shape) p (!b.innerRequired) obj.fields s hs hok
        refine ⟨w, s2, ?_, ?_, h2.refs, h2.objects, .object hobj h2.entity⟩
        · simp only [objectItem, hobj']
          exact h1
        · simp only [itemTold, hobj]
          exact h2.reports)
  refine ⟨ws, { s1 with lists := st.lists ++ [ws] }, by simp only [listDerive, hl, deriveItems, hfind, e1, Option.map_some, pushList, w1], rfl, l1, ⟨n1, w2⟩, p1, f1, s1, r1, rfl, rfl, rfl⟩

/-- A list of entities derived from a list of their keys. -/
theorem C84_scalars_partial (table : Table) (o : Outer) (b : Batch) (path : Path) (id : Nat) (vs : List Value) (st : St) (f : DField)
    (hok : ShapeOk o.shape) (hn : o.shape.fields = [f]) (hsc : f.scalar = true) (hl : st.lists[id]? = some vs)
    (hq : ∀ x ∈ table, x.1 ≠ f.id) :
    ∃ ws st', listDerive table o b path (.list id) st = some (.list st.lists.length, st') ∧
      st'.lists = st.lists ++ [ws] ∧ ws.length = vs.length ∧ (∃ new, st'.objects = st.objects ++ new) ∧
      (∀ (i : Nat) v w, vs[i]? = some v → ws[i]? = some w → ScalarItem o.shape f.key st'.objects v w) ∧
      st'.refs = st.refs ++ itemRefs o.shape (!b.innerRequired) path id 0 ws ∧
      ∃ st1, Reports (itemsTold (scalarTold o b) (!b.innerRequired) path id 0 vs) st st1 ∧
        st'.errors = st1.errors ∧ st'.nulls = st1.nulls ∧ st'.root = st1.root := by
  have hfind : o.shape.fields.find? (fun f => f.scalar) = some f := by rw [hn, List.find?_cons, hsc]
  have herr : scalarErrors table b path id f vs st = st := by
    unfold scalarErrors
    rw [findAll_query, queryErrs_none hq]
    split <;> rfl
  have hk : ∀ v, (([⟨f.key, v⟩] : List RField).map RField.key ++ o.shape.typenames).Nodup := by
    intro v
    have := hok.keys
    rw [hn] at this
    exact this
  have value : ∀ v p s, v ≠ .null → v ≠ .unexpected → ∃ w s2, makeObject o.shape p [⟨f.key, v⟩] s = some (w, s2) ∧ Reports .nothing s s2 ∧
      s2.refs = s.refs ++ refsOf o.shape p w ∧ (∃ new, s2.objects = s.objects ++ new) ∧ ScalarItem o.shape f.key s2.objects v w := by
    intro v p s h1 h2
    obtain ⟨fs, s2, e2, o2, f2, r2, m1, m2⟩ := makeObject_spec p s hok.type (hk v)
    refine ⟨_, s2, e2, r2, f2, ⟨_, o2⟩, .value h1 h2 (fs := fs) (by rw [o2]; simp) ⟨m1, ?_⟩⟩
    intro k x
    rw [m2, List.mem_singleton]
    constructor
    · rintro (h | h)
      · cases h
        exact Or.inl ⟨rfl, rfl⟩
      · exact Or.inr h
    · rintro (⟨rfl, rfl⟩ | h)
      · exact Or.inl rfl
      · exact Or.inr h
  obtain ⟨ws, s1, e1, l1, ⟨w1, n1, w2⟩, r1, f1, p1⟩ := items_spec (fun p => scalarItem o b p f.key) (!b.innerRequired) path id o.shape
    (scalarTold o b) (fun v w os => ScalarItem o.shape f.key os v w)
    (by
      intro v w x y h
      cases h with
      | null => exact .null
      | unexpected => exact .unexpected
      | value h1 h2 h3 h4 => exact .value h1 h2 (getElem?_grow h3) h4)
    st vs 0 st ⟨rfl, [], by simp⟩ (by
      intro v hvm p s hw
      cases v with
      | null => exact ⟨.null, s, rfl, .refl s, by simp [refsOf], ⟨[], by simp⟩, .null⟩
      | unexpected =>
        have := unexpectedAt_reports o b p (!b.innerRequired) s
        exact ⟨.unexpected, _, rfl, this.1, by rw [this.2.2]; simp [refsOf], ⟨[], by rw [this.2.1]; simp⟩, .unexpected⟩
      | scalar n => exact value _ p s (by simp) (by simp)
      | typename n => exact value _ p s (by simp) (by simp)
      | inaccessible n => exact value _ p s (by simp) (by simp)
      | object n => exact value _ p s (by simp) (by simp)
      | list n => exact value _ p s (by simp) (by simp)
      | numbers n => exact value _ p s (by simp) (by simp))
  refine ⟨ws, { s1 with lists := st.lists ++ [ws] }, by simp only [listDerive, hl, deriveItems, hfind, herr, e1, Option.map_some, pushList, w1], rfl, l1, ⟨n1, w2⟩, p1, f1, s1, r1, rfl, rfl, rfl⟩

/-- The field of the entity is put at the end, and the others stay; a list is derived from the value of its field. -/
theorem C84_ingest (table : Table) (o : Outer) (path : Path) (parent : Nat) (fields fields' : List RField) (st st' : St) :
    ingest table o path parent fields st = some (fields', st') ↔ ∃ v, fields' = fields ++ [⟨o.key, v⟩] ∧
      ((o.shape.batch = none ∧
          objectDerive table o.shape (path ++ [Seg.field parent o.key (!o.nonNull)]) (!o.nonNull) fields st = some (v, st')) ∨
        ∃ b, o.shape.batch = some b ∧ ((under fields b.key.name = none ∧ v = .null ∧ st' = st) ∨
          ∃ u, under fields b.key.name = some u ∧
            listDerive table o b (path ++ [Seg.field parent o.key (!o.nonNull)]) u st = some (v, st'))) := by
  unfold ingest
  simp only [lookup_under]
  cases hb : o.shape.batch with
  | none =>
    simp only [Option.map_eq_some_iff, Prod.mk.injEq, Prod.exists]
    constructor
    · rintro ⟨v, s, h, rfl, rfl⟩
      exact ⟨v, rfl, Or.inl ⟨trivial, h⟩⟩
    · rintro ⟨v, rfl, ⟨_, h⟩ | ⟨b, h, _⟩⟩
      · exact ⟨v, st', h, rfl, rfl⟩
      · cases h
  | some b =>
    simp only [Option.map_eq_some_iff, Prod.mk.injEq, Prod.exists]
    cases hu : under fields b.key.name with
    | none =>
      constructor
      · rintro ⟨v, s, h, rfl, rfl⟩
        cases h
        exact ⟨.null, rfl, Or.inr ⟨b, rfl, Or.inl ⟨hu, rfl, rfl⟩⟩⟩
      · rintro ⟨v, rfl, ⟨h, _⟩ | ⟨c, h, h2 | ⟨u, h2, _⟩⟩⟩
        · cases h
        · obtain ⟨_, rfl, rfl⟩ := h2
          exact ⟨.null, st', rfl, rfl, rfl⟩
        · cases h
          rw [hu] at h2
          cases h2
    | some u =>
      constructor
      · rintro ⟨v, s, h, rfl, rfl⟩
        exact ⟨v, rfl, Or.inr ⟨b, rfl, Or.inr ⟨u, hu, h⟩⟩⟩
      · rintro ⟨v, rfl, ⟨h, _⟩ | ⟨c, h, h2 | ⟨w, h2, h3⟩⟩⟩
        · cases h
        · cases h
          rw [hu] at h2
          cases h2.1
        · cases h
          rw [hu] at h2
          cases h2
          exact ⟨v, st', h3, rfl, rfl⟩

/-- The fields there are after the reading of an object: a missing one is null if it may be. -/
theorem missing_fields (path : Path) (had : List RField) : ∀ (ps : List Plain) (propagated : Bool) (fields : List RField) (st : St),
    (missing path had ps propagated fields st).1 = fields ++ (ps.filter (fun p => decide (p.present = true ∧ p.nonNull = false ∧
      ∀ f ∈ had, f.key ≠ p.key))).map (fun p => ⟨p.key, .null⟩)
  | [], _, fields, _ => by simp [missing]
  | p :: ps, propagated, fields, st => by
    rw [missing]
    have hany : (had.any (fun f => decide (f.key = p.key))) = false ↔ ∀ f ∈ had, f.key ≠ p.key := by
      rw [List.any_eq_false]
      simp
    rw [List.filter_cons]
    cases hp : p.present with
    | false => simp [missing_fields path had ps]
    | true =>
      cases hh : had.any (fun f => decide (f.key = p.key)) with
      | true =>
        have : ¬ ∀ f ∈ had, f.key ≠ p.key := by
          intro h
          rw [hany.mpr h] at hh
          cases hh
        simp [this, missing_fields path had ps]
      | false =>
        have := hany.mp hh
        cases hn : p.nonNull with
        | true =>
          simp only [Bool.not_false, Bool.and_self, if_true]
          split
          · simp [missing_fields path had ps]
          · simp [missing_fields path had ps]
        | false =>
          simp only [Bool.not_false, Bool.and_self, if_true, Bool.false_eq_true, if_false]
          rw [missing_fields path had ps, List.append_assoc]
          simp only [decide_eq_true (show True ∧ True ∧ ∀ f ∈ had, f.key ≠ p.key from ⟨trivial, trivial, this⟩), if_true, List.map_cons]
          rfl

theorem C84_missing (path : Path) (ps : List Plain) (propagated : Bool) (fields : List RField) (st : St) (h : fields.length < ps.length) :
    (handleMissing path ps propagated fields st).1 = fields ++ (ps.filter (fun p => decide (p.present = true ∧ p.nonNull = false ∧
      ∀ f ∈ fields, f.key ≠ p.key))).map (fun p => ⟨p.key, .null⟩) := by
  unfold handleMissing
  rw [if_pos h]
  exact missing_fields path fields ps propagated fields st

/-- The required fields which are missing and were asked for are errors, and null is propagated once. -/
theorem C84_missing_told (path : Path) (ps : List Plain) (propagated : Bool) (fields : List RField) (st : St) (h : fields.length < ps.length) :
    Reports (missingTold path fields ps propagated) st (handleMissing path ps propagated fields st).2 := by
  unfold handleMissing
  rw [if_pos h]
  exact missing_reports path fields ps propagated fields st

/-- The errors of the query for fields are told, null is propagated once if one of them is required, and the values of those fields
are hidden, with null for those which have none. -/
theorem C84_errors (path : Path) (table : Table) (fs : List (Nat × Key × Bool)) (propagated : Bool) (fields : List RField) (st : St)
    (hd : (fs.map (fun f => f.2.1)).Nodup) :
    let r := handleErrors path table fs propagated fields st
    (r.1 = true ↔ propagated = true ∨ ∃ f ∈ fs, f.2.2 = true ∧ queryErrs table f.1 ≠ []) ∧
    r.2.2.errors = st.errors ++ fs.flatMap (fun f => (queryErrs table f.1).map (fun e => ⟨.query e, path, some f.2.1.name⟩)) ∧
    r.2.2.nulls = st.nulls ++ (shapesTold path table fs propagated).nulls ∧
    r.2.2.root = (st.root || (shapesTold path table fs propagated).root) ∧
    (∀ k, (∀ f ∈ fs, f.2.1 = k → queryErrs table f.1 = []) → valueAt k r.2.1 = valueAt k fields) ∧
    (∀ f ∈ fs, queryErrs table f.1 ≠ [] → valueAt f.2.1 fields = none → valueAt f.2.1 r.2.1 = some .null) ∧
    (∀ f ∈ fs, queryErrs table f.1 ≠ [] → ∀ v, valueAt f.2.1 fields = some v →
      ∃ n, valueAt f.2.1 r.2.1 = some (.inaccessible n) ∧ r.2.2.hidden[n]? = some v) := by
  intro r
  obtain ⟨h1, h2, h3, h4⟩ := handleErrors_spec path table fs propagated fields st
  obtain ⟨g1, g2, g3, _⟩ := handleErrors_fields path table fs propagated fields st hd
  exact ⟨h1, h2, h3, h4, g1, g2, g3⟩

/-- The fields of the derived entities which are asked for are put at the end, in order, and no others. -/
theorem C84_derived (path : Path) (parent : Nat) (os : List Outer) (table : Table) (fields : List RField) (st : St)
    (fields' : List RField) (st' : St) (h : handleDerived path parent os table fields st = some (fields', st')) :
    ∃ more, fields' = fields ++ more ∧ more.map RField.key = (os.filter (fun o => o.present)).map Outer.key := by
  unfold handleDerived at h
  cases os with
  | nil =>
    cases h
    exact ⟨[], by simp, rfl⟩
  | cons o os => exact deriveAll_keys path parent table (o :: os) _ _ _ _ _ h

/-- A list derived from null is null, and from what is not a list an error unless it is one already. -/
theorem C84_list_absent (table : Table) (o : Outer) (b : Batch) (path : Path) (st : St) :
    listDerive table o b path .null st = some (.null, st) ∧
    ∃ st', listDerive table o b path .unexpected st = some (.unexpected, st') ∧ Reports (unexpectedTold o b path (!o.nonNull)) st st' ∧
      st'.objects = st.objects ∧ st'.refs = st.refs := by
  have := unexpectedAt_reports o b path (!o.nonNull) st
  exact ⟨rfl, _, rfl, this.1, this.2.1, this.2.2⟩

/-! ## Cases -/

def empty : St := ⟨[], [], [], [], [], false, []⟩

def authorField : DField := ⟨7, ⟨some 1, 11⟩, 3, true, true, false, false⟩
/-- `author { id __typename }` from `authorId`. -/
def authorShape : Shape := ⟨some 0, some 5, none, [⟨some 2, 12⟩], [authorField]⟩
def author : Outer := ⟨4, ⟨some 0, 9⟩, false, true, true, authorShape⟩

theorem ok_author : ShapeOk authorShape := ⟨by decide +kernel, List.pairwise_singleton _ _, fun _ h => by cases h⟩

/-- The hypotheses of `C84_object` are met; an author with its id. -/
theorem C84_object_case : ShapeOk authorShape ∧ Sorted [] ∧
    ingest [] author [] 0 [⟨⟨none, 3⟩, .scalar 42⟩] empty = some ([⟨⟨none, 3⟩, .scalar 42⟩, ⟨⟨some 0, 9⟩, .object 0⟩],
      { empty with objects := [⟨some 5, [⟨⟨some 1, 11⟩, .scalar 42⟩, ⟨⟨some 2, 12⟩, .typename 5⟩]⟩],
                   refs := [⟨0, 0, [.field 0 ⟨some 0, 9⟩ true], 5⟩] }) ∧
    ingest [] author [] 0 [⟨⟨none, 3⟩, .null⟩] empty = some ([⟨⟨none, 3⟩, .null⟩, ⟨⟨some 0, 9⟩, .null⟩], empty) :=
  ⟨ok_author, List.Pairwise.nil, by decide +kernel, by decide +kernel⟩

def tagField : DField := ⟨7, ⟨some 1, 11⟩, 11, true, true, false, true⟩
def tagBatch : Batch := ⟨⟨none, 3⟩, false⟩
/-- `tags { id }` from `tagIds`. -/
def tagShape : Shape := ⟨some 0, some 5, some tagBatch, [], [tagField]⟩
def tags : Outer := ⟨4, ⟨some 0, 9⟩, true, true, true, tagShape⟩

theorem ok_tags : ShapeOk tagShape := ⟨by decide +kernel, List.pairwise_singleton _ _, fun _ h => by cases h⟩

/-- The hypotheses of `C84_scalars_partial` are met. -/
theorem C84_scalars_case : ShapeOk tags.shape ∧ tags.shape.fields = [tagField] ∧ tagField.scalar = true ∧
    (listDerive [] tags tagBatch [] (.list 0) { empty with lists := [[.scalar 1, .null]] }).map (fun r => (r.1, r.2.lists, r.2.objects)) =
      some (.list 1, [[.scalar 1, .null], [.object 0, .null]], [⟨some 5, [⟨⟨some 1, 11⟩, .scalar 1⟩]⟩]) :=
  ⟨ok_tags, rfl, rfl, by decide +kernel⟩

def itemField : DField := ⟨7, ⟨some 1, 11⟩, 6, true, true, false, false⟩
/-- `items { id }` from `lines { itemId }`. -/
def itemShape : Shape := ⟨none, some 5, some tagBatch, [], [itemField]⟩
def lines : Outer := ⟨4, ⟨some 0, 9⟩, true, true, true, itemShape⟩

theorem ok_lines : ShapeOk itemShape := ⟨by decide +kernel, List.pairwise_singleton _ _, fun h => by
  rcases h with h | h
  · exact absurd rfl h
  · exact absurd rfl h⟩

def linesSt : St := { empty with
  objects := [⟨none, [⟨⟨none, 6⟩, .scalar 1⟩]⟩, ⟨none, [⟨⟨none, 6⟩, .unexpected⟩]⟩], lists := [[.object 0, .null, .object 1]] }

/-- The hypotheses of `C84_objects_partial` are met. -/
theorem C84_objects_case : ShapeOk lines.shape ∧ (∀ f ∈ lines.shape.fields, f.scalar = false) ∧
    (∀ v ∈ [Value.object 0, .null, .object 1], v = .null ∨ v = .unexpected ∨ ∃ n, n < linesSt.objects.length ∧ v = .object n) ∧
    (listDerive [] lines tagBatch [] (.list 0) linesSt).map (fun r => (r.1, r.2.lists)) =
      some (.list 1, [[.object 0, .null, .object 1], [.object 2, .null, .null]]) := by
  refine ⟨ok_lines, ?_, ?_, by decide +kernel⟩
  · intro f hf
    rw [show lines.shape.fields = [itemField] from rfl, List.mem_singleton] at hf
    rw [hf]
    rfl
  · intro v hv
    rcases List.mem_cons.mp hv with rfl | hv
    · exact Or.inr (Or.inr ⟨0, by decide +kernel, rfl⟩)
    · rcases List.mem_cons.mp hv with rfl | hv
      · exact Or.inl rfl
      · rw [List.mem_singleton] at hv
        exact Or.inr (Or.inr ⟨1, by decide +kernel, hv⟩)

/-! ## What is not so -/

/-- FALSE that a list is derived from any list: `[Int!]` and `[Float!]` are kept in another way, and the reading panics. -/
theorem C84_numbers_false (table : Table) (o : Outer) (b : Batch) (path : Path) (vs : List Value) (st : St) :
    listDerive table o b path (keepList true true vs st).1 (keepList true true vs st).2 = none ∧
    listDerive [] tags tagBatch [] (keepList false true [.scalar 1] empty).1 (keepList false true [.scalar 1] empty).2 ≠ none :=
  ⟨rfl, by decide +kernel⟩

/-- FALSE that it is read when the list is not accessible: with an error of the query for `tagIds`, which is needed for `tags`, the
reading panics. -/
theorem C84_denied_false :
    finalize [] 0 [(1, 100)] true [⟨1, ⟨none, 3⟩, true, true⟩] [tags] [⟨⟨none, 3⟩, .list 0⟩] { empty with lists := [[.scalar 1]] } = none ∧
    finalize [] 0 [] true [⟨1, ⟨none, 3⟩, true, true⟩] [tags] [⟨⟨none, 3⟩, .list 0⟩] { empty with lists := [[.scalar 1]] } ≠ none := by
  decide +kernel

/-- FALSE that what must not be null is not: when the required `tagIds` is missing, `tags: [Tag]!` is null, without an error. -/
theorem C84_missing_list_false :
    finalize [] 0 [] false [⟨1, ⟨none, 3⟩, true, true⟩] [tags] [] empty = some ([⟨⟨some 0, 9⟩, .null⟩], empty) ∧ tags.nonNull = true := by
  decide +kernel

/-- FALSE that an item of the derived list is null when its key is: the null is put into the list of the source. -/
theorem C84_list_null_false :
    let st : St := { empty with objects := [⟨none, [⟨⟨none, 6⟩, .unexpected⟩, ⟨⟨none, 8⟩, .scalar 2⟩]⟩], lists := [[.object 0]] }
    let two : Outer := { lines with shape := { itemShape with fields := [itemField, ⟨8, ⟨some 2, 13⟩, 8, false, true, false, false⟩] } }
    ((listDerive [] two tagBatch [] (.list 0) st).map (fun r => (r.1, r.2.nulls, r.2.lists)) =
      some (.list 1, [.index 0 0 true], [[.object 0], [.object 1]])) ∧
    (((listDerive [] two tagBatch [] (.list 0) st).bind (fun r => hideItem r.2 0 0)).map (fun s => s.lists) =
      some [[.inaccessible 0], [.object 1]]) ∧ itemField.nonNull = true := by
  decide +kernel

/-- FALSE that an error of the query is told once for a derived field. -/
theorem C84_twice_false :
    (finalize [] 0 [(4, 100)] true [⟨1, ⟨none, 3⟩, false, true⟩] [author] [⟨⟨none, 3⟩, .scalar 42⟩] empty).map (fun r => r.2.errors) =
      some [⟨.query 100, [], some 9⟩, ⟨.query 100, [], some 9⟩] := by
  decide +kernel

/-- FALSE that a required field that is missing is an error: with an error for a derived field it is not noticed, and the field of
the derived entity is there twice. -/
theorem C84_unnoticed_false :
    (finalize [] 0 [(4, 100)] true [⟨1, ⟨none, 3⟩, true, true⟩, ⟨2, ⟨some 5, 5⟩, true, true⟩] [author] [⟨⟨none, 3⟩, .scalar 42⟩] empty).map
      (fun r => (r.1.map RField.key, r.2.errors, r.2.root)) =
      some ([⟨none, 3⟩, ⟨some 0, 9⟩, ⟨some 0, 9⟩], [⟨.query 100, [], some 9⟩, ⟨.query 100, [], some 9⟩], false) ∧
    (finalize [] 0 [] true [⟨1, ⟨none, 3⟩, true, true⟩, ⟨2, ⟨some 5, 5⟩, true, true⟩] [author] [⟨⟨none, 3⟩, .scalar 42⟩] empty).map
      (fun r => (r.1.map RField.key, r.2.errors, r.2.root)) =
      some ([⟨none, 3⟩, ⟨some 0, 9⟩], [⟨.invalidResponse, [], some 5⟩], true) := by
  decide +kernel

/-- A required field with an error of the query, and one without. -/
theorem C84_errors_case :
    let r := handleErrors [] [(4, 9)] [(4, ⟨some 0, 5⟩, true), (6, ⟨some 1, 8⟩, false)] false [⟨⟨some 0, 5⟩, .scalar 1⟩, ⟨⟨some 1, 8⟩, .scalar 2⟩] empty
    r.1 = true ∧ r.2.1 = [⟨⟨some 0, 5⟩, .inaccessible 0⟩, ⟨⟨some 1, 8⟩, .scalar 2⟩] ∧ r.2.2.hidden = [.scalar 1] ∧ r.2.2.root = true ∧
    r.2.2.errors = [⟨.query 9, [], some 5⟩] := by
  decide +kernel

/-- A required field is missing, and one which is not required. -/
theorem C84_missing_told_case :
    let r := handleMissing [] [⟨1, ⟨some 0, 3⟩, true, true⟩, ⟨2, ⟨some 1, 4⟩, false, true⟩] false [] empty
    r.1 = [⟨⟨some 1, 4⟩, .null⟩] ∧ r.2.errors = [⟨.invalidResponse, [], some 3⟩] ∧ r.2.root = true := by
  decide +kernel

end Verif.Derived
