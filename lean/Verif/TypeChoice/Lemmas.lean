import Verif.TypeChoice.Spec

namespace Verif.TypeChoice

/-! ## Lists -/

theorem length_le_of_subset {α : Type} [DecidableEq α] : ∀ {l m : List α}, l.Nodup → (∀ x ∈ l, x ∈ m) → l.length ≤ m.length
  | [], _, _, _ => by simp
  | a :: l, m, hn, hs => by
    rw [List.nodup_cons] at hn
    have ha : a ∈ m := hs a List.mem_cons_self
    have := length_le_of_subset (l := l) (m := m.erase a) hn.2 (fun x hx => by
      have hne : x ≠ a := fun h => hn.1 (h ▸ hx)
      exact (List.mem_erase_of_ne hne).mpr (hs x (List.mem_cons_of_mem _ hx)))
    rw [List.length_erase_of_mem ha] at this
    have hp : 0 < m.length := List.length_pos_of_mem ha
    simp only [List.length_cons]
    omega

theorem subset_of_length {α : Type} [DecidableEq α] {l m : List α} (hn : l.Nodup) (hs : ∀ x ∈ l, x ∈ m) (hl : m.length ≤ l.length) :
    ∀ x ∈ m, x ∈ l := by
  intro x hx
  refine Classical.byContradiction (fun h => ?_)
  have := length_le_of_subset (l := l) (m := m.erase x) hn (fun y hy => by
    have hne : y ≠ x := fun e => h (e ▸ hy)
    exact (List.mem_erase_of_ne hne).mpr (hs y hy))
  rw [List.length_erase_of_mem hx] at this
  have hp : 0 < m.length := List.length_pos_of_mem hx
  omega

/-- With different images an element is determined by its image. -/
theorem inj_of_nodup {α β : Type} (g : α → β) : ∀ {l : List α}, (l.map g).Nodup → ∀ {a b : α}, a ∈ l → b ∈ l → g a = g b → a = b
  | [], _, _, _, ha, _, _ => by cases ha
  | x :: l, hn, a, b, ha, hb, h => by
    rw [List.map_cons, List.nodup_cons] at hn
    rcases List.mem_cons.mp ha with rfl | ha'
    · rcases List.mem_cons.mp hb with rfl | hb'
      · rfl
      · exact absurd (h ▸ List.mem_map_of_mem hb') hn.1
    · rcases List.mem_cons.mp hb with rfl | hb'
      · exact absurd (h ▸ List.mem_map_of_mem ha') hn.1
      · exact inj_of_nodup g hn.2 ha' hb' h

theorem insertField_perm (f : Nat × Val) : ∀ l, (insertField f l).Perm (f :: l)
  | [] => .refl _
  | g :: gs => by
    rw [insertField]
    split
    · exact .refl _
    · exact ((insertField_perm f gs).cons g).trans (List.Perm.swap f g gs)

theorem sortFields_perm : ∀ l, (sortFields l).Perm l
  | [] => .refl _
  | f :: fs => (insertField_perm f _).trans ((sortFields_perm fs).cons f)

theorem insertField_sorted (f : Nat × Val) : ∀ {l : List (Nat × Val)}, l.Pairwise (fun a b => a.1 ≤ b.1) →
    (insertField f l).Pairwise (fun a b => a.1 ≤ b.1)
  | [], _ => by simp [insertField]
  | g :: gs, h => by
    rw [insertField]
    rw [List.pairwise_cons] at h
    by_cases hle : f.1 ≤ g.1
    · rw [if_pos hle]
      refine List.pairwise_cons.mpr ⟨?_, List.pairwise_cons.mpr h⟩
      intro b hb
      rcases List.mem_cons.mp hb with rfl | hb
      · exact hle
      · exact Nat.le_trans hle (h.1 b hb)
    · rw [if_neg hle]
      refine List.pairwise_cons.mpr ⟨?_, insertField_sorted f h.2⟩
      intro b hb
      rcases List.mem_cons.mp ((insertField_perm f gs).mem_iff.mp hb) with rfl | hb
      · omega
      · exact h.1 b hb

theorem sortFields_sorted : ∀ l, (sortFields l).Pairwise (fun a b => a.1 ≤ b.1)
  | [] => .nil
  | f :: fs => insertField_sorted f (sortFields_sorted fs)

theorem sortFields_ordered {l : List (Nat × Val)} (h : (l.map (·.1)).Nodup) : Ordered (sortFields l) := by
  have hn : ((sortFields l).map (·.1)).Nodup := ((sortFields_perm l).map _).nodup_iff.mpr h
  have hs := sortFields_sorted l
  revert hn hs
  generalize sortFields l = m
  intro hn hs
  unfold Ordered
  induction m with
  | nil => exact .nil
  | cons a m ih =>
    rw [List.map_cons, List.nodup_cons] at hn
    rw [List.pairwise_cons] at hs ⊢
    refine ⟨fun b hb => ?_, ih hn.2 hs.2⟩
    have h1 := hs.1 b hb
    have h2 : a.1 ≠ b.1 := fun e => hn.1 (e ▸ List.mem_map_of_mem hb)
    omega

/-! ## The fields of an object -/

/-- What is had from the entries. -/
def got (fields : List Field) (es : List Entry) : List (Nat × Val) :=
  es.filterMap (fun e => (fields.find? (fun f => decide (f.expected = e.key))).bind (fun f => (e.read f.shape e.kept).map (fun v => (f.key, v))))

theorem position_some : ∀ {fs : List Field} {k : Name} {p : Nat} {f : Field}, position fs k = some (p, f) →
    fs[p]? = some f ∧ f.expected = k ∧ fs.find? (fun f => decide (f.expected = k)) = some f
  | [], _, _, _, h => by cases h
  | g :: gs, k, p, f, h => by
    rw [position] at h
    by_cases hk : g.expected = k
    · rw [if_pos hk] at h
      cases h
      exact ⟨rfl, hk, by simp [hk]⟩
    · rw [if_neg hk] at h
      cases hp : position gs k with
      | none => rw [hp] at h; cases h
      | some q =>
        rw [hp] at h
        cases h
        obtain ⟨h1, h2, h3⟩ := position_some hp
        exact ⟨by simpa using h1, h2, by simp [hk, h3]⟩

theorem position_none : ∀ {fs : List Field} {k : Name}, position fs k = none → fs.find? (fun f => decide (f.expected = k)) = none
  | [], _, _ => rfl
  | g :: gs, k, h => by
    rw [position] at h
    by_cases hk : g.expected = k
    · rw [if_pos hk] at h
      cases h
    · rw [if_neg hk] at h
      cases hp : position gs k with
      | none => simp [hk, position_none hp]
      | some q => rw [hp] at h; cases h

/-- The fields before the offset were found before. -/
def Passed (fields : List Field) (offset : Nat) (es : List Entry) : Prop :=
  ∀ f ∈ fields.take offset, ∀ e ∈ es, f.expected ≠ e.key

theorem find_drop {fields : List Field} {offset : Nat} {e : Entry} {es : List Entry} (h : Passed fields offset (e :: es)) :
    fields.find? (fun f => decide (f.expected = e.key)) = (fields.drop offset).find? (fun f => decide (f.expected = e.key)) := by
  conv => lhs; rw [← List.take_append_drop offset fields]
  rw [List.find?_append]
  have : (fields.take offset).find? (fun f => decide (f.expected = e.key)) = none := by
    rw [List.find?_eq_none]
    intro f hf
    simpa using h f hf e List.mem_cons_self
  rw [this]
  rfl

theorem passed_next {fields : List Field} {offset pos : Nat} {e : Entry} {es : List Entry} {f : Field}
    (h : Passed fields offset (e :: es)) (hd : ∀ e' ∈ es, e'.key ≠ e.key) (hp : position (fields.drop offset) e.key = some (pos, f)) :
    Passed fields (if pos = 0 then offset + 1 else offset) es := by
  obtain ⟨h1, h2, _⟩ := position_some hp
  intro g hg e' he'
  by_cases h0 : pos = 0
  · rw [if_pos h0] at hg
    subst h0
    rw [List.getElem?_drop] at h1
    simp only [Nat.add_zero] at h1
    rw [List.take_add_one, h1] at hg
    rcases List.mem_append.mp hg with hg | hg
    · exact h g hg e' (List.mem_cons_of_mem _ he')
    · simp only [Option.toList_some, List.mem_singleton] at hg
      subst hg
      rw [h2]
      exact fun e => hd e' he' e.symm
  · rw [if_neg h0] at hg
    exact h g hg e' (List.mem_cons_of_mem _ he')

/-- Each entry can be read with the field of its key. -/
def Readable (fields : List Field) (es : List Entry) : Prop :=
  ∀ e ∈ es, ∀ f ∈ fields, f.expected = e.key → ∃ v, e.read f.shape e.kept = some v

theorem visitFields_got (fields : List Field) : ∀ (es : List Entry) (offset : Nat) (acc : List (Nat × Val)),
    (es.map Entry.key).Nodup → Passed fields offset es → Readable fields es →
    visitFields fields offset es acc = some (acc ++ got fields es)
  | [], _, acc, _, _, _ => by simp [visitFields, got]
  | e :: es, offset, acc, hn, hp, hr => by
    rw [List.map_cons, List.nodup_cons] at hn
    have hd : ∀ e' ∈ es, e'.key ≠ e.key := fun e' he' h => hn.1 (h ▸ List.mem_map_of_mem he')
    have hr' : Readable fields es := fun e' he' => hr e' (List.mem_cons_of_mem _ he')
    have hfd := find_drop hp
    rw [visitFields]
    cases hpos : position (fields.drop offset) e.key with
    | none =>
      rw [position_none hpos] at hfd
      simp only
      rw [visitFields_got fields es offset acc hn.2 (fun f hf e' he' => hp f hf e' (List.mem_cons_of_mem _ he')) hr']
      simp [got, hfd]
    | some q =>
      obtain ⟨pos, f⟩ := q
      obtain ⟨_, h2, h3⟩ := position_some hpos
      rw [h3] at hfd
      obtain ⟨v, hv⟩ := hr e List.mem_cons_self f (List.mem_of_find?_eq_some hfd) h2
      simp only [hv]
      rw [visitFields_got fields es _ _ hn.2 (passed_next hp hd hpos) hr']
      simp [got, hfd, hv]

/-- The type which is told by entries. -/
def told (possible : List Name) (es : List Entry) : Option Name :=
  ((es.find? (fun e => decide (e.key = typenameKey))).bind asStr).filter possible.contains

theorem visitDetect_got (possible : List Name) (fields : List Field) (hf : ∀ f ∈ fields, f.expected ≠ typenameKey) :
    ∀ (es : List Entry) (offset : Nat) (type : Option Name) (acc : List (Nat × Val)),
    (es.map Entry.key).Nodup → Passed fields offset es → Readable fields es →
    (∀ e ∈ es, e.key = typenameKey → asStr e ≠ none) →
    visitDetect possible fields offset es type acc = some (type.or (told possible es), acc ++ got fields es)
  | [], _, type, acc, _, _, _, _ => by cases type <;> simp [visitDetect, got, told]
  | e :: es, offset, type, acc, hn, hp, hr, ht => by
    rw [List.map_cons, List.nodup_cons] at hn
    have hd : ∀ e' ∈ es, e'.key ≠ e.key := fun e' he' h => hn.1 (h ▸ List.mem_map_of_mem he')
    have hr' : Readable fields es := fun e' he' => hr e' (List.mem_cons_of_mem _ he')
    have ht' : ∀ e ∈ es, e.key = typenameKey → asStr e ≠ none := fun e' he' => ht e' (List.mem_cons_of_mem _ he')
    have hp' : Passed fields offset es := fun f hf e' he' => hp f hf e' (List.mem_cons_of_mem _ he')
    have hfd := find_drop hp
    rw [visitDetect]
    cases hpos : position (fields.drop offset) e.key with
    | none =>
      rw [position_none hpos] at hfd
      simp only
      by_cases hk : e.key = typenameKey
      · have hrest : told possible es = none := by
          unfold told
          have : es.find? (fun e => decide (e.key = typenameKey)) = none := by
            rw [List.find?_eq_none]
            intro e' he'
            simpa [← hk] using hd e' he'
          rw [this]
          rfl
        cases type with
        | some t =>
          simp only [Option.isNone_some, Bool.false_and, Bool.false_eq_true, if_false]
          rw [visitDetect_got possible fields hf es offset _ acc hn.2 hp' hr' ht']
          simp [got, hfd]
        | none =>
          simp only [Option.isNone_none, Bool.true_and, decide_eq_true hk, if_true]
          cases ha : asStr e with
          | none => exact absurd ha (ht e List.mem_cons_self hk)
          | some n =>
            simp only
            rw [visitDetect_got possible fields hf es offset _ acc hn.2 hp' hr' ht', hrest]
            simp only [told, hk, decide_true, List.find?_cons_of_pos, Option.bind_some, ha, Option.filter, Option.or_none,
              Option.none_or, got, List.filterMap_cons, hfd, Option.bind_none]
            rw [← hk, hfd]
            rfl
      · have e1 : (type.isNone && decide (e.key = typenameKey)) = false := by simp [hk]
        rw [e1]
        simp only [Bool.false_eq_true, if_false]
        rw [visitDetect_got possible fields hf es offset _ acc hn.2 hp' hr' ht']
        have e2 : told possible (e :: es) = told possible es := by simp [told, hk]
        rw [e2]
        simp [got, hfd]
    | some q =>
      obtain ⟨pos, f⟩ := q
      obtain ⟨_, h2, h3⟩ := position_some hpos
      rw [h3] at hfd
      have hm := List.mem_of_find?_eq_some hfd
      obtain ⟨v, hv⟩ := hr e List.mem_cons_self f hm h2
      have hk : e.key ≠ typenameKey := h2 ▸ hf f hm
      simp only [hv]
      rw [visitDetect_got possible fields hf es _ _ _ hn.2 (passed_next hp hd hpos) hr' ht']
      have e2 : told possible (e :: es) = told possible es := by simp [told, hk]
      rw [e2]
      simp [got, hfd, hv]

theorem mem_got {fields : List Field} {es : List Entry} (he : (fields.map Field.expected).Nodup) {k : Nat} {v : Val} :
    (k, v) ∈ got fields es ↔ ∃ f ∈ fields, ∃ e ∈ es, f.expected = e.key ∧ f.key = k ∧ e.read f.shape e.kept = some v := by
  unfold got
  rw [List.mem_filterMap]
  constructor
  · rintro ⟨e, hm, h⟩
    cases hf : fields.find? (fun f => decide (f.expected = e.key)) with
    | none => rw [hf] at h; cases h
    | some f =>
      rw [hf, Option.bind_some, Option.map_eq_some_iff] at h
      obtain ⟨w, hw, h⟩ := h
      cases h
      exact ⟨f, List.mem_of_find?_eq_some hf, e, hm, by simpa using List.find?_some hf, rfl, hw⟩
  · rintro ⟨f, hf, e, hm, h1, rfl, h3⟩
    refine ⟨e, hm, ?_⟩
    have : fields.find? (fun f => decide (f.expected = e.key)) = some f := by
      cases hx : fields.find? (fun f => decide (f.expected = e.key)) with
      | none =>
        rw [List.find?_eq_none] at hx
        exact absurd (by simpa using h1) (hx f hf)
      | some g =>
        have hg : g.expected = e.key := by simpa using List.find?_some hx
        rw [inj_of_nodup Field.expected he (List.mem_of_find?_eq_some hx) hf (hg.trans h1.symm)]
    rw [this, Option.bind_some, h3]
    rfl

theorem got_nodup {fields : List Field} (hk : (fields.map Field.key).Nodup) : ∀ {es : List Entry},
    (es.map Entry.key).Nodup → ((got fields es).map (·.1)).Nodup
  | [], _ => by simp [got]
  | e :: es, hn => by
    rw [List.map_cons, List.nodup_cons] at hn
    have ih := got_nodup hk hn.2
    have hc : got fields (e :: es) = ((fields.find? (fun f => decide (f.expected = e.key))).bind
        (fun f => (e.read f.shape e.kept).map (fun v => (f.key, v)))).toList ++ got fields es := by
      unfold got
      rw [List.filterMap_cons]
      split
      · rename_i h; rw [h]; rfl
      · rename_i h; rw [h]; rfl
    rw [hc]
    cases hf : fields.find? (fun f => decide (f.expected = e.key)) with
    | none => simpa using ih
    | some f =>
      cases hv : e.read f.shape e.kept with
      | none => simpa [hv] using ih
      | some v =>
        simp only [Option.bind_some, hv, Option.map_some, Option.toList_some, List.cons_append, List.nil_append, List.map_cons,
          List.nodup_cons]
        refine ⟨?_, ih⟩
        intro hm
        obtain ⟨x, hx, he⟩ := List.mem_map.mp hm
        obtain ⟨k, w⟩ := x
        unfold got at hx
        rw [List.mem_filterMap] at hx
        obtain ⟨e', he', h⟩ := hx
        cases hg : fields.find? (fun f => decide (f.expected = e'.key)) with
        | none => rw [hg] at h; cases h
        | some g =>
          rw [hg, Option.bind_some, Option.map_eq_some_iff] at h
          obtain ⟨_, _, h⟩ := h
          cases h
          have e1 := inj_of_nodup Field.key hk (List.mem_of_find?_eq_some hg) (List.mem_of_find?_eq_some hf) he
          subst e1
          have h1 : g.expected = e'.key := by simpa using List.find?_some hg
          have h2 : g.expected = e.key := by simpa using List.find?_some hf
          exact hn.1 (h2 ▸ h1 ▸ List.mem_map_of_mem he')

theorem under_some {es : List (Name × Json)} (hn : (es.map (·.1)).Nodup) {k : Name} {j : Json} : under es k = some j ↔ (k, j) ∈ es := by
  induction es with
  | nil => simp [under]
  | cons e es ih =>
    rw [List.map_cons, List.nodup_cons] at hn
    rw [under]
    by_cases hk : e.1 = k
    · rw [if_pos hk]
      constructor
      · intro h
        cases h
        exact List.mem_cons.mpr (Or.inl (by rw [← hk]))
      · intro h
        rcases List.mem_cons.mp h with h | h
        · rw [← h]
        · exact absurd (List.mem_map.mpr ⟨_, h, hk.symm⟩) hn.1
    · rw [if_neg hk, ih hn.2]
      constructor
      · exact List.mem_cons_of_mem _
      · intro h
        rcases List.mem_cons.mp h with h | h
        · exact absurd (by rw [← h]) hk
        · exact h

/-- How a value is to be read: the shape does not look for types, or they are told first. -/
def Ready (s : Shape) (j : Json) (kept : Bool) : Prop := NoDetect s ∨ (First j ∧ kept = false)

/-- The entries are those of an object, but for its type. -/
structure Link (types : Types) (es : List (Name × Json)) (E : List Entry) : Prop where
  nodup : (E.map Entry.key).Nodup
  values : ∀ k j, k ≠ typenameKey → ((∃ e ∈ E, e.key = k ∧ e.value = j) ↔ under es k = some j)
  read : ∀ e ∈ E, ∀ s, ShapeOk s → Ready s e.value e.kept → ∃ v, e.read s e.kept = some v ∧ Wanted types s e.value v

theorem link_readable {types : Types} {es : List (Name × Json)} {E : List Entry} {c : Concrete} (hl : Link types es E)
    (hc : ConcreteOk c) (hr : ∀ f ∈ c.fields, ∀ e ∈ E, Ready f.shape e.value e.kept) : Readable c.fields E := by
  cases hc with
  | mk _ _ _ h4 =>
    intro e he f hf _
    obtain ⟨v, hv, _⟩ := hl.read e he f.shape (h4 f hf) (hr f hf e he)
    exact ⟨v, hv⟩

/-- What becomes of the fields. -/
theorem finish_wanted {types : Types} {es : List (Name × Json)} {E : List Entry} {c : Concrete} {i : Ident} {t : Option Name}
    (hl : Link types es E) (hc : ConcreteOk c) (hr : ∀ f ∈ c.fields, ∀ e ∈ E, Ready f.shape e.value e.kept) (ht : Told i es t) :
    Wanted types (.concrete (.mk i c.typenames c.fields)) (.map es) (finish c t (got c.fields E)) := by
  have hread := link_readable hl hc hr
  obtain ⟨ci, ts, fs⟩ := c
  cases hc with
  | mk hk he hty hsh =>
    simp only [Concrete.fields, Concrete.typenames] at *
    have hkf : (fs.map Field.key).Nodup := (List.nodup_append.mp hk).1
    have hkt : ts.Nodup := (List.nodup_append.mp hk).2.1
    have hdis : ∀ f ∈ fs, f.key ∉ ts := fun f hf h => (List.nodup_append.mp hk).2.2 _ (List.mem_map_of_mem hf) _ h rfl
    have hgn : ((got fs E).map (·.1)).Nodup := got_nodup hkf hl.nodup
    have hgsub : ∀ k ∈ (got fs E).map (·.1), k ∈ fs.map Field.key := by
      intro k h
      obtain ⟨x, hx, rfl⟩ := List.mem_map.mp h
      obtain ⟨f, hf, _, _, _, h, _⟩ := (mem_got (k := x.1) (v := x.2) he).mp hx
      exact h ▸ List.mem_map_of_mem hf
    -- a field has been read exactly when there is something under its key
    have hgot : ∀ f ∈ fs, f.key ∈ (got fs E).map (·.1) ↔ under es f.expected ≠ none := by
      intro f hf
      constructor
      · intro h
        obtain ⟨x, hx, hxk⟩ := List.mem_map.mp h
        obtain ⟨g, hg, e, heE, h1, h2, _⟩ := (mem_got (k := x.1) (v := x.2) he).mp hx
        have : g = f := inj_of_nodup Field.key hkf hg hf (h2.trans hxk)
        subst this
        rw [(hl.values g.expected e.value (hty g hf)).mp ⟨e, heE, h1.symm, rfl⟩]
        simp
      · intro h
        cases hu : under es f.expected with
        | none => exact absurd hu h
        | some j =>
          obtain ⟨e, heE, h1, rfl⟩ := (hl.values f.expected j (hty f hf)).mpr hu
          obtain ⟨v, hv⟩ := hread e heE f hf h1.symm
          exact List.mem_map.mpr ⟨(f.key, v), (mem_got he).mpr ⟨f, hf, e, heE, h1.symm, rfl, hv⟩, rfl⟩
    have hmiss : ∀ k v, (k, v) ∈ missingFields fs (got fs E) ↔ v = .null ∧ ∃ f ∈ fs, f.key = k ∧ under es f.expected = none ∧ f.required = false := by
      intro k v
      unfold missingFields
      by_cases hlen : (got fs E).length < fs.length
      · rw [if_pos hlen, List.mem_map]
        constructor
        · rintro ⟨f, hf, h⟩
          cases h
          rw [List.mem_filter] at hf
          simp only [Bool.and_eq_true, Bool.not_eq_true', List.any_eq_false, decide_eq_true_iff] at hf
          refine ⟨rfl, f, hf.1, rfl, ?_, hf.2.2⟩
          refine Classical.byContradiction (fun h => ?_)
          obtain ⟨x, hx, e⟩ := List.mem_map.mp ((hgot f hf.1).mpr h)
          exact hf.2.1 x hx e
        · rintro ⟨rfl, f, hf, rfl, h1, h2⟩
          refine ⟨f, List.mem_filter.mpr ⟨hf, ?_⟩, rfl⟩
          simp only [Bool.and_eq_true, Bool.not_eq_true', List.any_eq_false, decide_eq_true_iff]
          exact ⟨fun x hx e => (hgot f hf).mp (List.mem_map.mpr ⟨x, hx, e⟩) h1, h2⟩
      · rw [if_neg hlen]
        simp only [List.not_mem_nil, false_iff]
        rintro ⟨_, f, hf, _, h1, _⟩
        have := subset_of_length hgn hgsub (by simpa using Nat.le_of_not_lt hlen) f.key (List.mem_map_of_mem hf)
        exact (hgot f hf).mp this h1
    have hmn : ((missingFields fs (got fs E)).map (·.1)).Nodup := by
      unfold missingFields
      split
      · rw [List.map_map]
        have : ((fs.filter (fun f => !(got fs E).any (fun x => decide (x.1 = f.key)) && !f.required)).map Field.key).Nodup :=
          List.Nodup.sublist (List.Sublist.map _ List.filter_sublist) hkf
        exact this
      · simp
    have hsub : ∀ k, k ∈ ((got fs E) ++ missingFields fs (got fs E)).map (·.1) ↔
        ∃ f ∈ fs, f.key = k ∧ (under es f.expected ≠ none ∨ f.required = false) := by
      intro k
      rw [List.map_append, List.mem_append]
      constructor
      · rintro (h | h)
        · obtain ⟨f, hf, rfl⟩ := List.mem_map.mp (hgsub k h)
          exact ⟨f, hf, rfl, Or.inl ((hgot f hf).mp h)⟩
        · obtain ⟨x, hx, rfl⟩ := List.mem_map.mp h
          obtain ⟨_, f, hf, h1, _, h3⟩ := (hmiss x.1 x.2).mp hx
          exact ⟨f, hf, h1, Or.inr h3⟩
      · rintro ⟨f, hf, rfl, h⟩
        by_cases hu : under es f.expected = none
        · rcases h with h | h
          · exact absurd hu h
          · exact Or.inr (List.mem_map.mpr ⟨(f.key, .null), (hmiss _ _).mpr ⟨rfl, f, hf, rfl, hu, h⟩, rfl⟩)
        · exact Or.inl ((hgot f hf).mpr hu)
    have hfn : (((got fs E) ++ missingFields fs (got fs E)).map (·.1)).Nodup := by
      rw [List.map_append, List.nodup_append]
      refine ⟨hgn, hmn, ?_⟩
      rintro a ha b hb rfl
      obtain ⟨x, hx, rfl⟩ := List.mem_map.mp hb
      obtain ⟨_, f, hf, h1, h2, _⟩ := (hmiss x.1 x.2).mp hx
      rw [← h1] at ha
      exact (hgot f hf).mp ha h2
    -- the values of the fields
    have hval : ∀ f ∈ fs, ∀ j, under es f.expected = some j → ∀ v, (f.key, v) ∈ (got fs E) ++ missingFields fs (got fs E) →
        Wanted types f.shape j v := by
      intro f hf j hj v hm
      rcases List.mem_append.mp hm with hm | hm
      · obtain ⟨g, hg, e, heE, h1, h2, h3⟩ := (mem_got he).mp hm
        have : g = f := inj_of_nodup Field.key hkf hg hf h2
        subst this
        have h4 := (hl.values g.expected e.value (hty g hf)).mp ⟨e, heE, h1.symm, rfl⟩
        rw [hj] at h4
        cases h4
        obtain ⟨w, hw, hW⟩ := hl.read e heE g.shape (hsh g hf) (hr g hf e heE)
        rw [h3] at hw
        cases hw
        exact hW
      · obtain ⟨_, g, hg, h1, h2, _⟩ := (hmiss f.key v).mp hm
        have : g = f := inj_of_nodup Field.key hkf hg hf h1
        subst this
        rw [hj] at h2
        cases h2
    have hnull : ∀ f ∈ fs, under es f.expected = none → ∀ v, (f.key, v) ∈ (got fs E) ++ missingFields fs (got fs E) → v = .null := by
      intro f hf hj v hm
      rcases List.mem_append.mp hm with hm | hm
      · exact absurd hj ((hgot f hf).mp (List.mem_map.mpr ⟨_, hm, rfl⟩))
      · exact ((hmiss f.key v).mp hm).1
    unfold finish
    simp only [Concrete.fields, Concrete.typenames]
    cases ts with
    | nil =>
      simp only [List.isEmpty_nil, if_true]
      refine .object ht (by simp [Concrete.typenames]) (sortFields_ordered hfn) ?_ ?_ ?_ (by simp [Concrete.typenames])
      · intro f hf j hj v hm
        exact hval f hf j hj v ((sortFields_perm _).mem_iff.mp hm)
      · intro k
        rw [((sortFields_perm _).map _).mem_iff, hsub]
        simp [Concrete.typenames, Concrete.fields]
      · intro f hf hj v hm
        exact hnull f hf hj v ((sortFields_perm _).mem_iff.mp hm)
    | cons a ts =>
      simp only [List.isEmpty_cons, Bool.false_eq_true, if_false]
      cases t with
      | none => exact .untold (Or.inr ⟨by simp [Concrete.typenames], ht⟩)
      | some n =>
        have htk : ∀ k v, (k, v) ∈ (a :: ts).map (fun k => (k, Val.typename n)) ↔ k ∈ a :: ts ∧ v = .typename n := by
          intro k v
          rw [List.mem_map]
          constructor
          · rintro ⟨x, hx, h⟩
            cases h
            exact ⟨hx, rfl⟩
          · rintro ⟨hx, rfl⟩
            exact ⟨k, hx, rfl⟩
        have hmap : ((a :: ts).map (fun k => (k, Val.typename n))).map (·.1) = a :: ts := by
          rw [List.map_map]
          exact List.map_id _
        refine .object ht (by simp) (sortFields_ordered ?_) ?_ ?_ ?_ ?_
        · rw [List.map_append, hmap, List.nodup_append]
          refine ⟨hfn, hkt, ?_⟩
          rintro x hx y hy rfl
          obtain ⟨f, hf, rfl, _⟩ := (hsub x).mp hx
          exact hdis f hf hy
        · intro f hf j hj v hm
          rcases List.mem_append.mp ((sortFields_perm _).mem_iff.mp hm) with hm | hm
          · exact hval f hf j hj v hm
          · exact absurd ((htk _ _).mp hm).1 (hdis f hf)
        · intro k
          rw [((sortFields_perm _).map _).mem_iff, List.map_append, List.mem_append, hsub, hmap]
          rfl
        · intro f hf hj v hm
          rcases List.mem_append.mp ((sortFields_perm _).mem_iff.mp hm) with hm | hm
          · exact hnull f hf hj v hm
          · exact absurd ((htk _ _).mp hm).1 (hdis f hf)
        · intro k hkm v hm
          rcases List.mem_append.mp ((sortFields_perm _).mem_iff.mp hm) with hm | hm
          · obtain ⟨f, hf, h, _⟩ := (hsub k).mp (List.mem_map.mpr ⟨_, hm, rfl⟩)
            rw [← h] at hkm
            exact absurd hkm (hdis f hf)
          · exact ⟨n, rfl, ((htk _ _).mp hm).2⟩

end Verif.TypeChoice
