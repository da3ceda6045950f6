import Verif.Bind.Spec

/-!
# Soundness of binding
-/

namespace Verif.Bind

open Verif.Coercion (Str InputField Ty VarDef)
open Verif.Literals (Lit Q bindArguments coerceQueryValue)

/-! ## Results -/

theorem Res.bind_ok {α β : Type} {r : Res α} {f : α → Res β} {b : β} (h : r.bind f = .ok b) : ∃ a, r = .ok a ∧ f a = .ok b := by
  cases r with
  | ok a => exact ⟨a, rfl, h⟩
  | panic => cases h
  | overflow => cases h

theorem Res.map_ok {α β : Type} {r : Res α} {f : α → β} {b : β} (h : r.map f = .ok b) : ∃ a, r = .ok a ∧ f a = b := by
  obtain ⟨a, h1, h2⟩ := Res.bind_ok h
  cases h2
  exact ⟨a, h1, rfl⟩

/-! ## Variables in values -/

mutual
theorem mentions_eq : (q : Q) → mentions q = varsIn q
  | .variable _ => by simp only [mentions, varsIn]
  | .object _ fields => by simp only [mentions, varsIn]; exact mentionsFields_eq fields
  | .list items => by simp only [mentions, varsIn]; exact mentionsItems_eq items
  | .null => rfl
  | .str _ => rfl
  | .enumValue _ => rfl
  | .int _ => rfl
  | .float _ => rfl
  | .bool _ => rfl
  | .map _ => rfl
  | .i64 _ => rfl
  | .default _ => rfl
theorem mentionsItems_eq : (l : List Q) → mentionsItems l = varsInItems l
  | [] => by simp only [mentionsItems, varsInItems]
  | x :: xs => by simp only [mentionsItems, varsInItems, mentions_eq x, mentionsItems_eq xs]
theorem mentionsFields_eq : (l : List (Nat × Q)) → mentionsFields l = varsInFields l
  | [] => by simp only [mentionsFields, varsInFields]
  | (_, x) :: xs => by simp only [mentionsFields, varsInFields, mentions_eq x, mentionsFields_eq xs]
end

/-! ## Growth -/

/-- Only things added. -/
structure Ext (a b : St) : Prop where
  keys : a.keys <+: b.keys
  data : a.data <+: b.data
  typenames : a.typenames <+: b.typenames
  arguments : a.arguments <+: b.arguments
  inlines : a.inlines <+: b.inlines
  spreads : a.spreads <+: b.spreads
  fragments : a.fragments <+: b.fragments
  shared : a.shared <+: b.shared
  errors : a.errors <+: b.errors
  used : ∀ i ∈ a.used, i ∈ b.used
  small : a.data.length ≤ 65535 → b.data.length ≤ 65535

theorem Ext.refl (a : St) : Ext a a :=
  ⟨List.prefix_refl _, List.prefix_refl _, List.prefix_refl _, List.prefix_refl _, List.prefix_refl _, List.prefix_refl _,
    List.prefix_refl _, List.prefix_refl _, List.prefix_refl _, fun _ h => h, id⟩

theorem Ext.trans {a b c : St} (h : Ext a b) (g : Ext b c) : Ext a c :=
  ⟨h.keys.trans g.keys, h.data.trans g.data, h.typenames.trans g.typenames, h.arguments.trans g.arguments,
    h.inlines.trans g.inlines, h.spreads.trans g.spreads, h.fragments.trans g.fragments, h.shared.trans g.shared,
    h.errors.trans g.errors, fun i hi => g.used i (h.used i hi), fun x => g.small (h.small x)⟩

theorem Ext.noErrors {a b : St} (h : Ext a b) (hb : b.errors = []) : a.errors = [] := by
  have := h.errors
  rw [hb] at this
  exact List.prefix_nil.1 this

theorem getElem?_prefix {α : Type} {l l' : List α} (h : l <+: l') {i : Nat} {x : α} (hx : l[i]? = some x) : l'[i]? = some x := by
  obtain ⟨r, rfl⟩ := h
  have hi := (List.getElem?_eq_some_iff.1 hx).1
  rw [List.getElem?_append_left hi]
  exact hx

theorem slice_prefix {α : Type} {l l' : List α} (h : l <+: l') {r : Nat × Nat} (hr : r.2 ≤ l.length) : slice l' r = slice l r := by
  obtain ⟨x, rfl⟩ := h
  rw [slice, slice, List.take_append_of_le_length hr]

theorem slice_append {α : Type} (l xs : List α) : slice (l ++ xs) (l.length, l.length + xs.length) = xs := by
  rw [slice]
  simp only
  rw [← List.length_append, List.take_length, List.drop_left]

theorem Reads.mono {a b : St} (h : Ext a b) {ids : List SelId} {t : Tree} (hr : Reads a ids t) : Reads b ids t := by
  induction hr with
  | nil => exact .nil
  | typename h1 h2 _ ih => exact .typename (getElem?_prefix h.typenames h1) (getElem?_prefix h.keys h2) ih
  | data h1 h2 h3 h4 _ _ ih1 ih2 =>
    have := Reads.data (st := b) (getElem?_prefix h.data h1) (getElem?_prefix h.keys h2) (Nat.le_trans h3 h.arguments.length_le)
      (Nat.le_trans h4 h.shared.length_le) (by rw [slice_prefix h.shared h4]; exact ih1) ih2
    rw [slice_prefix h.arguments h3] at this
    exact this
  | spread h1 h2 h3 _ _ ih1 ih2 =>
    exact .spread (getElem?_prefix h.spreads h1) (getElem?_prefix h.fragments h2) (Nat.le_trans h3 h.shared.length_le)
      (by rw [slice_prefix h.shared h3]; exact ih1) ih2
  | inline h1 h2 _ _ ih1 ih2 =>
    exact .inline (getElem?_prefix h.inlines h1) (Nat.le_trans h2 h.shared.length_le)
      (by rw [slice_prefix h.shared h2]; exact ih1) ih2

/-! ## The parts -/

theorem used_ext (st : St) (l : List Nat) : Ext st { st with used := st.used ++ l } :=
  { Ext.refl st with used := fun i hi => List.mem_append_left _ hi }

theorem error_ext (st : St) (e : BindErr) : Ext st (st.error e) :=
  { Ext.refl st with errors := List.prefix_append _ _ }

theorem error_errors (st : St) (e : BindErr) {b : St} (h : Ext (st.error e) b) : b.errors ≠ [] := by
  intro hb
  have := h.noErrors hb
  simp [St.error] at this

theorem intern_ok {st st' : St} {s : Str} {i : Nat} (h : st.intern s = .ok (i, st')) :
    Ext st st' ∧ st'.keys[i]? = some s ∧ st'.errors = st.errors ∧ st'.used = st.used ∧ st'.names = st.names := by
  unfold St.intern at h
  split at h
  · rename_i j hj
    cases h
    refine ⟨Ext.refl _, ?_, rfl, rfl, rfl⟩
    obtain ⟨hlt, hp, _⟩ := List.findIdx?_eq_some_iff_getElem.1 hj
    rw [List.getElem?_eq_getElem hlt]
    simpa using hp
  · split at h
    · cases h
      exact ⟨{ Ext.refl st with keys := List.prefix_append _ _ }, by simp, rfl, rfl, rfl⟩
    · cases h

theorem pushSels_ok {st st' : St} {ids : List SelId} {r : Nat × Nat} (h : st.pushSels ids = .ok (r, st')) :
    Ext st st' ∧ r.2 ≤ st'.shared.length ∧ slice st'.shared r = ids ∧ st'.errors = st.errors ∧ st'.used = st.used ∧
    st'.names = st.names ∧ (r.1 = r.2 ↔ ids = []) := by
  unfold St.pushSels at h
  split at h
  · cases h
    refine ⟨{ Ext.refl st with shared := List.prefix_append _ _ }, by simp, slice_append _ _, rfl, rfl, rfl, ?_⟩
    simp
  · cases h

theorem pushArgs_ok {st st' : St} {args : List (Nat × Q)} {r : Nat × Nat} (h : st.pushArgs args = .ok (r, st')) :
    Ext st st' ∧ r.2 ≤ st'.arguments.length ∧ slice st'.arguments r = args ∧ st'.errors = st.errors ∧ st'.used = st.used ∧
    st'.names = st.names := by
  unfold St.pushArgs at h
  split at h
  · cases h
    exact ⟨{ Ext.refl st with arguments := List.prefix_append _ _ }, by simp, slice_append _ _, rfl, rfl, rfl⟩
  · cases h

theorem pushData_ok {st st' : St} {d : DataField} {i : Nat} (h : st.pushData d = .ok (i, st')) :
    Ext st st' ∧ st'.data[i]? = some d ∧ st'.errors = st.errors ∧ st'.used = st.used ∧ st'.names = st.names := by
  unfold St.pushData at h
  split at h
  · rename_i hlt
    cases h
    exact ⟨{ Ext.refl st with
      data := List.prefix_append _ _
      small := fun _ => by
        simp only [List.length_append, List.length_singleton, St.idLimit] at hlt ⊢
        omega }, by simp, rfl, rfl, rfl⟩
  · cases h

theorem pushTypename_ok {st st' : St} {d : TypenameField} {i : Nat} (h : st.pushTypename d = .ok (i, st')) :
    Ext st st' ∧ st'.typenames[i]? = some d ∧ st'.errors = st.errors ∧ st'.used = st.used ∧ st'.names = st.names := by
  unfold St.pushTypename at h
  split at h
  · cases h
    exact ⟨{ Ext.refl st with typenames := List.prefix_append _ _ }, by simp, rfl, rfl, rfl⟩
  · cases h

theorem pushSpread_ok {st st' : St} {d : Spread} {i : Nat} (h : st.pushSpread d = .ok (i, st')) :
    Ext st st' ∧ st'.spreads[i]? = some d ∧ st'.errors = st.errors ∧ st'.used = st.used ∧ st'.names = st.names := by
  unfold St.pushSpread at h
  split at h
  · cases h
    exact ⟨{ Ext.refl st with spreads := List.prefix_append _ _ }, by simp, rfl, rfl, rfl⟩
  · cases h

theorem pushInline_ok {st st' : St} {d : Inline} {i : Nat} (h : st.pushInline d = .ok (i, st')) :
    Ext st st' ∧ st'.inlines[i]? = some d ∧ st'.errors = st.errors ∧ st'.used = st.used ∧ st'.names = st.names := by
  unfold St.pushInline at h
  split at h
  · cases h
    exact ⟨{ Ext.refl st with inlines := List.prefix_append _ _ }, by simp, rfl, rfl, rfl⟩
  · cases h

theorem pushFragment_ok {st st' : St} {n : Str} {d : Fragment} {i : Nat} (h : st.pushFragment n d = .ok (i, st')) :
    Ext st st' ∧ st'.fragments[i]? = some d ∧ st'.errors = st.errors ∧ st'.used = st.used ∧ st'.names = (n, i) :: st.names := by
  unfold St.pushFragment at h
  split at h
  · cases h
    exact ⟨{ Ext.refl st with fragments := List.prefix_append _ _ }, by simp, rfl, rfl, rfl⟩
  · cases h

/-- The values as the code computes them. -/
def exact (S : Schema) (vars : List VarDef) : Values where
  args defs given xs := bindArguments S.input vars defs given = .ok xs
  cond v q := coerceQueryValue S.input (some vars) (booleanTy S) v = .ok q

variable {S : Schema} {vars : List VarDef} {frags : Frags}

theorem bindConds_ext (dirs : List Dir) : ∀ st, Ext st (bindConds S vars dirs st).1 := by
  induction dirs with
  | nil => exact fun st => Ext.refl st
  | cons d ds ih =>
    intro st
    rw [bindConds]
    split
    · split
      · exact (error_ext _ _).trans (ih _)
      · split
        · exact (used_ext _ _).trans (ih _)
        · exact (error_ext _ _).trans (ih _)
    · exact ih _

theorem bindConds_names (dirs : List Dir) : ∀ st, (bindConds S vars dirs st).1.names = st.names := by
  induction dirs with
  | nil => exact fun st => rfl
  | cons d ds ih =>
    intro st
    rw [bindConds]
    split
    · split
      · rw [ih]; rfl
      · split
        · rw [ih]
        · rw [ih]; rfl
    · exact ih _

theorem bindConds_ok (dirs : List Dir) : ∀ st, (bindConds S vars dirs st).1.errors = [] →
    Conds (exact S vars) false dirs (bindConds S vars dirs st).2 ∧
    (∀ i, i ∈ (bindConds S vars dirs st).1.used ↔ i ∈ st.used ∨ i ∈ (bindConds S vars dirs st).2.flatMap (fun c => varsIn c.2)) := by
  induction dirs with
  | nil => exact fun st _ => ⟨.nil, fun i => by simp [bindConds]⟩
  | cons d ds ih =>
    intro st
    rw [bindConds]
    split
    · rename_i hd
      split
      · intro h
        exact absurd h (error_errors _ _ (bindConds_ext ds _))
      · rename_i n v more hargs
        split
        · rename_i q hq
          intro h
          obtain ⟨h1, h2⟩ := ih _ h
          refine ⟨.cond hd hargs (fun h => by cases h) hq h1, fun i => ?_⟩
          rw [h2 i]
          simp only [List.mem_append, List.flatMap_cons, or_assoc]
        · intro h
          exact absurd h (error_errors _ _ (bindConds_ext ds _))
    · rename_i hd
      intro h
      obtain ⟨h1, h2⟩ := ih _ h
      exact ⟨.other (fun e => hd (.inl e)) (fun e => hd (.inr e)) rfl h1, h2⟩

theorem bindDirectives_ext (dirs : List Dir) (st : St) : Ext st (bindDirectives S vars dirs st).1 := bindConds_ext dirs st

theorem bindDirectives_names (dirs : List Dir) (st : St) : (bindDirectives S vars dirs st).1.names = st.names := bindConds_names dirs st

theorem mem_sortConds (l : List Cond) (c : Cond) : c ∈ sortConds l ↔ c ∈ l := by
  rw [sortConds, List.mem_append, List.mem_filter, List.mem_filter]
  constructor
  · rintro (h | h) <;> exact h.1
  · intro h
    cases hc : c.1
    · exact .inl ⟨h, by simp⟩
    · exact .inr ⟨h, rfl⟩

theorem bindDirectives_ok (dirs : List Dir) (st : St) (h : (bindDirectives S vars dirs st).1.errors = []) :
    CondsOf (exact S vars) false dirs (bindDirectives S vars dirs st).2 ∧
    (∀ i, i ∈ (bindDirectives S vars dirs st).1.used ↔
      i ∈ st.used ∨ i ∈ (bindDirectives S vars dirs st).2.flatMap (fun c => varsIn c.2)) := by
  obtain ⟨h1, h2⟩ := bindConds_ok dirs st h
  refine ⟨⟨(fun h => by cases h), _, h1, rfl⟩, fun i => ?_⟩
  rw [show (bindDirectives S vars dirs st).1 = (bindConds S vars dirs st).1 from rfl, h2 i]
  simp only [List.mem_flatMap, bindDirectives, mem_sortConds]

theorem bindArgs_ext {d : FieldDef} {args : List (Str × Lit)} {st st' : St} {r : Nat × Nat}
    (h : bindArgs S vars d args st = .ok (r, st')) : Ext st st' ∧ st'.names = st.names := by
  unfold bindArgs at h
  split at h
  · obtain ⟨h1, _, _, _, _, h5⟩ := pushArgs_ok h
    exact ⟨(used_ext _ _).trans h1, h5⟩
  · obtain ⟨h1, _, _, _, _, h5⟩ := pushArgs_ok h
    exact ⟨(error_ext _ _).trans h1, h5⟩

theorem bindArgs_ok {d : FieldDef} {args : List (Str × Lit)} {st st' : St} {r : Nat × Nat}
    (h : bindArgs S vars d args st = .ok (r, st')) (he : st'.errors = []) :
    (exact S vars).args d.args args (slice st'.arguments r) ∧ r.2 ≤ st'.arguments.length ∧
    (∀ i, i ∈ st'.used ↔ i ∈ st.used ∨ i ∈ varsInFields (slice st'.arguments r)) := by
  unfold bindArgs at h
  split at h
  · rename_i bound hb
    obtain ⟨h1, h2, h3, h4, h5, _⟩ := pushArgs_ok h
    rw [h3]
    refine ⟨hb, h2, fun i => ?_⟩
    rw [h5]
    exact List.mem_append
  · obtain ⟨h1, _⟩ := pushArgs_ok h
    exact absurd he (error_errors _ _ h1)

theorem typeCondition_ok {parent c : Comp} {name : Str} (h : typeCondition S parent name = .ok c) :
    Visible S name c ∧ S.intersects parent c = true := by
  unfold typeCondition at h
  split at h
  · cases h
  · rename_i d hd
    split at h
    · cases h
    · rename_i c' hc
      split at h
      · rename_i hi
        cases h
        refine ⟨?_, hi⟩
        rw [Option.filter_eq_some_iff] at hd
        obtain ⟨hd, hv⟩ := hd
        rw [Visible, hd]
        cases d
        simp at hc hv
        simp [hc, hv]
      · cases h

theorem fieldDef_ok {parent : Comp} {name : Str} {d : FieldDef} (h : fieldDef S parent name = .ok d) :
    (∀ id, parent ≠ .union id) ∧ S.fields parent name = some d ∧ d.inaccessible = false := by
  unfold fieldDef at h
  split at h
  · cases h
  · rename_i hp
    split at h
    · rename_i d' hd
      cases h
      rw [Option.filter_eq_some_iff] at hd
      exact ⟨fun id e => hp id e, hd.1, by simpa using hd.2⟩
    · cases h

theorem isNil_iff (s : Sels) : s.isNil = true ↔ s = .nil := by
  cases s <;> simp [Sels.isNil]

/-! ## Soundness -/

/-- The fragments that have been bound. -/
def Inv (S : Schema) (V : Values) (frags : Frags) (st : St) : Prop :=
  ∀ n i, st.names.lookup n = some i → ∃ frag f t, frags.lookup n = some frag ∧ Visible S frag.cond f.cond ∧
    st.fragments[i]? = some f ∧ f.sels.2 ≤ st.shared.length ∧ Reads st (slice st.shared f.sels) t ∧
    Means S V frags false f.cond frag.sels t ∧ ∀ v ∈ t.vars, v ∈ st.used

theorem Inv.mono {V : Values} {a b : St} (h : Ext a b) (hn : b.names = a.names) (hi : Inv S V frags a) : Inv S V frags b := by
  intro n i hl
  rw [hn] at hl
  obtain ⟨frag, f, t, h1, h2, h3, h4, h5, h6, h7⟩ := hi n i hl
  refine ⟨frag, f, t, h1, h2, getElem?_prefix h.fragments h3, Nat.le_trans h4 h.shared.length_le, ?_, h6, fun v hv => h.used v (h7 v hv)⟩
  rw [slice_prefix h.shared h4]
  exact h5.mono h

/-- What binding does. -/
def Good (S : Schema) (V : Values) (frags : Frags) (sels : Sels) (parent : Comp) (st : St) (ids : List SelId) (st' : St) : Prop :=
  Ext st st' ∧ (st'.errors = [] → Inv S V frags st → Inv S V frags st' ∧ ∃ t, Reads st' ids t ∧
    Means S V frags false parent sels t ∧ ∀ v, v ∈ st'.used ↔ v ∈ st.used ∨ v ∈ t.vars)

theorem Means.nil_iff {V : Values} {strict : Bool} {parent : Comp} {sels : Sels} {t : Tree} (h : Means S V frags strict parent sels t) :
    sels = .nil ↔ t = .nil := by
  cases h <;> simp

theorem Reads.nil_iff {st : St} {ids : List SelId} {t : Tree} (h : Reads st ids t) : ids = [] ↔ t = .nil := by
  cases h <;> simp

theorem bindFragment_good {enter : Sels → Comp → St → Res (List SelId × St)}
    (henter : ∀ sels c st ids st', enter sels c st = .ok (ids, st') → Good S (exact S vars) frags sels c st ids st')
    {parent : Comp} {name : Str} {st st' : St} {id : Option Nat} (h : bindFragment S frags enter parent name st = .ok (id, st')) :
    Ext st st' ∧ (st'.errors = [] → Inv S (exact S vars) frags st → Inv S (exact S vars) frags st' ∧
      ∃ i frag f t, id = some i ∧ frags.lookup name = some frag ∧ Visible S frag.cond f.cond ∧ S.intersects parent f.cond = true ∧
        st'.fragments[i]? = some f ∧ f.sels.2 ≤ st'.shared.length ∧ Reads st' (slice st'.shared f.sels) t ∧
        Means S (exact S vars) frags false f.cond frag.sels t ∧ ∀ v, v ∈ st'.used ↔ v ∈ st.used ∨ v ∈ t.vars) := by
  unfold bindFragment at h
  split at h
  · rename_i i hi
    split at h
    · cases h
    · rename_i f hf
      split at h
      · rename_i hint
        cases h
        refine ⟨Ext.refl _, fun _ hinv => ⟨hinv, ?_⟩⟩
        obtain ⟨frag, f', t, h1, h2, h3, h4, h5, h6, h7⟩ := hinv name i hi
        rw [hf] at h3
        cases h3
        refine ⟨i, frag, f, t, rfl, h1, h2, hint, hf, h4, h5, h6, fun v => ⟨.inl, ?_⟩⟩
        rintro (hv | hv)
        · exact hv
        · exact h7 v hv
      · cases h
        exact ⟨error_ext _ _, fun he => absurd he (error_errors _ _ (Ext.refl _))⟩
  · split at h
    · cases h
      exact ⟨error_ext _ _, fun he => absurd he (error_errors _ _ (Ext.refl _))⟩
    · rename_i frag hfrag
      split at h
      · cases h
        exact ⟨error_ext _ _, fun he => absurd he (error_errors _ _ (Ext.refl _))⟩
      · rename_i c hc
        obtain ⟨⟨ids, s1⟩, h1, h⟩ := Res.bind_ok h
        obtain ⟨⟨r, s2⟩, h2, h⟩ := Res.bind_ok h
        obtain ⟨⟨j, s3⟩, h3, h⟩ := Res.map_ok h
        simp only at h2 h3 h
        cases h
        obtain ⟨g1, g2⟩ := henter _ _ _ _ _ h1
        obtain ⟨e2, r2, sl2, er2, us2, nm2, _⟩ := pushSels_ok h2
        obtain ⟨e3, fr3, er3, us3, nm3⟩ := pushFragment_ok h3
        refine ⟨g1.trans (e2.trans e3), fun he hinv => ?_⟩
        obtain ⟨k1, t, k2, k3, k4⟩ := g2 ((e2.trans e3).noErrors he) hinv
        have hread : Reads st' (slice st'.shared r) t := by
          rw [slice_prefix e3.shared r2, sl2]
          exact k2.mono (e2.trans e3)
        have hused : ∀ v, v ∈ st'.used ↔ v ∈ st.used ∨ v ∈ t.vars := fun v => by rw [us3, us2]; exact k4 v
        obtain ⟨hv, hint⟩ := typeCondition_ok hc
        refine ⟨?_, j, frag, ⟨c, r⟩, t, rfl, hfrag, hv, hint, fr3, Nat.le_trans r2 e3.shared.length_le, hread, k3, hused⟩
        intro n i hl
        rw [nm3, List.lookup_cons] at hl
        by_cases hn : n = name
        · subst hn
          simp at hl
          subst hl
          exact ⟨frag, ⟨c, r⟩, t, hfrag, hv, fr3, Nat.le_trans r2 e3.shared.length_le, hread, k3, fun v h => (hused v).2 (.inr h)⟩
        · have hb : (n == name) = false := by simpa using hn
          rw [hb] at hl
          simp only at hl
          rw [nm2] at hl
          obtain ⟨fr', f', t', m1, m2, m3, m4, m5, m6, m7⟩ := k1 n i hl
          have e := e2.trans e3
          refine ⟨fr', f', t', m1, m2, getElem?_prefix e.fragments m3, Nat.le_trans m4 e.shared.length_le, ?_, m6,
            fun v hv => e.used v (m7 v hv)⟩
          rw [slice_prefix e.shared m4]
          exact m5.mono e

theorem bindSub_good {enter : Comp → St → Res (List SelId × St)} {d : FieldDef} {sub : Sels}
    (henter : ∀ c st ids st', enter c st = .ok (ids, st') → Good S (exact S vars) frags sub c st ids st')
    {st st' : St} {r : Option (Nat × Nat)} (h : bindSub d (!sub.isNil) enter st = .ok (r, st')) :
    Ext st st' ∧ (st'.errors = [] → Inv S (exact S vars) frags st → Inv S (exact S vars) frags st' ∧
      ∃ sels t, r = some sels ∧ sels.2 ≤ st'.shared.length ∧ Reads st' (slice st'.shared sels) t ∧
        (∀ v, v ∈ st'.used ↔ v ∈ st.used ∨ v ∈ t.vars) ∧
        ((d.output = none ∧ sub = .nil ∧ t = .nil) ∨
          ∃ c, d.output = some c ∧ sub ≠ .nil ∧ Means S (exact S vars) frags false c sub t)) := by
  unfold bindSub at h
  split at h
  · rename_i c hc
    obtain ⟨⟨ids, s1⟩, h1, h⟩ := Res.bind_ok h
    obtain ⟨⟨p, s2⟩, h2, h⟩ := Res.map_ok h
    simp only at h2 h
    obtain ⟨g1, g2⟩ := henter _ _ _ _ h1
    obtain ⟨e2, r2, sl2, er2, us2, nm2, em⟩ := pushSels_ok h2
    split at h
    · cases h
      exact ⟨(g1.trans e2).trans (error_ext _ _), fun he => absurd he (error_errors _ _ (Ext.refl _))⟩
    · rename_i hne
      cases h
      refine ⟨g1.trans e2, fun he hinv => ?_⟩
      obtain ⟨k1, t, k2, k3, k4⟩ := g2 (e2.noErrors he) hinv
      refine ⟨k1.mono e2 nm2, p, t, rfl, r2, ?_, fun v => by rw [us2]; exact k4 v, .inr ⟨c, hc, ?_, k3⟩⟩
      · rw [sl2]
        exact k2.mono e2
      · intro hnil
        apply hne
        have : ids = [] := k2.nil_iff.2 (k3.nil_iff.1 hnil)
        exact ⟨em.2 this, by rw [he, (g1.trans e2).noErrors he]⟩
  · rename_i hc
    split at h
    · cases h
      exact ⟨error_ext _ _, fun he => absurd he (error_errors _ _ (Ext.refl _))⟩
    · rename_i hw
      cases h
      have hnil : sub = .nil := (isNil_iff _).1 (by simpa using hw)
      exact ⟨Ext.refl _, fun _ hinv => ⟨hinv, (0, 0), .nil, rfl, Nat.zero_le _, .nil, fun v => by simp [Tree.vars],
        .inl ⟨hc, hnil, rfl⟩⟩⟩

theorem finishField_ok {d : FieldDef} {name : Str} {alias : Option Str} {args : List (Str × Lit)} {dirs : List Dir}
    {sels : Nat × Nat} {st st' : St} {i : Nat} (h : finishField S vars d name alias args dirs sels st = .ok (i, st')) :
    Ext st st' ∧ st'.names = st.names ∧ (st'.errors = [] → ∃ f, st'.data[i]? = some f ∧ f.definition = d.id ∧ f.sels = sels ∧
      st'.keys[f.key]? = some (alias.getD name) ∧ f.args.2 ≤ st'.arguments.length ∧
      (exact S vars).args d.args args (slice st'.arguments f.args) ∧ CondsOf (exact S vars) false dirs f.dirs ∧
      ∀ v, v ∈ st'.used ↔ v ∈ st.used ∨ v ∈ varsInFields (slice st'.arguments f.args) ++ f.dirs.flatMap (fun c => varsIn c.2)) := by
  unfold finishField at h
  obtain ⟨⟨a, s1⟩, h1, h⟩ := Res.bind_ok h
  simp only at h
  obtain ⟨⟨k, s2⟩, h2, h⟩ := Res.bind_ok h
  simp only at h
  obtain ⟨e1, n1⟩ := bindArgs_ext h1
  have e2 := bindDirectives_ext (S := S) (vars := vars) dirs s1
  obtain ⟨e3, k3, er3, us3, nm3⟩ := intern_ok h2
  obtain ⟨e4, d4, er4, us4, nm4⟩ := pushData_ok h
  refine ⟨e1.trans (e2.trans (e3.trans e4)), by rw [nm4, nm3, bindDirectives_names, n1], fun he => ?_⟩
  refine ⟨_, d4, rfl, rfl, getElem?_prefix e4.keys k3, ?_⟩
  have hd : (bindDirectives S vars dirs s1).1.errors = [] := by rw [← er3, ← er4]; exact he
  have ha := e2.noErrors hd
  obtain ⟨a1, a2, a3⟩ := bindArgs_ok h1 ha
  obtain ⟨d1, d2⟩ := bindDirectives_ok dirs s1 hd
  have e := e2.trans (e3.trans e4)
  simp only
  rw [slice_prefix e.arguments a2]
  refine ⟨Nat.le_trans a2 e.arguments.length_le, a1, d1, fun v => ?_⟩
  rw [us4, us3, d2 v, a3 v, List.mem_append, or_assoc]

theorem bindTypename_ok {name : Str} {alias : Option Str} {dirs : List Dir} {st st' : St} {i : Nat}
    (h : bindTypename S vars name alias dirs st = .ok (i, st')) :
    Ext st st' ∧ st'.names = st.names ∧ (st'.errors = [] → ∃ f, st'.typenames[i]? = some f ∧
      st'.keys[f.key]? = some (alias.getD name) ∧ CondsOf (exact S vars) false dirs f.dirs ∧
      ∀ v, v ∈ st'.used ↔ v ∈ st.used ∨ v ∈ f.dirs.flatMap (fun c => varsIn c.2)) := by
  unfold bindTypename at h
  simp only at h
  obtain ⟨⟨k, s2⟩, h2, h⟩ := Res.bind_ok h
  simp only at h
  have e2 := bindDirectives_ext (S := S) (vars := vars) dirs st
  obtain ⟨e3, k3, er3, us3, nm3⟩ := intern_ok h2
  obtain ⟨e4, d4, er4, us4, nm4⟩ := pushTypename_ok h
  refine ⟨e2.trans (e3.trans e4), by rw [nm4, nm3, bindDirectives_names], fun he => ?_⟩
  have hd : (bindDirectives S vars dirs st).1.errors = [] := by rw [← er3, ← er4]; exact he
  obtain ⟨d1, d2⟩ := bindDirectives_ok dirs st hd
  exact ⟨_, d4, getElem?_prefix e4.keys k3, d1, fun v => by rw [us4, us3]; exact d2 v⟩

theorem bindWith_good {enter : Sels → Comp → St → Res (List SelId × St)}
    (henter : ∀ sels c st ids st', enter sels c st = .ok (ids, st') → Good S (exact S vars) frags sels c st ids st')
    (sels : Sels) : ∀ c st ids st', bindWith S vars frags enter sels c st = .ok (ids, st') →
      Good S (exact S vars) frags sels c st ids st' := by
  induction sels with
  | nil =>
    intro c st ids st' h
    cases h
    exact ⟨Ext.refl _, fun _ hinv => ⟨hinv, .nil, .nil, .nil, fun v => by simp [Tree.vars]⟩⟩
  | field name alias args dirs sub rest ihs ihr =>
    intro c st ids st' h
    rw [bindWith] at h
    split at h
    · rename_i hname
      subst hname
      obtain ⟨⟨i, s1⟩, h1, h⟩ := Res.bind_ok h
      obtain ⟨⟨is, s2⟩, h2, h⟩ := Res.map_ok h
      simp only at h2 h
      cases h
      obtain ⟨e1, n1, k1⟩ := bindTypename_ok h1
      obtain ⟨e2, k2⟩ := ihr _ _ _ _ h2
      refine ⟨e1.trans e2, fun he hinv => ?_⟩
      obtain ⟨f, f1, f2, f3, f4⟩ := k1 (e2.noErrors he)
      obtain ⟨i2, t, t1, t2, t3⟩ := k2 he (hinv.mono e1 n1)
      refine ⟨i2, _, .typename (getElem?_prefix e2.typenames f1) (getElem?_prefix e2.keys f2) t1,
        .typename f3 (fun h => by cases h) t2, fun v => ?_⟩
      rw [t3 v, f4 v, Tree.vars]
      simp only [mentions_eq, List.mem_append, or_assoc]
    · rename_i hname
      split at h
      · obtain ⟨e2, _⟩ := ihr _ _ _ _ h
        exact ⟨(error_ext _ _).trans e2, fun he => absurd he (error_errors _ _ e2)⟩
      · rename_i d hd
        obtain ⟨⟨r, s1⟩, h1, h⟩ := Res.bind_ok h
        simp only at h
        obtain ⟨e1, k1⟩ := bindSub_good (S := S) (vars := vars) (frags := frags) ihs h1
        split at h
        · obtain ⟨e2, _⟩ := ihr _ _ _ _ h
          refine ⟨e1.trans e2, fun he hinv => ?_⟩
          obtain ⟨_, _, _, hr, _⟩ := k1 (e2.noErrors he) hinv
          cases hr
        · rename_i range
          obtain ⟨⟨i, s2⟩, h2, h⟩ := Res.bind_ok h
          obtain ⟨⟨is, s3⟩, h3, h⟩ := Res.map_ok h
          simp only at h3 h
          cases h
          obtain ⟨e2, n2, k2⟩ := finishField_ok h2
          obtain ⟨e3, k3⟩ := ihr _ _ _ _ h3
          refine ⟨e1.trans (e2.trans e3), fun he hinv => ?_⟩
          obtain ⟨i1, sels', s, hr, q1, q2, q3, q4⟩ := k1 ((e2.trans e3).noErrors he) hinv
          cases hr
          obtain ⟨f, f1, f2, f3, f4, f5, f6, f7, f8⟩ := k2 (e3.noErrors he)
          obtain ⟨i3, t, t1, t2, t3⟩ := k3 he (i1.mono e2 n2)
          obtain ⟨hu, hf, hacc⟩ := fieldDef_ok hd
          have e23 := e2.trans e3
          have hread := Reads.data (getElem?_prefix e3.data f1) (getElem?_prefix e3.keys f4)
            (Nat.le_trans f5 e3.arguments.length_le) (by rw [f3]; exact Nat.le_trans q1 e23.shared.length_le)
            (s := s) (by rw [f3, slice_prefix e23.shared q1]; exact q2.mono e23) t1
          rw [f2, slice_prefix e3.arguments f5] at hread
          refine ⟨i3, _, hread, ?_, fun v => ?_⟩
          · rcases q4 with ⟨ho, hsub, hs⟩ | ⟨c', ho, hsub, hm⟩
            · subst hsub; subst hs
              exact .leaf hname hu hf hacc ho f6 f7 t2
            · exact .field hname hu hf hacc ho hsub f6 f7 hm t2
          · rw [t3 v, f8 v, q3 v, Tree.vars]
            simp only [mentions_eq, mentionsFields_eq, List.mem_append]
            constructor
            · rintro (((h | h) | (h | h)) | h)
              · exact .inl h
              · exact .inr (.inl (.inr h))
              · exact .inr (.inl (.inl (.inl h)))
              · exact .inr (.inl (.inl (.inr h)))
              · exact .inr (.inr h)
            · rintro (h | (((h | h) | h) | h))
              · exact .inl (.inl (.inl h))
              · exact .inl (.inr (.inl h))
              · exact .inl (.inr (.inr h))
              · exact .inl (.inl (.inr h))
              · exact .inr h
  | spread name dirs rest ihr =>
    intro c st ids st' h
    rw [bindWith] at h
    obtain ⟨⟨r, s1⟩, h1, h⟩ := Res.bind_ok h
    simp only at h
    obtain ⟨e1, k1⟩ := bindFragment_good henter h1
    split at h
    · obtain ⟨e2, _⟩ := ihr _ _ _ _ h
      refine ⟨e1.trans e2, fun he hinv => ?_⟩
      obtain ⟨_, _, _, _, _, hr, _⟩ := k1 (e2.noErrors he) hinv
      cases hr
    · rename_i id
      obtain ⟨⟨i, s2⟩, h2, h⟩ := Res.bind_ok h
      obtain ⟨⟨is, s3⟩, h3, h⟩ := Res.map_ok h
      simp only at h3 h
      cases h
      have ed := bindDirectives_ext (S := S) (vars := vars) dirs s1
      obtain ⟨e2, d2, er2, us2, nm2⟩ := pushSpread_ok h2
      obtain ⟨e3, k3⟩ := ihr _ _ _ _ h3
      have e23 := e2.trans e3
      have ed3 := ed.trans e23
      refine ⟨e1.trans ed3, fun he hinv => ?_⟩
      obtain ⟨i1, j, frag, f, s, hr, q1, q2, q3, q4, q5, q6, q7, q8⟩ := k1 (ed3.noErrors he) hinv
      cases hr
      obtain ⟨dd1, dd2⟩ := bindDirectives_ok dirs s1 (e23.noErrors he)
      obtain ⟨i3, t, t1, t2, t3⟩ := k3 he ((i1.mono ed (bindDirectives_names _ _)).mono e2 nm2)
      refine ⟨i3, _, .spread (getElem?_prefix e3.spreads d2) (getElem?_prefix ed3.fragments q4)
        (Nat.le_trans q5 ed3.shared.length_le) (by rw [slice_prefix ed3.shared q5]; exact q6.mono ed3) t1,
        .spread q1 q2 q3 dd1 q7 t2, fun v => ?_⟩
      rw [t3 v, us2, dd2 v, q8 v, Tree.vars]
      simp only [mentions_eq, mentionsFields_eq, List.mem_append]
      constructor
      · rintro (((h | h) | h) | h)
        · exact .inl h
        · exact .inr (.inl (.inr h))
        · exact .inr (.inl (.inl h))
        · exact .inr (.inr h)
      · rintro (h | ((h | h) | h))
        · exact .inl (.inl (.inl h))
        · exact .inl (.inr h)
        · exact .inl (.inl (.inr h))
        · exact .inr h
  | inline cond dirs sub rest ihs ihr =>
    intro c st ids st' h
    rw [bindWith] at h
    split at h
    · obtain ⟨e2, _⟩ := ihr _ _ _ _ h
      exact ⟨(error_ext _ _).trans e2, fun he => absurd he (error_errors _ _ e2)⟩
    · rename_i c' hc
      obtain ⟨⟨is, s1⟩, h1, h⟩ := Res.bind_ok h
      obtain ⟨⟨r, s2⟩, h2, h⟩ := Res.bind_ok h
      simp only at h2 h
      obtain ⟨⟨i, s3⟩, h3, h⟩ := Res.bind_ok h
      obtain ⟨⟨is', s4⟩, h4, h⟩ := Res.map_ok h
      simp only at h4 h
      cases h
      obtain ⟨e1, k1⟩ := ihs _ _ _ _ h1
      obtain ⟨e2, r2, sl2, er2, us2, nm2, _⟩ := pushSels_ok h2
      have ed := bindDirectives_ext (S := S) (vars := vars) dirs s2
      obtain ⟨e3, d3, er3, us3, nm3⟩ := pushInline_ok h3
      obtain ⟨e4, k4⟩ := ihr _ _ _ _ h4
      have e34 := e3.trans e4
      have ed4 := ed.trans e34
      refine ⟨e1.trans (e2.trans ed4), fun he hinv => ?_⟩
      obtain ⟨i1, s, q1, q2, q3⟩ := k1 ((e2.trans ed4).noErrors he) hinv
      obtain ⟨dd1, dd2⟩ := bindDirectives_ok dirs s2 (e34.noErrors he)
      obtain ⟨i4, t, t1, t2, t3⟩ := k4 he (((i1.mono e2 nm2).mono ed (bindDirectives_names _ _)).mono e3 nm3)
      have hread := Reads.inline (getElem?_prefix e4.inlines d3) (Nat.le_trans r2 ed4.shared.length_le) (s := s)
        (by
          simp only
          rw [slice_prefix ed4.shared r2, sl2]
          exact q1.mono (e2.trans ed4)) t1
      refine ⟨i4, _, hread, ?_, fun v => ?_⟩
      · cases cond with
        | none =>
          cases hc
          exact .inline dd1 q2 t2
        | some n =>
          rw [inlineCondition] at hc
          cases htc : typeCondition S c n with
          | error e => rw [htc] at hc; cases hc
          | ok c'' =>
            rw [htc] at hc
            cases hc
            obtain ⟨v1, v2⟩ := typeCondition_ok htc
            exact .inlineOn v1 v2 dd1 q2 t2
      · rw [t3 v, us3, dd2 v, us2, q3 v, Tree.vars]
        simp only [mentions_eq, mentionsFields_eq, List.mem_append]
        constructor
        · rintro (((h | h) | h) | h)
          · exact .inl h
          · exact .inr (.inl (.inr h))
          · exact .inr (.inl (.inl h))
          · exact .inr (.inr h)
        · rintro (h | ((h | h) | h))
          · exact .inl (.inl (.inl h))
          · exact .inl (.inr h)
          · exact .inl (.inl (.inr h))
          · exact .inr h

theorem bindSels_good (n : Nat) : ∀ sels c st ids st', bindSels S vars frags n sels c st = .ok (ids, st') →
    Good S (exact S vars) frags sels c st ids st' := by
  induction n with
  | zero => exact fun sels => bindWith_good (fun _ _ _ _ _ h => by cases h) sels
  | succ n ih => exact fun sels => bindWith_good ih sels

end Verif.Bind
