import Verif.FieldOwners.Witness

/-!
# C69: a field is asked of the subgraphs that resolve it

Composition accepts the definitions of an object type, prints the schema, and the engine reads for each field
the subgraphs it may be asked of.
-/

namespace Verif.FieldOwners

open Verif.FieldTypes Witness

/-- The engine's view of a field of a composed type. -/
def ComposedObject.engine (u : Unicode) (sg : List Subgraph) (o : ComposedObject) (c : ComposedField) : EngineField :=
  engineField u sg o.joinTypes c

/-- The engine may ask the subgraph `i` for the field. -/
def AskedOf (u : Unicode) (sg : List Subgraph) (role : Role) (defs : List Def) (c : ComposedField) (i : Nat) : Prop :=
  ∃ s, sg[i]? = some s ∧ enumName u s.name ∈ ((composeObject sg role defs).1.engine u sg c).existsIn

/-- **C69.** The fields of the composed type are those of the subgraphs, each once, and the engine reads them
without an error and asks only subgraphs that exist. -/
theorem C69_fields {u : Unicode} {sg : List Subgraph} (hd : DistinctEnums u sg) {role : Role} {defs : List Def} (hw : WF sg defs)
    (h : (composeObject sg role defs).2 = []) :
    ((composeObject sg role defs).1.fields.map (·.name)).Nodup ∧
    (∀ n, n ∈ (composeObject sg role defs).1.fields.map (·.name) ↔ ∃ d ∈ defs, ∃ f ∈ d.fields, f.name = n) ∧
    ∀ c ∈ (composeObject sg role defs).1.fields,
      ((composeObject sg role defs).1.engine u sg c).errors = 0 ∧
      ((composeObject sg role defs).1.engine u sg c).existsIn.Nodup ∧
      ∀ y ∈ ((composeObject sg role defs).1.engine u sg c).existsIn, ∃ i s, sg[i]? = some s ∧ y = enumName u s.name ∧
        AskedOf u sg role defs c i := by
  obtain ⟨_, h2, h3, _⟩ := accepted_parts h
  obtain ⟨n1, n2⟩ := composed_names h2
  rw [h3]
  refine ⟨n1, n2, fun c hc => ?_⟩
  rw [← h3] at hc
  obtain ⟨hn, hj, _⟩ := composed_field h hc
  obtain ⟨o1, o2, _, o4, _⟩ := owners hd hw hn (joinTypes_valid hw h) hj
  refine ⟨o1, o2, fun y hy => ?_⟩
  obtain ⟨i, s, hs, rfl⟩ := mem_engineGraphs.1 (o4 y hy)
  exact ⟨i, s, hs, rfl, s, hs, hy⟩

/-- **C69, exactly.** Which subgraphs a field is asked of. If all definitions of the field are overridden, it
is those with the type, or all for a root type. Otherwise it is those which define the field, not only refer to
it, are not overridden, and whose enum value is not the name given in an `@override`. -/
theorem C69_owners_exact {u : Unicode} {sg : List Subgraph} (hd : DistinctEnums u sg) {role : Role} {defs : List Def}
    (hw : WF sg defs) (h : (composeObject sg role defs).2 = []) {c : ComposedField}
    (hc : c ∈ (composeObject sg role defs).1.fields) {i : Nat} {s : Subgraph} (hs : sg[i]? = some s) :
    AskedOf u sg role defs c i ↔
      (AllOverridden sg defs c.name ∧ (role = .object → HasType defs i)) ∨
      (¬ AllOverridden sg defs c.name ∧ Resolves sg defs c.name i ∧ ¬ OverridesName sg defs c.name (enumName u s.name)) := by
  obtain ⟨hn, hj, _⟩ := composed_field h hc
  obtain ⟨_, _, _, _, o5⟩ := owners hd hw hn (joinTypes_valid hw h) hj
  have hi : i < sg.length := (List.getElem?_eq_some_iff.1 hs).1
  have hname : nameOf sg i = s.name := by simp [nameOf, hs]
  have h5 := o5 i hi
  rw [hname] at h5
  have hask : AskedOf u sg role defs c i ↔ enumName u s.name ∈ ((composeObject sg role defs).1.engine u sg c).existsIn := by
    constructor
    · rintro ⟨t, ht, hm⟩
      rw [hs] at ht
      cases ht
      exact hm
    · exact fun hm => ⟨s, hs, hm⟩
  rw [hask]
  refine h5.trans ?_
  obtain ⟨_, _, _, a4, a5⟩ := accepted_parts h
  have hjt : AllOverridden sg defs c.name → (((composeObject sg role defs).1.joinTypes = [] ∨ i ∈ (composeObject sg role defs).1.joinTypes) ↔
      (role = .object → HasType defs i)) := by
    intro _
    by_cases hr : role = .object
    · obtain ⟨he, hjt⟩ := a4 hr
      rw [hjt, ← mem_joinTypes he]
      constructor
      · rintro (hnil | hmem) _
        · exfalso
          obtain ⟨d, hd', f, _⟩ := hn
          by_cases hk : ∃ e ∈ defs, e.keys ≠ []
          · obtain ⟨e, he', hek⟩ := hk
            have := (mem_joinTypes he e.subgraph).2 ⟨e, he', rfl, fun _ => hek⟩
            rw [hnil] at this
            cases this
          · have := (mem_joinTypes he d.subgraph).2 ⟨d, hd', rfl, fun h => absurd h hk⟩
            rw [hnil] at this
            cases this
        · exact hmem
      · exact fun h => Or.inr (h hr)
    · rw [a5 hr]
      simp [hr]
  constructor
  · rintro (⟨h1, h2⟩ | h1)
    · exact Or.inl ⟨h1, (hjt h1).1 h2⟩
    · exact Or.inr h1
  · rintro (⟨h1, h2⟩ | h1)
    · exact Or.inl ⟨h1, (hjt h1).2 h2⟩
    · exact Or.inr h1

/-- Every `@override` of the field that names a value of the enum names a subgraph and is for all requests. -/
def PlainOverrides (u : Unicode) (sg : List Subgraph) (defs : List Def) (n : Nat) : Prop :=
  ∀ d ∈ defs, ∀ f ∈ d.fields, f.name = n → ∀ o, f.override = some o → ∀ (i : Nat) (s : Subgraph), sg[i]? = some s →
    o.src = enumName u s.name → o.src = s.name ∧ FullLabel o.label

/-- **C69.** If some definition is not overridden and the names in `@override` are no enum values (or the override
is for all requests), the field is asked of exactly the subgraphs that resolve it. -/
theorem C69_owners_partial {u : Unicode} {sg : List Subgraph} (hd : DistinctEnums u sg) {role : Role} {defs : List Def}
    (hw : WF sg defs) (h : (composeObject sg role defs).2 = []) {c : ComposedField}
    (hc : c ∈ (composeObject sg role defs).1.fields) (hall : ¬ AllOverridden sg defs c.name)
    (hp : PlainOverrides u sg defs c.name) (i : Nat) :
    AskedOf u sg role defs c i ↔ Resolves sg defs c.name i := by
  constructor
  · intro ha
    obtain ⟨s, hs, _⟩ := id ha
    rcases (C69_owners_exact hd hw h hc hs).1 ha with h1 | h1
    · exact absurd h1.1 hall
    · exact h1.2.1
  · intro hr
    obtain ⟨⟨d, hd', hdi, _⟩, _⟩ := id hr
    obtain ⟨s, hs⟩ := getElem?_of_graph (sg := sg) (i := i) (hdi ▸ hw.graph d hd')
    refine (C69_owners_exact hd hw h hc hs).2 (Or.inr ⟨hall, hr, ?_⟩)
    rintro ⟨e, he, _, f, hf, hfn, o, ho, hsrc⟩
    obtain ⟨h1, h2⟩ := hp e he f hf hfn o ho i s hs hsrc
    exact hr.2 ⟨e, he, f, hf, hfn, o, ho, ⟨s, hs, h1⟩, h2⟩

theorem exists_max {α : Type} (r : α → Nat) : ∀ (l : List α), l ≠ [] → ∃ a ∈ l, ∀ b ∈ l, r b ≤ r a := by
  intro l
  induction l with
  | nil => intro h; exact absurd rfl h
  | cons x xs ih =>
    intro _
    cases hx : xs with
    | nil => exact ⟨x, List.mem_cons_self, fun b hb => by rw [List.mem_singleton] at hb; rw [hb]; exact Nat.le_refl _⟩
    | cons y ys =>
      rw [← hx]
      obtain ⟨a, ha, hm⟩ := ih (by rw [hx]; simp)
      by_cases hle : r a ≤ r x
      · refine ⟨x, List.mem_cons_self, fun b hb => ?_⟩
        rcases List.mem_cons.1 hb with rfl | hb
        · exact Nat.le_refl _
        · exact Nat.le_trans (hm b hb) hle
      · refine ⟨a, List.mem_cons_of_mem _ ha, fun b hb => ?_⟩
        rcases List.mem_cons.1 hb with rfl | hb
        · omega
        · exact hm b hb

/-- **C69.** If overrides of the field do not form a cycle, a subgraph that overrides does not only refer to the field,
and some subgraph does not only refer to it, then there is a subgraph to ask. -/
theorem C69_resolved_partial {u : Unicode} {sg : List Subgraph} (hd : DistinctEnums u sg) {role : Role} {defs : List Def}
    (hw : WF sg defs) (h : (composeObject sg role defs).2 = []) {c : ComposedField}
    (hc : c ∈ (composeObject sg role defs).1.fields) (hp : PlainOverrides u sg defs c.name)
    (rank : Nat → Nat)
    (hacyclic : ∀ d ∈ defs, ∀ f ∈ d.fields, f.name = c.name → ∀ o, f.override = some o → ¬ ExternalIn d f ∧
      ∀ (i : Nat) (s : Subgraph), sg[i]? = some s → o.src = s.name → rank i < rank d.subgraph)
    (hsome : ∃ d ∈ defs, ∃ f ∈ d.fields, f.name = c.name ∧ ¬ ExternalIn d f) :
    ∃ i, AskedOf u sg role defs c i := by
  have hres : ∃ i, Resolves sg defs c.name i := by
    have hne : (named defs c.name).filter (fun v => !(v.isExternal && !v.isPartOfKey)) ≠ [] := by
      obtain ⟨d, hd', f, hf, hfn, hx⟩ := hsome
      apply List.ne_nil_of_mem (a := ⟨d, f⟩)
      refine List.mem_filter.2 ⟨mem_named.2 ⟨hd', hf, hfn⟩, ?_⟩
      rw [← external_iff (⟨d, f⟩ : View), Bool.not_eq_true] at hx
      rw [hx]; rfl
    obtain ⟨v, hv, hm⟩ := exists_max (fun v : View => rank v.d.subgraph) _ hne
    obtain ⟨hv1, hv2⟩ := List.mem_filter.1 hv
    obtain ⟨m1, m2, m3⟩ := mem_named.1 hv1
    rw [Bool.not_eq_true'] at hv2
    refine ⟨v.d.subgraph, ⟨v.d, m1, rfl, v.f, m2, m3, ?_⟩, ?_⟩
    · rw [← external_iff, hv2]; simp
    · rintro ⟨e, he, g, hg, hgn, o, ho, ⟨s, hs, hsn⟩, _⟩
      obtain ⟨hx, hr⟩ := hacyclic e he g hg hgn o ho
      have h1 := hr _ s hs hsn
      have h2 := hm ⟨e, g⟩ (List.mem_filter.2 ⟨mem_named.2 ⟨he, hg, hgn⟩, by
        rw [← external_iff (⟨e, g⟩ : View), Bool.not_eq_true] at hx
        rw [hx]; rfl⟩)
      simp only at h2
      omega
  obtain ⟨i, hi⟩ := hres
  refine ⟨i, (C69_owners_partial hd hw h hc ?_ hp i).2 hi⟩
  intro hall
  obtain ⟨⟨d, hd', rfl, f, hf, hfn, _⟩, ho⟩ := hi
  exact ho (hall d hd' f hf hfn)

/-- **C69.** The engine knows the type of the field in each subgraph that may be asked: the composed one or, if it
differs, the one recorded for the subgraph. -/
theorem C69_types {u : Unicode} {sg : List Subgraph} (hd : DistinctEnums u sg) {role : Role} {defs : List Def}
    (hw : WF sg defs) (h : (composeObject sg role defs).2 = []) {c : ComposedField}
    (hc : c ∈ (composeObject sg role defs).1.fields) {d : Def} (hdm : d ∈ defs) {f : Field} (hf : f ∈ d.fields)
    (hfn : f.name = c.name) (ho : ¬ Overridden sg defs c.name d.subgraph) {s : Subgraph} (hs : sg[d.subgraph]? = some s) :
    (∀ t, (enumName u s.name, t) ∈ ((composeObject sg role defs).1.engine u sg c).types → t = f.ty) ∧
    (f.ty ≠ c.ty → (enumName u s.name, f.ty) ∈ ((composeObject sg role defs).1.engine u sg c).types) ∧
    composeAll composeForOutput ((defs.flatMap fun d => d.fields.filter fun f => decide (f.name = c.name)).map (·.ty)) = some c.ty := by
  obtain ⟨hn, hj, _, _, _, _, _, hty, _⟩ := composed_field h hc
  obtain ⟨_, _, o3, _, _⟩ := owners hd hw hn (joinTypes_valid hw h) hj
  have hname : nameOf sg d.subgraph = s.name := by simp [nameOf, hs]
  refine ⟨fun t ht => ?_, fun hne => ?_, ?_⟩
  · obtain ⟨v, hv, _, he, rfl, _⟩ := (o3 _ _).1 ht
    obtain ⟨m1, m2, m3⟩ := mem_named.1 hv
    rw [← hname, enum_inj hd (hw.graph d hdm) (hw.graph _ m1)] at he
    have hde : v.d = d := by
      apply Classical.byContradiction
      intro hne
      have := hw.one
      rw [List.pairwise_iff_getElem] at this
      obtain ⟨a, ha, ea⟩ := List.mem_iff_getElem.1 m1
      obtain ⟨b, hb, eb⟩ := List.mem_iff_getElem.1 hdm
      rcases Nat.lt_trichotomy a b with hlt | heq | hgt
      · exact this a b ha hb hlt (by rw [ea, eb, he])
      · subst heq; exact hne (ea.symm.trans eb)
      · exact this b a hb ha hgt (by rw [ea, eb, he])
    have hfe : v.f = f := by
      apply Classical.byContradiction
      intro hne
      have hp := hw.fields d hdm
      rw [List.pairwise_iff_getElem] at hp
      rw [hde] at m2
      obtain ⟨a, ha, ea⟩ := List.mem_iff_getElem.1 m2
      obtain ⟨b, hb, eb⟩ := List.mem_iff_getElem.1 hf
      rcases Nat.lt_trichotomy a b with hlt | heq | hgt
      · exact hp a b ha hb hlt (by rw [ea, eb, m3, hfn])
      · subst heq; exact hne (ea.symm.trans eb)
      · exact hp b a hb ha hgt (by rw [ea, eb, m3, hfn])
    rw [hfe]
  · refine (o3 _ _).2 ⟨⟨d, f⟩, mem_named.2 ⟨hdm, hf, hfn⟩, ho, by rw [hname], rfl, hne⟩
  · rw [← hty]
    congr 1
    unfold named viewsOf
    rw [List.filter_flatMap, List.map_flatMap, List.map_flatMap]
    congr 1
    funext e
    rw [List.filter_map, List.map_map]
    rfl

/-- **C69.** A field that is in no key and marked `@shareable` nowhere is asked of one subgraph at most, if each override
is for all requests, from a subgraph that resolves the field itself (Federation 1 and `@internal` aside). -/
theorem C69_single_partial {u : Unicode} {sg : List Subgraph} (hd : DistinctEnums u sg) {role : Role} {defs : List Def}
    (hw : WF sg defs) (h : (composeObject sg role defs).2 = []) {c : ComposedField}
    (hc : c ∈ (composeObject sg role defs).1.fields)
    (hplain : ∀ d ∈ defs, ∀ f ∈ d.fields, f.name = c.name → ¬ InKey d f ∧ f.shareable = false ∧ d.shareable = false ∧
      f.internal = false ∧ ∀ s, sg[d.subgraph]? = some s → s.v1 = false)
    (hover : ∀ d ∈ defs, ∀ f ∈ d.fields, f.name = c.name → ∀ o, f.override = some o → FullLabel o.label ∧
      ∃ e ∈ defs, ∃ s, sg[e.subgraph]? = some s ∧ o.src = s.name ∧ ∃ g ∈ e.fields, g.name = c.name ∧ g.override = none ∧
        ¬ ExternalIn e g)
    {i j : Nat} (hi : AskedOf u sg role defs c i) (hj : AskedOf u sg role defs c j) : i = j := by
  obtain ⟨hn, _, _, _, _, _, _, _, hshare, hone⟩ := composed_field h hc
  have hsource : ∀ v ∈ named defs c.name, v.f.override = none → ¬ ExternalIn v.d v.f → isSource sg v = true := by
    intro v hv ho hx
    obtain ⟨m1, m2, m3⟩ := mem_named.1 hv
    obtain ⟨k1, _, _, k4, k5⟩ := hplain v.d m1 v.f m2 m3
    obtain ⟨s, hs⟩ := getElem?_of_graph (hw.graph _ m1)
    have hxx : v.f.external = false ∧ v.d.external = false := by
      constructor
      · cases hb : v.f.external with
        | false => rfl
        | true => exact absurd ⟨Or.inl hb, k1⟩ hx
      · cases hb : v.d.external with
        | false => rfl
        | true => exact absurd ⟨Or.inr hb, k1⟩ hx
    simp [isSource, ho, hxx.1, hxx.2, k4, isV1, hs, k5 s hs]
  have huniq : ∀ v ∈ named defs c.name, ∀ w ∈ named defs c.name, isSource sg v = true → isSource sg w = true → v = w := by
    intro v hv w hw'
    refine one_source hshare (fun x hx => ?_) hv hw'
    obtain ⟨m1, m2, m3⟩ := mem_named.1 hx
    obtain ⟨k1, k2, k3, _⟩ := hplain x.d m1 x.f m2 m3
    refine ⟨?_, k2, k3⟩
    rw [← Bool.not_eq_true, isPartOfKey_iff]
    exact k1
  have hall : ¬ AllOverridden sg defs c.name := by
    intro hall
    obtain ⟨d, hd', f, hf, hfn⟩ := hn
    obtain ⟨d', hd1, f', hf1, hfn1, o, ho, _⟩ := hall d hd' f hf hfn
    obtain ⟨d2, hd2, f2, hf2, hfn2, o2, ho2, ⟨s2, hs2, hn2⟩, _⟩ := hall d' hd1 f' hf1 hfn1
    obtain ⟨_, e, he, s, hs, hsn, g, hg, hgn, hgo, _⟩ := hover d2 hd2 f2 hf2 hfn2 o2 ho2
    have : e.subgraph = d'.subgraph := distinct_names hd _ _ s s2 hs hs2 (by rw [← hsn, ← hn2])
    have hed : e = d' := by
      apply Classical.byContradiction
      intro hne
      have hp := hw.one
      rw [List.pairwise_iff_getElem] at hp
      obtain ⟨a, ha, ea⟩ := List.mem_iff_getElem.1 he
      obtain ⟨b, hb, eb⟩ := List.mem_iff_getElem.1 hd1
      rcases Nat.lt_trichotomy a b with hlt | heq | hgt
      · exact hp a b ha hb hlt (by rw [ea, eb, this])
      · subst heq; exact hne (ea.symm.trans eb)
      · exact hp b a hb ha hgt (by rw [ea, eb, this])
    subst hed
    have hgf : g = f' := by
      apply Classical.byContradiction
      intro hne
      have hp := hw.fields e he
      rw [List.pairwise_iff_getElem] at hp
      obtain ⟨a, ha, ea⟩ := List.mem_iff_getElem.1 hg
      obtain ⟨b, hb, eb⟩ := List.mem_iff_getElem.1 hf1
      rcases Nat.lt_trichotomy a b with hlt | heq | hgt
      · exact hp a b ha hb hlt (by rw [ea, eb, hgn, hfn1])
      · subst heq; exact hne (ea.symm.trans eb)
      · exact hp b a hb ha hgt (by rw [ea, eb, hgn, hfn1])
    rw [hgf, ho] at hgo
    cases hgo
  have hresolves : ∀ i, AskedOf u sg role defs c i → Resolves sg defs c.name i := by
    rintro i ⟨s, hs, hm⟩
    rcases (C69_owners_exact hd hw h hc hs).1 ⟨s, hs, hm⟩ with h1 | h1
    · exact absurd h1.1 hall
    · exact h1.2.1
  -- the source an override takes the field from
  have hsrc : ∀ v ∈ named defs c.name, ∀ o, v.f.override = some o → ∃ w ∈ named defs c.name, isSource sg w = true ∧
      Overridden sg defs c.name w.d.subgraph ∧ ∃ s, sg[w.d.subgraph]? = some s ∧ o.src = s.name := by
    intro v hv o ho
    obtain ⟨m1, m2, m3⟩ := mem_named.1 hv
    obtain ⟨hl, e, he, s, hs, hsn, g, hg, hgn, hgo, hgx⟩ := hover v.d m1 v.f m2 m3 o ho
    have hw' : (⟨e, g⟩ : View) ∈ named defs c.name := mem_named.2 ⟨he, hg, hgn⟩
    exact ⟨⟨e, g⟩, hw', hsource _ hw' hgo hgx, ⟨v.d, m1, v.f, m2, m3, o, ho, ⟨s, hs, hsn⟩, hl⟩, s, hs, hsn⟩
  obtain ⟨⟨d, hd1, rfl, f, hf, hfn, hfx⟩, hdo⟩ := hresolves i hi
  obtain ⟨⟨e, he1, rfl, g, hg, hgn, hgx⟩, heo⟩ := hresolves j hj
  have hv : (⟨d, f⟩ : View) ∈ named defs c.name := mem_named.2 ⟨hd1, hf, hfn⟩
  have hw' : (⟨e, g⟩ : View) ∈ named defs c.name := mem_named.2 ⟨he1, hg, hgn⟩
  cases ho : f.override with
  | none =>
    have hs1 := hsource _ hv ho hfx
    cases ho2 : g.override with
    | none =>
      have := huniq _ hv _ hw' hs1 (hsource _ hw' ho2 hgx)
      cases this
      rfl
    | some o =>
      obtain ⟨w, hwm, hws, hwo, _⟩ := hsrc _ hw' o ho2
      have := huniq _ hv _ hwm hs1 hws
      rw [← this] at hwo
      exact absurd hwo hdo
  | some o =>
    obtain ⟨w, hwm, hws, hwo, s, hs, hsn⟩ := hsrc _ hv o ho
    cases ho2 : g.override with
    | none =>
      have := huniq _ hw' _ hwm (hsource _ hw' ho2 hgx) hws
      rw [← this] at hwo
      exact absurd hwo heo
    | some o2 =>
      obtain ⟨w2, hwm2, hws2, _, s2, hs2, hsn2⟩ := hsrc _ hw' o2 ho2
      have := huniq _ hwm _ hwm2 hws hws2
      subst this
      rw [hs] at hs2
      cases hs2
      have := one_override hone hv hw' ho ho2 (hsn.trans hsn2.symm)
      cases this
      rfl

/-- What an accepted composition says about the definitions: none overrides itself, and an object type has a key in
every subgraph of Federation 2 or in none at all. -/
theorem C69_accepted {sg : List Subgraph} {role : Role} {defs : List Def} (h : (composeObject sg role defs).2 = []) :
    (∀ d ∈ defs, ∀ f ∈ d.fields, ∀ o, f.override = some o → o.src ≠ nameOf sg d.subgraph) ∧
    (role = .object → (∀ d ∈ defs, d.keys = []) ∨ ∀ d ∈ defs, d.keys ≠ [] ∨ ∃ s, sg[d.subgraph]? = some s ∧ s.v1 = true) := by
  obtain ⟨h1, _, _, h4, _⟩ := accepted_parts h
  refine ⟨?_, ?_⟩
  · intro d hd f hf o ho he
    rw [List.flatMap_eq_nil_iff] at h1
    have := h1 ⟨d, f⟩ (by unfold viewsOf; exact List.mem_flatMap.2 ⟨d, hd, List.mem_map.2 ⟨f, hf, rfl⟩⟩)
    simp [overrideFromSelf, ho, he] at this
  · intro hr
    have h5 := (h4 hr).1
    unfold entityness at h5
    split at h5
    · rename_i hk
      left
      intro d hd
      simp only [Bool.not_eq_true', List.any_eq_false] at hk
      have := hk d hd
      simpa using this
    · split at h5
      · rename_i hk
        right
        intro d hd
        have := List.all_eq_true.1 hk d hd
        rcases Bool.or_eq_true_iff.1 this with h | h
        · exact .inl (by simpa using h)
        · right
          unfold isV1 at h
          cases hs : sg[d.subgraph]? with
          | none => rw [hs] at h; simp at h
          | some s => rw [hs] at h; exact ⟨s, rfl, by simpa using h⟩
      · cases h5

/-- **C69.** The arguments of a composed field are those all definitions have, once each; a required argument of some
definition is among them; their type is composed of all of theirs (C03) and their default value is the one the
definitions agree on. -/
theorem C69_arguments {sg : List Subgraph} {role : Role} {defs : List Def} (h : (composeObject sg role defs).2 = [])
    {c : ComposedField} (hc : c ∈ (composeObject sg role defs).1.fields) :
    (c.args.map (·.name)).Nodup ∧
    (∀ n, n ∈ c.args.map (·.name) ↔ ∀ d ∈ defs, ∀ f ∈ d.fields, f.name = c.name → ∃ a ∈ f.args, a.name = n) ∧
    (∀ d ∈ defs, ∀ f ∈ d.fields, f.name = c.name → ∀ a ∈ f.args, a.ty.wrapping.isNonNull = true →
      a.name ∈ c.args.map (·.name)) ∧
    ∀ b ∈ c.args,
      composeAll composeForInput ((defs.flatMap fun d => (d.fields.filter fun f => decide (f.name = c.name)).flatMap fun f =>
        f.args.filter fun a => decide (a.name = b.name)).map (·.ty)) = some b.ty ∧
      (∀ d ∈ defs, ∀ f ∈ d.fields, f.name = c.name → ∀ a ∈ f.args, a.name = b.name → ∀ x, a.default = some x → b.default = some x) ∧
      ∀ x, b.default = some x → ∃ d ∈ defs, ∃ f ∈ d.fields, f.name = c.name ∧ ∃ a ∈ f.args, a.name = b.name ∧ a.default = some x := by
  obtain ⟨_, _, first, rest, hf, hargs, herr, _⟩ := composed_field h hc
  rw [hf] at hargs herr
  obtain ⟨a1, a2, a3, a4⟩ := arguments_ok herr
  rw [← hargs, ← hf] at *
  refine ⟨a1, fun n => ?_, fun d hd f hfd hfn a ha hr => a3 ⟨d, f⟩ (mem_named.2 ⟨hd, hfd, hfn⟩) a ha hr, fun b hb => ?_⟩
  · rw [a2]
    constructor
    · exact fun h d hd f hfd hfn => h ⟨d, f⟩ (mem_named.2 ⟨hd, hfd, hfn⟩)
    · intro h v hv
      obtain ⟨m1, m2, m3⟩ := mem_named.1 hv
      exact h v.d m1 v.f m2 m3
  · obtain ⟨b1, b2, b3⟩ := a4 b hb
    refine ⟨?_, fun d hd f hfd hfn a ha hn x hx => b2 ⟨d, f⟩ (mem_named.2 ⟨hd, hfd, hfn⟩) a ha hn x hx, fun x hx => ?_⟩
    · rw [← b1]
      congr 2
      unfold argsNamed named viewsOf
      rw [List.filter_flatMap, List.filter_flatMap, List.flatMap_assoc]
      congr 1
      funext e
      rw [List.filter_map, List.flatMap_map]
      rfl
    · obtain ⟨v, hv, a, ha, hn, hax⟩ := b3 x hx
      obtain ⟨m1, m2, m3⟩ := mem_named.1 hv
      exact ⟨v.d, m1, v.f, m2, m3, a, ha, hn, hax⟩

/-- **C69.** Accepted ASCII names of subgraphs give distinct values of the enum. -/
theorem C69_enum_names_partial {u : Unicode} (hu : u.Ascii) {sg : List Subgraph}
    (h : validateNames u [] (sg.map (·.name)) = []) (hascii : ∀ s ∈ sg, ∀ c ∈ s.name, c.toNat < 128) : DistinctEnums u sg := by
  obtain ⟨h1, h2⟩ := validated h
  intro i j a b ha hb he
  have hma := List.mem_of_getElem? ha
  have hmb := List.mem_of_getElem? hb
  have hl := enum_lower hu (hascii a hma) (hascii b hmb) (h1 _ (List.mem_map_of_mem hma)).1 (h1 _ (List.mem_map_of_mem hmb)).1 he
  rw [List.pairwise_map, List.pairwise_iff_getElem] at h2
  obtain ⟨hi, rfl⟩ := List.getElem?_eq_some_iff.1 ha
  obtain ⟨hj, rfl⟩ := List.getElem?_eq_some_iff.1 hb
  rcases Nat.lt_trichotomy i j with hlt | heq | hgt
  · exact absurd hl (h2 i j hi hj hlt)
  · exact heq
  · exact absurd hl.symm (h2 j i hj hi hgt)

/-! ## Where it is false -/

/-- **C69 is false**: two subgraphs called `é` and `É` are accepted and share a value of the enum. -/
theorem C69_enum_names_false (u : Unicode) (h1 : u.upper 'é' = ['É']) (h2 : u.upper 'É' = ['É']) (h3 : u.alphabetic 'é' = true)
    (h4 : u.alphabetic 'É' = true) :
    validateNames u [] ["é".toList, "É".toList] = [] ∧ enumName u "é".toList = enumName u "É".toList := by
  have e1 : "é".toList = ['é'] := by decide
  have e2 : "É".toList = ['É'] := by decide
  rw [e1, e2]
  constructor
  · have : asciiLower ['É'] ∉ [asciiLower ['é']] := by decide
    simp [validateNames, validName, h3, h4, this]
  · simp [enumName, h1, h2]

theorem no_such_graph {sg : List Subgraph} {i : Nat} {p : Prop} (h : sg.length ≤ i) (s : Subgraph) (hs : sg[i]? = some s) : p := by
  rw [List.getElem?_eq_none h] at hs
  cases hs

/-- **C69 is false**: a field all subgraphs only refer to is accepted and asked of nobody. -/
theorem C69_unresolved_false :
    WF sgExternal external ∧ DistinctEnums ascii sgExternal ∧ (composeObject sgExternal .object external).2 = [] ∧
    ∃ c ∈ (composeObject sgExternal .object external).1.fields, c.name = 1 ∧
      ∀ i, ¬ AskedOf ascii sgExternal .object external c i := by
  refine ⟨entity_wf (by decide) (by decide) (by decide) (by decide), distinct (by decide +kernel), by decide +kernel,
    ((composeObject sgExternal .object external).1.fields[1]?).getD ⟨0, str, [], []⟩, by decide +kernel, by decide +kernel, ?_⟩
  rintro i ⟨s, _, hm⟩
  have : ((composeObject sgExternal .object external).1.engine ascii sgExternal
    (((composeObject sgExternal .object external).1.fields[1]?).getD ⟨0, str, [], []⟩)).existsIn = [] := by decide +kernel
  rw [this] at hm
  cases hm

/-- **C69 is false**: two subgraphs that override each other make the engine ask a third one that does not define the
field; for a root type, any other. -/
theorem C69_cycle_false :
    WF sgCycle cycle ∧ WF sgCycle rootCycle ∧ DistinctEnums ascii sgCycle ∧
    (composeObject sgCycle .object cycle).2 = [] ∧ (composeObject sgCycle .root rootCycle).2 = [] ∧
    (¬ ∃ d ∈ cycle, d.subgraph = 2 ∧ ∃ f ∈ d.fields, f.name = 1) ∧
    (¬ ∃ d ∈ rootCycle, d.subgraph = 2 ∧ ∃ f ∈ d.fields, f.name = 1) ∧
    (∃ c ∈ (composeObject sgCycle .object cycle).1.fields, c.name = 1 ∧ AskedOf ascii sgCycle .object cycle c 2) ∧
    ∃ c ∈ (composeObject sgCycle .root rootCycle).1.fields, c.name = 1 ∧ AskedOf ascii sgCycle .root rootCycle c 2 := by
  refine ⟨entity_wf (by decide) (by decide) (by decide) (by decide), entity_wf (by decide) (by decide) (by decide) (by decide),
    distinct (by decide +kernel), by decide +kernel, by decide +kernel, by decide, by decide, ?_, ?_⟩
  · exact ⟨((composeObject sgCycle .object cycle).1.fields[1]?).getD ⟨0, str, [], []⟩, by decide +kernel, by decide +kernel,
      ⟨['c'], false⟩, rfl, by decide +kernel⟩
  · exact ⟨((composeObject sgCycle .root rootCycle).1.fields[0]?).getD ⟨0, str, [], []⟩, by decide +kernel, by decide +kernel,
      ⟨['c'], false⟩, rfl, by decide +kernel⟩

/-- **C69 is false**: whether a subgraph whose field is overridden for half of the requests is still asked depends on
how its name is written: `b` is, `B` is not. -/
theorem C69_label_false :
    (composeObject (sgs ["a", "B"]) .object (half "B")).2 = [] ∧ (composeObject (sgs ["a", "b"]) .object (half "b")).2 = [] ∧
    (∃ c ∈ (composeObject (sgs ["a", "B"]) .object (half "B")).1.fields, c.name = 1 ∧
      ¬ AskedOf ascii (sgs ["a", "B"]) .object (half "B") c 1) ∧
    ∃ c ∈ (composeObject (sgs ["a", "b"]) .object (half "b")).1.fields, c.name = 1 ∧
      AskedOf ascii (sgs ["a", "b"]) .object (half "b") c 1 := by
  refine ⟨by decide +kernel, by decide +kernel, ?_, ?_⟩
  · refine ⟨((composeObject (sgs ["a", "B"]) .object (half "B")).1.fields[1]?).getD ⟨0, str, [], []⟩, by decide +kernel,
      by decide +kernel, ?_⟩
    rintro ⟨s, hs, hm⟩
    have : s = ⟨['B'], false⟩ := (Option.some.inj hs).symm
    subst this
    revert hm
    decide +kernel
  · exact ⟨((composeObject (sgs ["a", "b"]) .object (half "b")).1.fields[1]?).getD ⟨0, str, [], []⟩, by decide +kernel,
      by decide +kernel, ⟨['b'], false⟩, rfl, by decide +kernel⟩

/-- **C69 is false**: a field that is `@shareable` nowhere is asked of two subgraphs, one of which overrides a
subgraph that does not exist. -/
theorem C69_single_false :
    WF sgMissing missing ∧ DistinctEnums ascii sgMissing ∧ (composeObject sgMissing .object missing).2 = [] ∧
    (∀ d ∈ missing, d.shareable = false ∧ ∀ f ∈ d.fields, f.shareable = false) ∧
    ∃ c ∈ (composeObject sgMissing .object missing).1.fields, c.name = 1 ∧
      AskedOf ascii sgMissing .object missing c 0 ∧ AskedOf ascii sgMissing .object missing c 1 := by
  refine ⟨entity_wf (by decide) (by decide) (by decide) (by decide), distinct (by decide +kernel), by decide +kernel, by decide,
    ((composeObject sgMissing .object missing).1.fields[1]?).getD ⟨0, str, [], []⟩, by decide +kernel, by decide +kernel,
    ⟨⟨['a'], false⟩, rfl, by decide +kernel⟩, ⟨⟨['b'], false⟩, rfl, by decide +kernel⟩⟩

/-- **C69 is false**: `@shareable` in one of the subgraphs is enough; `c` did not agree to share field 2 and is asked too. -/
theorem C69_shareable_false :
    (composeObject sgGood .object good).2 = [] ∧
    (∃ d ∈ good, d.subgraph = 2 ∧ d.shareable = false ∧ ∃ f ∈ d.fields, f.name = 2 ∧ f.shareable = false ∧ ¬ InKey d f) ∧
    ∃ c ∈ (composeObject sgGood .object good).1.fields, c.name = 2 ∧
      AskedOf ascii sgGood .object good c 0 ∧ AskedOf ascii sgGood .object good c 2 := by
  refine ⟨by decide +kernel, ?_, ((composeObject sgGood .object good).1.fields[2]?).getD ⟨0, str, [], []⟩, by decide +kernel,
    by decide +kernel, ⟨⟨['a'], false⟩, rfl, by decide +kernel⟩, ⟨⟨['c'], false⟩, rfl, by decide +kernel⟩⟩
  refine ⟨entity 2 [{ fld 1 with external := true }, { fld 2 with args := [⟨5, str, none, false, false⟩] }], by decide, rfl, rfl,
    { fld 2 with args := [⟨5, str, none, false, false⟩] }, by decide, rfl, rfl, ?_⟩
  rintro ⟨k, hk, hm⟩
  rw [List.mem_singleton.1 hk] at hm
  cases hm with
  | after _ h => cases h

/-! ## The theorems are not vacuous -/

/-- Three subgraphs, accepted: field 1 moved from `a` to `b` and is asked of `b` only. -/
theorem C69_witness :
    WF sgGood good ∧ DistinctEnums ascii sgGood ∧ (composeObject sgGood .object good).2 = [] ∧
    ∃ c ∈ (composeObject sgGood .object good).1.fields, c.name = 1 ∧ ¬ AllOverridden sgGood good c.name ∧
      PlainOverrides ascii sgGood good c.name ∧ AskedOf ascii sgGood .object good c 1 ∧ ¬ AskedOf ascii sgGood .object good c 0 ∧
      ¬ AskedOf ascii sgGood .object good c 2 := by
  have hw : WF sgGood good := entity_wf (by decide) (by decide) (by decide) (by decide)
  have hd : DistinctEnums ascii sgGood := distinct (by decide +kernel)
  have hacc : (composeObject sgGood .object good).2 = [] := by decide +kernel
  have hmem : ((composeObject sgGood .object good).1.fields[1]?).getD ⟨0, str, [], []⟩ ∈ (composeObject sgGood .object good).1.fields := by
    decide +kernel
  have hname : (((composeObject sgGood .object good).1.fields[1]?).getD (⟨0, str, [], []⟩ : ComposedField)).name = 1 := by decide +kernel
  refine ⟨hw, hd, hacc, _, hmem, hname, ?_, ?_, ⟨(⟨['b'], false⟩ : Subgraph), rfl, by decide +kernel⟩, ?_, ?_⟩
  · rw [hname]
    intro h
    obtain ⟨d, hdm, f, hf, hfn, o, ho, ⟨s, hs, hsn⟩, _⟩ := h (entity 1 [over "a" (some "percent(100)") (fld 1)]) (by decide)
      (over "a" (some "percent(100)") (fld 1)) (by decide) rfl
    cases (Option.some.inj hs)
    have : ∀ d ∈ good, ∀ f ∈ d.fields, f.name = 1 → ∀ o ∈ f.override.toList, o.src ≠ ['b'] := by decide
    exact this d hdm f hf hfn o (by simp [ho]) hsn
  · rw [hname]
    intro d hdm f hf hfn o ho i s hs hsrc
    have hno : ∀ d ∈ good, ∀ f ∈ d.fields, f.name = 1 → ∀ o ∈ f.override.toList, ∀ s ∈ sgGood, o.src ≠ enumName ascii s.name := by
      decide +kernel
    exact absurd hsrc (hno d hdm f hf hfn o (by simp [ho]) s (List.mem_of_getElem? hs))
  · rintro ⟨s, hs, hm⟩
    cases (Option.some.inj hs)
    revert hm
    decide +kernel
  · rintro ⟨s, hs, hm⟩
    cases (Option.some.inj hs)
    revert hm
    decide +kernel

end Verif.FieldOwners
