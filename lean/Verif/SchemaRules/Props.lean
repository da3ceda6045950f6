import Verif.SchemaRules.Witness

/-!
# C77: schema validation
-/
namespace Verif.SchemaRules

theorem secondPass_ok {c : Ctx} {o : Opts} {ds : List Definition} (hk : Knows c o ds)
    (hu : ∀ t ∈ defined ds, definition ds t.name = some t) : ∀ l : List Definition,
    (∀ t ∈ defined l, t ∈ defined ds) →
    (secondPass c l = .ok [] ↔ (∀ t ∈ defined l, TypeOk o ds t) ∧ (∀ t ∈ extensions l, ExtensionOk o ds t) ∧
      ∀ d ∈ directiveDefs l, ∀ a ∈ d.args, InputType ds a.ty.base) := by
  intro l
  induction l with
  | nil => intro _; simp [secondPass, defined, extensions, directiveDefs]
  | cons d l ih =>
    intro hs
    cases d with
    | schema s => exact ih hs
    | directive d =>
      have h1 : defined (.directive d :: l) = defined l := rfl
      have h2 : extensions (.directive d :: l) = extensions l := rfl
      have h3 : directiveDefs (.directive d :: l) = d :: directiveDefs l := rfl
      rw [h1] at hs
      rw [h1, h2, h3]
      simp only [List.mem_cons, forall_eq_or_imp]
      have ih := ih hs
      simp only [secondPass]
      cases hsp : secondPass c l with
      | error e =>
        rw [hsp] at ih
        simp only [reduceCtorEq, false_iff] at ih ⊢
        rintro ⟨k1, k2, k3, k4⟩
        exact ih ⟨k1, k2, k4⟩
      | ok es =>
        rw [hsp] at ih
        simp only [Except.ok.injEq] at ih ⊢
        rw [List.append_eq_nil_iff, ih, flatMap_nil]
        simp only [inputType_nil hk]
        constructor
        · rintro ⟨k1, k2, k3, k4⟩; exact ⟨k2, k3, k1, k4⟩
        · rintro ⟨k2, k3, k1, k4⟩; exact ⟨k1, k2, k3, k4⟩
    | type t =>
      have h3 : directiveDefs (.type t :: l) = directiveDefs l := rfl
      rw [defined_cons_type] at hs
      rw [defined_cons_type, extensions_cons_type, h3]
      have hl : ∀ u ∈ defined l, u ∈ defined ds := by
        intro u hu
        apply hs
        split
        · exact hu
        · exact List.mem_cons_of_mem _ hu
      have ih := ih hl
      have htype : secondType c t = .ok [] ↔ if t.extend then ExtensionOk o ds t else TypeOk o ds t := by
        unfold secondType
        by_cases h : t.extend = true
        · simp only [h, if_true, Except.ok.injEq, validateExtension_nil hk]
        · rw [if_neg h, if_neg h]
          have hmem : t ∈ defined ds := by
            apply hs
            rw [if_neg h]
            simp
          cases hkd : t.kind with
          | scalar => simp [TypeOk, hkd]
          | object is fs => simp only [Except.ok.injEq, validateObject_nil hk t hkd]
          | interface is fs => simp only [Except.ok.injEq, validateInterface_nil hk t hkd]
          | union ms => simp only [Except.ok.injEq, validateUnion_nil hk t hkd]
          | enum vs => exact validateEnum_nil hk t hkd
          | input fs => simp only [Except.ok.injEq, validateInput_nil hk (hu t hmem) hkd]
      have hboth : secondPass c (.type t :: l) = .ok [] ↔ secondType c t = .ok [] ∧ secondPass c l = .ok [] := by
        simp only [secondPass]
        cases secondType c t with
        | error e => simp
        | ok es => cases secondPass c l <;> simp
      rw [hboth, htype, ih]
      by_cases h : t.extend = true
      · rw [if_pos h, if_pos h, if_pos h]
        simp only [List.mem_cons, forall_eq_or_imp]
        constructor
        · rintro ⟨k1, k2, k3, k4⟩; exact ⟨k2, ⟨k1, k3⟩, k4⟩
        · rintro ⟨k2, ⟨k1, k3⟩, k4⟩; exact ⟨k1, k2, k3, k4⟩
      · rw [if_neg h, if_neg h, if_neg h]
        simp only [List.mem_cons, forall_eq_or_imp, and_assoc]

theorem secondPass_panic {c : Ctx} {o : Opts} {ds : List Definition} (hk : Knows c o ds) : ∀ l : List Definition,
    ((∃ e, secondPass c l = .error e) ↔ ∃ t ∈ defined l, ∃ vs, t.kind = .enum vs ∧
      ¬ (((extensionsOf ds t.name).flatMap (·.kind.values)).map (·.name)).Nodup) := by
  intro l
  induction l with
  | nil => simp [secondPass, defined]
  | cons d l ih =>
    cases d with
    | schema s => exact ih
    | directive d =>
      have h1 : defined (.directive d :: l) = defined l := rfl
      rw [h1, ← ih]
      simp only [secondPass]
      cases secondPass c l <;> simp
    | type t =>
      rw [defined_cons_type]
      have hone : (∃ e, secondType c t = .error e) ↔ t.extend = false ∧ ∃ vs, t.kind = .enum vs ∧
          ¬ (((extensionsOf ds t.name).flatMap (·.kind.values)).map (·.name)).Nodup := by
        unfold secondType
        by_cases h : t.extend = true
        · simp [h]
        · have h' : t.extend = false := by simpa using h
          rw [if_neg h]
          cases hkd : t.kind with
          | enum vs => simp only [validateEnum_panic hk t hkd, h', true_and, Kind.enum.injEq, exists_eq_left']
          | _ => simp
      have hboth : (∃ e, secondPass c (.type t :: l) = .error e) ↔
          (∃ e, secondType c t = .error e) ∨ ∃ e, secondPass c l = .error e := by
        simp only [secondPass]
        cases secondType c t with
        | error e => simp
        | ok es => cases secondPass c l <;> simp
      rw [hboth, hone, ih]
      by_cases h : t.extend = true
      · simp [h]
      · have h' : t.extend = false := by simpa using h
        rw [if_neg h]
        simp [h']

theorem definition_of_nodup {ds : List Definition} (h : ((defined ds).map (·.name)).Nodup) {t : TypeDef}
    (ht : t ∈ defined ds) : definition ds t.name = some t := by
  cases hd : definition ds t.name with
  | none =>
    unfold definition at hd
    rw [List.find?_eq_none] at hd
    have := hd t (by simpa using ht)
    simp at this
  | some u =>
    have hn := definition_name hd
    have hm := definition_mem hd
    obtain ⟨i, hi⟩ := List.mem_iff_getElem?.mp ht
    obtain ⟨j, hj⟩ := List.mem_iff_getElem?.mp hm
    have hij : i = j := by
      have h1 : ((defined ds).map (·.name))[i]? = some t.name := by simp [hi]
      have h2 : ((defined ds).map (·.name))[j]? = some t.name := by simp [hj, hn]
      have hlt : i < ((defined ds).map (·.name)).length := (List.getElem?_eq_some_iff.mp h1).1
      exact (List.getElem?_inj hlt h).mp (h1.trans h2.symm)
    subst hij
    rw [hi] at hj
    exact hj.symm

/-- The validation has no error exactly for the documents that follow the rules. Partial: the rules are fewer than those of
the specification, and some are stricter (`Demo.C77_accepts_false`, `Demo.C77_rejects_false`). -/
theorem C77_accepted_partial (o : Opts) (ds : List Definition) : validate o ds = .ok [] ↔ Accepted o ds := by
  have hk := firstPass_knows o ds
  have he := firstPass_errors ds { opts := o }
  have hsch : schemaDefs ds = schemasOf ds := rfl
  unfold validate
  constructor
  · intro h
    cases hsp : secondPass (firstPass { opts := o } ds).1 ds with
    | error e => simp [hsp] at h
    | ok es =>
      simp only [hsp, Except.ok.injEq, List.append_eq_nil_iff] at h
      obtain ⟨⟨⟨h1, h2⟩, h3⟩, h4⟩ := h
      subst h4
      obtain ⟨k1, _, k3, k4, k5⟩ := he.mp h1
      obtain ⟨m1, m2⟩ := (schemaDefinitions_nil hk _ _).mp h2
      obtain ⟨p1, p2, p3⟩ := (secondPass_ok hk (fun t ht => definition_of_nodup k1 ht) ds (fun t ht => ht)).mp hsp
      refine ⟨k1, k3, k4, p1, p2, fun d hd => ⟨k5 d hd, p3 d hd⟩, m1, by rw [← hsch]; simpa using m2, ?_⟩
      intro hnil
      rw [hsch, hnil] at h3
      exact (rootTypes_nil hk).mp (by simpa using h3)
  · intro h
    have hsp := (secondPass_ok hk (fun t ht => definition_of_nodup h.once ht) ds (fun t ht => ht)).mpr
      ⟨h.types, h.exts, fun d hd => (h.directives d hd).2⟩
    have h1 := he.mpr ⟨h.once, fun t _ => by simp [get], h.names, h.scalars, fun d hd => (h.directives d hd).1⟩
    have h2 := (schemaDefinitions_nil hk (schemaDefs ds) false).mpr ⟨h.schemas, by rw [hsch]; simpa using h.schema⟩
    simp only [hsp, h1, h2, List.nil_append, List.append_nil]
    congr 1
    by_cases hnil : schemasOf ds = []
    · rw [hsch, hnil]
      simpa using (rootTypes_nil hk).mpr (h.roots hnil)
    · rw [hsch, if_neg (by simpa [List.isEmpty_iff] using hnil)]

/-- The validation panics exactly when the extensions of an enum have a value twice. Partial: it should not panic
(`Demo.C77_panic_false`). -/
theorem C77_panic_partial (o : Opts) (ds : List Definition) : (∃ e, validate o ds = .error e) ↔
    ∃ t ∈ defined ds, ∃ vs, t.kind = .enum vs ∧
      ¬ (((extensionsOf ds t.name).flatMap (·.kind.values)).map (·.name)).Nodup := by
  rw [← secondPass_panic (firstPass_knows o ds) ds]
  unfold validate
  cases h : secondPass (firstPass { opts := o } ds).1 ds <;> simp [h]

/-- What is accepted is a schema without repeated names, where input objects can be given a value and an object has what
its interfaces have: every field, with a type that is as narrow, all the arguments and no other one required. -/
theorem C77_sound_partial (o : Opts) (ds : List Definition) (h : validate o ds = .ok []) :
    ((defined ds).map (·.name)).Nodup ∧ (∀ a, ¬ Reaches ds a a) ∧
    ∀ t ∈ defined ds, ∀ i ∈ implementsOf ds t, ∀ u is ifs, (∃ is fs, t.kind = .object is fs ∨ t.kind = .interface is fs) →
      definition ds i = some u → u.kind = .interface is ifs → (∀ j ∈ is, j ∈ implementsOf ds t) ∧
        ∀ f ∈ ifs, ∃ g ∈ fieldsOf ds t, g.name = f.name ∧ Implements ds g f := by
  have ha := (C77_accepted_partial o ds).mp h
  refine ⟨ha.once, ?_, ?_⟩
  · intro a hr
    have hd : ∃ t fs, definition ds a = some t ∧ t.kind = .input fs := by
      cases hr with
      | one h => obtain ⟨t, fs, _, h1, h2, _⟩ := h; exact ⟨t, fs, h1, h2⟩
      | more h _ => obtain ⟨t, fs, _, h1, h2, _⟩ := h; exact ⟨t, fs, h1, h2⟩
    obtain ⟨t, fs, h1, h2⟩ := hd
    have hok := ha.types t (definition_mem h1)
    unfold TypeOk at hok
    rw [h2] at hok
    have hn := definition_name h1
    subst hn
    exact hok.2.2.1 hr
  · rintro t ht i hi u is ifs ⟨is', fs', hkd⟩ hu hku
    have hok : ImplementsOk o ds (implementsOf ds t) (fieldsOf ds t) := by
      have hok := ha.types t ht
      unfold TypeOk at hok
      rcases hkd with hkd | hkd
      · rw [hkd] at hok
        exact hok.2.1
      · rw [hkd] at hok
        exact hok.2.1
    obtain ⟨_, h2⟩ := hok
    obtain ⟨v, js, jfs, hv, hkv, h3, h4⟩ := h2 i hi
    have hvu : v = u := by
      rcases hv with hv | ⟨hv, _⟩
      · rw [hu] at hv; injection hv with hv; exact hv.symm
      · rw [hu] at hv; cases hv
    subst hvu
    rw [hku] at hkv
    injection hkv with e1 e2
    subst e1 e2
    refine ⟨h3, ?_⟩
    intro f hf
    obtain ⟨g, hg, hgi⟩ := h4 f hf
    exact ⟨g, List.mem_of_find?_eq_some hg, by simpa using List.find?_some hg, hgi⟩

/-! The error of a cycle comes from nowhere else. -/

def NoCycle (es : List Err) : Prop := ∀ a l, Err.cycle a l ∉ es

theorem noCycle_append {x y : List Err} : NoCycle (x ++ y) ↔ NoCycle x ∧ NoCycle y := by
  simp only [NoCycle, List.mem_append, not_or]
  constructor
  · intro h; exact ⟨fun a l => (h a l).1, fun a l => (h a l).2⟩
  · intro h a l; exact ⟨h.1 a l, h.2 a l⟩

theorem noCycle_flatMap {α : Type} {xs : List α} {f : α → List Err} (h : ∀ x, NoCycle (f x)) : NoCycle (xs.flatMap f) := by
  intro a l hm
  obtain ⟨x, _, hx⟩ := List.mem_flatMap.mp hm
  exact h x a l hx

theorem noCycle_map {α : Type} {xs : List α} {f : α → Err} (h : ∀ x a l, f x ≠ .cycle a l) : NoCycle (xs.map f) := by
  intro a l hm
  obtain ⟨x, _, hx⟩ := List.mem_map.mp hm
  exact h x a l hx

theorem noCycle_nil : NoCycle [] := by intro a l; simp

theorem noCycle_one {e : Err} (h : ∀ a l, e ≠ .cycle a l) : NoCycle [e] := by
  intro a l hm
  exact h a l (List.mem_singleton.mp hm).symm

theorem noCycle_ite {p : Prop} [Decidable p] {x y : List Err} (hx : NoCycle x) (hy : NoCycle y) :
    NoCycle (if p then x else y) := by
  split
  · exact hx
  · exact hy

macro "no_cycle" : tactic => `(tactic| (
  repeat' first
    | exact noCycle_nil
    | (refine noCycle_one ?_; intro _ _ h; cases h; done)
    | assumption
    | (refine noCycle_append.mpr ⟨?_, ?_⟩)
    | (refine noCycle_map ?_; intro _ _ _ h; cases h; done)
    | (refine noCycle_flatMap ?_; intro _)
    | split))

theorem nc_directives (c : Ctx) (ds : List Name) (l : Loc) : NoCycle (validateDirectives c ds l) := by
  unfold validateDirectives; no_cycle
theorem nc_input (c : Ctx) (n : Name) : NoCycle (inputType c n) := by unfold inputType; no_cycle
theorem nc_output (c : Ctx) (n : Name) : NoCycle (outputType c n) := by unfold outputType; no_cycle
theorem nc_arguments (c : Ctx) (t f : Name) (as : List Arg) : NoCycle (validateArguments c t f as) := by
  unfold validateArguments
  have h1 := nc_input c
  have h2 := nc_directives c
  no_cycle
  all_goals first | exact h1 _ | exact h2 _ _
theorem nc_field (c : Ctx) (t : Name) (f : Field) : NoCycle (validateObjectField c t f) := by
  unfold validateObjectField
  no_cycle
  all_goals first | exact nc_directives _ _ _ | exact nc_arguments _ _ _ _ | exact nc_input _ _
theorem nc_args (t i f : Name) (x y : List Arg) : NoCycle (argumentsOk t i f x y) := by unfold argumentsOk; no_cycle
theorem nc_fields (c : Ctx) (t : Name) (fs : List Field) (i : Name) (ifs : List Field) :
    NoCycle (fieldsImplement c t fs i ifs) := by
  unfold fieldsImplement
  no_cycle
  all_goals exact nc_args _ _ _ _ _
theorem nc_implements (c : Ctx) (t : Name) (is : List Name) (fs : List Field) : NoCycle (implementsList c t is fs) := by
  unfold implementsList
  no_cycle
  all_goals exact nc_fields _ _ _ _ _
theorem nc_first (c : Ctx) (ds : List Definition) : NoCycle (firstPass c ds).2 := by
  induction ds generalizing c with
  | nil => exact noCycle_nil
  | cons d ds ih =>
    cases d with
    | schema s => exact ih c
    | type t =>
      refine noCycle_append.mpr ⟨?_, ih _⟩
      unfold firstType
      by_cases h : t.extend = true
      · simp only [h, if_true]; no_cycle
      · simp only [h, if_false]; no_cycle
    | directive d =>
      refine noCycle_append.mpr ⟨?_, ih _⟩
      unfold firstDirective
      no_cycle
theorem nc_reference (c : Ctx) (r : Option Name) : NoCycle (rootReference c r) := by
  cases r with
  | none => exact noCycle_nil
  | some n => unfold rootReference; no_cycle
theorem nc_schemas (c : Ctx) (ss : List SchemaDef) : ∀ first, NoCycle (schemaDefinitions c first ss) := by
  induction ss with
  | nil => intro first; exact noCycle_nil
  | cons s ss ih =>
    intro first
    unfold schemaDefinitions schemaReferences
    have h1 := nc_directives c
    have h2 := nc_reference c
    refine noCycle_append.mpr ⟨noCycle_append.mpr ⟨h1 _ _, ?_⟩, ?_⟩
    · no_cycle
      all_goals exact h2 _
    · split
      · exact ih _
      · split
        · intro a l hm
          rcases List.mem_cons.mp hm with hm | hm
          · cases hm
          · exact ih _ a l hm
        · exact ih _
theorem nc_roots (c : Ctx) : NoCycle (rootTypes c) := by
  unfold rootTypes
  refine noCycle_flatMap fun n => ?_
  no_cycle

theorem nc_enumDups (t : Name) (vs : List Value) (ps : List (Nat × Nat)) : ∀ es, enumDups t vs ps = .ok es → NoCycle es := by
  induction ps with
  | nil => intro es h; simp only [enumDups, Except.ok.injEq] at h; subst h; exact noCycle_nil
  | cons p ps ih =>
    intro es h
    simp only [enumDups] at h
    split at h
    · cases h
    · split at h
      · rename_i es' he
        injection h with h
        subst h
        intro a l hm
        rcases List.mem_cons.mp hm with hm | hm
        · cases hm
        · exact ih _ he a l hm
      · cases h

theorem secondType_cycle {c : Ctx} {t : TypeDef} {es : List Err} (h : secondType c t = .ok es) {a : Name} {l : List Name}
    (hm : .cycle a l ∈ es) : t.extend = false ∧ ∃ fs, t.kind = .input fs ∧ .cycle a l ∈ inputCycles c t.name fs := by
  unfold secondType at h
  by_cases he : t.extend = true
  · simp only [he, if_true, Except.ok.injEq] at h
    subst h
    have : NoCycle (validateExtension c t) := by
      unfold validateExtension
      exact noCycle_append.mpr ⟨nc_directives _ _ _, noCycle_ite (noCycle_one (by intro _ _ h; cases h)) noCycle_nil⟩
    exact absurd hm (this a l)
  · refine ⟨by simpa using he, ?_⟩
    rw [if_neg he] at h
    cases hkd : t.kind with
    | scalar => simp only [hkd, Except.ok.injEq] at h; subst h; simp at hm
    | object is fs =>
      simp only [hkd, Except.ok.injEq] at h
      subst h
      have : NoCycle (validateObject c t is fs) := by
        unfold validateObject
        no_cycle
        all_goals first | exact nc_directives _ _ _ | exact nc_implements _ _ _ _ | exact nc_field _ _ _ | exact nc_output _ _ | exact nc_input _ _
      exact absurd hm (this a l)
    | interface is fs =>
      simp only [hkd, Except.ok.injEq] at h
      subst h
      have : NoCycle (validateInterface c t is fs) := by
        unfold validateInterface
        no_cycle
        all_goals first | exact nc_directives _ _ _ | exact nc_implements _ _ _ _ | exact nc_field _ _ _ | exact nc_output _ _ | exact nc_input _ _
      exact absurd hm (this a l)
    | union ms =>
      simp only [hkd, Except.ok.injEq] at h
      subst h
      have : NoCycle (validateUnion c t ms) := by
        unfold validateUnion
        no_cycle
        all_goals exact nc_directives _ _ _
      exact absurd hm (this a l)
    | enum vs =>
      simp only [hkd, validateEnum] at h
      split at h
      · cases h
      · rename_i es' he'
        injection h with h
        subst h
        refine absurd hm ?_
        refine noCycle_append.mpr ⟨noCycle_append.mpr ⟨nc_directives _ _ _, nc_enumDups _ _ _ _ he'⟩, ?_⟩ a l
        exact noCycle_flatMap fun v => nc_directives _ _ _
    | input fs =>
      simp only [hkd, Except.ok.injEq] at h
      subst h
      refine ⟨fs, rfl, ?_⟩
      unfold validateInput at hm
      rcases List.mem_append.mp hm with hm | hm
      · refine absurd hm ?_
        refine noCycle_append.mpr ⟨noCycle_append.mpr ⟨nc_directives _ _ _, ?_⟩, ?_⟩ a l
        · split
          · exact noCycle_one (by intro _ _ h; cases h)
          · exact noCycle_nil
        · exact noCycle_flatMap fun v => noCycle_append.mpr ⟨nc_directives _ _ _, nc_input _ _⟩
      · exact hm

theorem secondPass_cycle {c : Ctx} {a : Name} {l : List Name} : ∀ (ds : List Definition) (es : List Err),
    secondPass c ds = .ok es → .cycle a l ∈ es →
    ∃ t ∈ defined ds, ∃ fs, t.kind = .input fs ∧ .cycle a l ∈ inputCycles c t.name fs := by
  intro ds
  induction ds with
  | nil => intro es h hm; simp only [secondPass, Except.ok.injEq] at h; subst h; simp at hm
  | cons d ds ih =>
    intro es h hm
    cases d with
    | schema s => exact ih es h hm
    | directive d =>
      simp only [secondPass] at h
      cases hs : secondPass c ds with
      | error e => simp [hs] at h
      | ok es' =>
        simp only [hs, Except.ok.injEq] at h
        subst h
        rcases List.mem_append.mp hm with hm | hm
        · exact absurd hm (noCycle_flatMap (fun x => nc_input _ _) a l)
        · exact ih es' hs hm
    | type t =>
      simp only [secondPass] at h
      cases ht : secondType c t with
      | error e => simp [ht] at h
      | ok es1 =>
        cases hs : secondPass c ds with
        | error e => simp [ht, hs] at h
        | ok es' =>
          simp only [ht, hs, Except.ok.injEq] at h
          subst h
          rw [defined_cons_type]
          rcases List.mem_append.mp hm with hm | hm
          · obtain ⟨he, fs, h1, h2⟩ := secondType_cycle ht hm
            exact ⟨t, by simp [he], fs, h1, h2⟩
          · obtain ⟨u, hu, h1⟩ := ih es' hs hm
            refine ⟨u, ?_, h1⟩
            split
            · exact hu
            · exact List.mem_cons_of_mem _ hu

/-- The cycle reported is one: its fields lead from the input object to itself. And every input object that holds itself is
reported. -/
theorem C77_cycle (o : Opts) (ds : List Definition) (es : List Err) (h : validate o ds = .ok es)
    (hn : ((defined ds).map (·.name)).Nodup) :
    (∀ a l, .cycle a l ∈ es → Chain ds a l a) ∧ ∀ a, Reaches ds a a → ∃ l, .cycle a l ∈ es := by
  have hk := firstPass_knows o ds
  unfold validate at h
  cases hsp : secondPass (firstPass { opts := o } ds).1 ds with
  | error e => simp [hsp] at h
  | ok es' =>
    simp only [hsp, Except.ok.injEq] at h
    subst h
    refine ⟨?_, ?_⟩
    · intro a l hm
      have hm : .cycle a l ∈ es' := by
        rcases List.mem_append.mp hm with hm | hm
        · refine absurd hm ?_
          refine noCycle_append.mpr ⟨noCycle_append.mpr ⟨nc_first _ _, nc_schemas _ _ _⟩, ?_⟩ a l
          split
          · exact nc_roots _
          · exact noCycle_nil
        · exact hm
      obtain ⟨t, ht, fs, h1, h2⟩ := secondPass_cycle ds es' hsp hm
      obtain ⟨l', he, hc⟩ := inputCycles_chain hk (definition_of_nodup hn ht) h1 h2
      injection he with e1 e2
      subst e1 e2
      exact hc
    · intro a hr
      have hd : ∃ t fs, definition ds a = some t ∧ t.kind = .input fs := by
        cases hr with
        | one h => obtain ⟨t, fs, _, h1, h2, _⟩ := h; exact ⟨t, fs, h1, h2⟩
        | more h _ => obtain ⟨t, fs, _, h1, h2, _⟩ := h; exact ⟨t, fs, h1, h2⟩
      obtain ⟨t, fs, h1, h2⟩ := hd
      have hna := definition_name h1
      subst hna
      have hne : inputCycles (firstPass { opts := o } ds).1 t.name fs ≠ [] := by
        intro e
        exact (inputCycles_nil hk h1 h2).mp e hr
      have hin : ∀ (l : List Definition) (es : List Err), secondPass (firstPass { opts := o } ds).1 l = .ok es →
          t ∈ defined l → ∀ e ∈ inputCycles (firstPass { opts := o } ds).1 t.name fs, e ∈ es := by
        intro l
        induction l with
        | nil => intro es _ hm; simp [defined] at hm
        | cons d l ih =>
          intro es h hm e he
          cases d with
          | schema s => exact ih es h hm e he
          | directive d =>
            simp only [secondPass] at h
            cases hs : secondPass (firstPass { opts := o } ds).1 l with
            | error e => simp [hs] at h
            | ok es1 =>
              simp only [hs, Except.ok.injEq] at h
              subst h
              exact List.mem_append_right _ (ih es1 hs hm e he)
          | type u =>
            simp only [secondPass] at h
            cases hu : secondType (firstPass { opts := o } ds).1 u with
            | error e => simp [hu] at h
            | ok es2 =>
              cases hs : secondPass (firstPass { opts := o } ds).1 l with
              | error e => simp [hu, hs] at h
              | ok es1 =>
                simp only [hu, hs, Except.ok.injEq] at h
                subst h
                rw [defined_cons_type] at hm
                split at hm
                · exact List.mem_append_right _ (ih es1 hs hm e he)
                · rename_i hext
                  rcases List.mem_cons.mp hm with hm | hm
                  · subst hm
                    unfold secondType at hu
                    rw [if_neg hext, h2] at hu
                    simp only [Except.ok.injEq] at hu
                    subst hu
                    exact List.mem_append_left _ (List.mem_append_right _ he)
                  · exact List.mem_append_right _ (ih es1 hs hm e he)
      obtain ⟨e, he⟩ := List.exists_mem_of_ne_nil _ hne
      obtain ⟨l, rfl, _⟩ := inputCycles_chain hk h1 h2 he
      exact ⟨l, List.mem_append_right _ (hin ds es' hsp (definition_mem h1) _ he)⟩

namespace Demo

/-- The rules can be met, with everything in the document. -/
example : Accepted strict good := (C77_accepted_partial strict good).mp rfl

/-- An input object that holds itself is reported with the fields that lead to it. -/
example : validate lax cyclic = .ok [.cycle (n "A") [n "b", n "a"], .cycle (n "B") [n "a", n "b"]] ∧
    ((defined cyclic).map (·.name)).Nodup := ⟨rfl, by decide⟩

/-- The validation panics. -/
theorem C77_panic_false : validate lax panics = .error (.enumValue (n "E") 1) ∧
    validate strict panics = .error (.enumValue (n "E") 1) := ⟨rfl, rfl⟩

/-- Accepted although they break rules of the specification: fields of input objects and interfaces are not unique, nor
without the prefix for introspection; the types of the fields in extensions of interfaces and input objects are unknown; an
object lacks the field of an extension of its interface; an interface implements itself; a directive is defined twice, with
an argument for introspection; two roots are the same. -/
theorem C77_accepts_false : validate strict inputFieldsTwice = .ok [] ∧ validate strict interfaceTwice = .ok [] ∧
    validate strict extensionTypes = .ok [] ∧ validate strict extendedInterface = .ok [] ∧
    validate strict selfInterface = .ok [] ∧ validate strict directiveTwice = .ok [] ∧
    validate strict rootsApart = .ok [] := ⟨rfl, rfl, rfl, rfl, rfl, rfl, rfl⟩

/-- Rejected although they are valid: a narrower type that implements the interface in an extension, a required argument
with a default value, a root for queries with the default name of another one, an interface with all its fields in an
extension. -/
theorem C77_rejects_false : validate lax narrowExtension = .ok [.fieldType (n "O") (n "I") (n "x")] ∧
    validate lax defaultArgument = .ok [.argRequired (n "O") (n "I") (n "x") (n "a")] ∧
    validate lax oddRoot = .ok [.rootTwice (n "Mutation")] ∧
    validate lax interfaceInExtension = .ok [.empty (n "I")] := ⟨rfl, rfl, rfl, rfl⟩

end Demo

end Verif.SchemaRules
