import Verif.SchemaRules.Lemmas

/-!
# What each check accepts
-/
namespace Verif.SchemaRules

/-- What the context holds after the first pass. -/
structure Knows (c : Ctx) (o : Opts) (ds : List Definition) : Prop where
  opts : c.opts = o
  defs : ∀ n, get c.defs n = definition ds n
  dirs : ∀ n, get c.dirs n = directiveOf ds n
  exts : ∀ n, (get c.exts n).getD [] = extensionsOf ds n
  fields : ∀ n, (get c.extFields n).getD [] = (extensionsOf ds n).flatMap (·.kind.fields)
  impls : ∀ n, (get c.extImpls n).getD [] = (extensionsOf ds n).flatMap (·.kind.implements)
  unions : ∀ n, (get c.extUnions n).getD [] = (extensionsOf ds n).flatMap (·.kind.members)
  enums : ∀ n, (get c.extEnums n).getD [] = (extensionsOf ds n).flatMap (·.kind.values)

theorem firstPass_knows (o : Opts) (ds : List Definition) : Knows (firstPass { opts := o } ds).1 o ds := by
  have h := firstPass_adds ds { opts := o }
  constructor
  · exact h.opts
  · intro n; rw [h.defs n]; simp [get]
  · intro n; rw [h.dirs n]; simp [get]
  · intro n; rw [h.exts n]; simp [get]
  · intro n; rw [h.fields n]; simp [get]
  · intro n; rw [h.impls n]; simp [get]
  · intro n; rw [h.unions n]; simp [get]
  · intro n; rw [h.enums n]; simp [get]

theorem flatMap_nil {α β : Type} {l : List α} {f : α → List β} : l.flatMap f = [] ↔ ∀ x ∈ l, f x = [] := by
  induction l with
  | nil => simp
  | cons a l ih => simp [ih]

theorem ite_nil {β : Type} {b : Prop} [Decidable b] {e : β} : (if b then [] else [e]) = [] ↔ b := by
  by_cases h : b <;> simp [h]

theorem ite_nil' {β : Type} {b : Prop} [Decidable b] {e : β} : (if b then [e] else []) = [] ↔ ¬ b := by
  by_cases h : b <;> simp [h]

theorem definition_name {ds : List Definition} {n : Name} {t : TypeDef} (h : definition ds n = some t) : t.name = n := by
  have := List.find?_some h
  simpa using this

theorem definition_mem {ds : List Definition} {n : Name} {t : TypeDef} (h : definition ds n = some t) : t ∈ defined ds := by
  have := List.mem_of_find?_eq_some h
  simpa using this

theorem directiveOf_name {ds : List Definition} {n : Name} {t : DirDef} (h : directiveOf ds n = some t) : t.name = n := by
  have := List.find?_some h
  simpa using this

variable {c : Ctx} {o : Opts} {ds : List Definition}

theorem validateDirectives_nil (hk : Knows c o ds) (used : List Name) (l : Loc) :
    validateDirectives c used l = [] ↔ DirectivesOk ds used l := by
  unfold validateDirectives DirectivesOk
  rw [List.append_eq_nil_iff, flatMap_nil, flatMap_nil]
  constructor
  · rintro ⟨h1, h2⟩ d hd
    refine ⟨?_, ?_⟩
    · intro hm
      have := h2 _ hm
      rw [hk.dirs, hd] at this
      simpa [ite_nil] using this
    · intro hc
      obtain ⟨p, hp, hn⟩ := (dups_names used d.name).mpr hc
      have := h1 p hp
      rw [hn, hk.dirs, hd] at this
      simpa [ite_nil] using this
  · intro h
    refine ⟨?_, ?_⟩
    · intro p hp
      have hc := (dups_names used (nameAt used p.1)).mp ⟨p, hp, rfl⟩
      rw [hk.dirs]
      cases hd : directiveOf ds (nameAt used p.1) with
      | none => rfl
      | some d =>
        have hn := directiveOf_name hd
        rw [← hn] at hd hc
        simp [(h d hd).2 hc]
    · intro n hm
      rw [hk.dirs]
      cases hd : directiveOf ds n with
      | none => rfl
      | some d =>
        have hn := directiveOf_name hd
        rw [← hn] at hd hm
        simp [(h d hd).1 hm]

theorem inputType_nil (hk : Knows c o ds) (n : Name) : inputType c n = [] ↔ InputType ds n := by
  unfold inputType InputType
  rw [← isBuiltin_iff, hk.defs]
  cases isBuiltin n with
  | true => simp
  | false =>
    cases hd : definition ds n with
    | none => simp
    | some t => cases h : t.kind <;> simp [h]

theorem stands_iff (hk : Knows c o ds) (n : Name) (t : TypeDef) :
    findType c n = some t ↔ Stands o ds n t := by
  unfold Stands findType
  rw [hk.defs, hk.exts, hk.opts]
  cases hd : definition ds n with
  | some u => simp
  | none =>
    cases o.forbidUnknown with
    | true => simp
    | false =>
      cases extensionsOf ds n with
      | nil => simp
      | cons e es => simp

theorem outputType_nil (hk : Knows c o ds) (n : Name) : outputType c n = [] ↔ OutputType o ds n := by
  unfold outputType OutputType
  rw [← isBuiltin_iff]
  cases isBuiltin n with
  | true => simp
  | false =>
    simp only [Bool.false_eq_true, if_false, false_or]
    have hs := stands_iff hk n
    cases hf : findType c n with
    | none =>
      constructor
      · intro h; simp at h
      · rintro ⟨t, ht, _⟩
        have := (hs t).mpr ht
        rw [hf] at this
        cases this
    | some u =>
      have hu := (hs u).mp hf
      constructor
      · intro h
        refine ⟨u, hu, ?_⟩
        intro fs e
        simp [e] at h
      · rintro ⟨t, ht, hne⟩
        have := (hs t).mpr ht
        rw [hf] at this
        injection this with this
        subst this
        cases hkk : u.kind with
        | input fs => exact absurd hkk (hne fs)
        | _ => simp [hkk]

theorem validateArguments_nil (hk : Knows c o ds) (ty field : Name) (args : List Arg) :
    validateArguments c ty field args = [] ↔ (args.map (·.name)).Nodup ∧ ∀ a ∈ args, ArgOk o ds a := by
  unfold validateArguments
  rw [List.append_eq_nil_iff, List.map_eq_nil_iff, dups_nil, flatMap_nil]
  refine and_congr Iff.rfl (forall_congr' fun a => imp_congr Iff.rfl ?_)
  rw [List.append_eq_nil_iff, List.append_eq_nil_iff, List.append_eq_nil_iff, validateDirectives_nil hk, inputType_nil hk,
    ite_nil', reservedName_iff, hk.opts]
  unfold ArgOk deprecatedName
  constructor
  · rintro ⟨⟨⟨h1, h2⟩, h3⟩, h4⟩
    refine ⟨h1, h2, h4, ?_⟩
    intro hd hn hf hm
    simp [hd, hn, hf] at h3
    exact h3 hm
  · rintro ⟨h1, h2, h4, h3⟩
    refine ⟨⟨⟨h1, h2⟩, ?_⟩, h4⟩
    cases hd : o.draft with
    | false => simp
    | true =>
      simp only [if_true, ite_nil', Bool.and_eq_true, Bool.not_eq_true', List.contains_iff_mem]
      rintro ⟨⟨hn, hf⟩, hm⟩
      exact h3 hd hn hf hm

theorem fieldOk_nil (hk : Knows c o ds) (ty : Name) (f : Field) :
    validateObjectField c ty f ++ outputType c f.ty.base = [] ↔ FieldOk o ds f := by
  unfold validateObjectField
  rw [List.append_eq_nil_iff, List.append_eq_nil_iff, List.append_eq_nil_iff, validateDirectives_nil hk,
    validateArguments_nil hk, outputType_nil hk, ite_nil', reservedName_iff]
  unfold FieldOk
  constructor
  · rintro ⟨⟨⟨h1, h2⟩, h3⟩, h4⟩; exact ⟨h2, h4, h1, h3⟩
  · rintro ⟨h2, h4, h1, h3⟩; exact ⟨⟨⟨h1, h2⟩, h3⟩, h4⟩

theorem innerOk_iff (hk : Knows c o ds) (a b : Name) : innerOk c a b = true ↔ Refines ds a b := by
  unfold innerOk Refines
  by_cases hab : a = b
  · simp [hab]
  · simp only [hab, if_false, false_or, hk.defs]
    cases hb : definition ds b with
    | none => simp
    | some t =>
      cases ht : t.kind with
      | union ms => simp [ht]
      | interface is fs =>
        cases ha : definition ds a with
        | none => simp [ht]
        | some u => cases hu : u.kind <;> simp [ht, hu, Kind.implements]
      | _ => simp [ht]

theorem covariant_iff (hk : Knows c o ds) (g f : Ty) :
    (wrappersOk g f && innerOk c g.base f.base) = true ↔ Covariant ds g f := by
  induction g generalizing f with
  | named a n =>
    cases f with
    | named b m =>
      simp only [wrappersOk, Ty.base, Bool.and_eq_true, innerOk_iff hk]
      constructor
      · rintro ⟨h1, h2⟩
        refine .named ?_ h2
        intro hm
        cases n with
        | false => rfl
        | true => simp [hm] at h1
      · intro h
        cases h with
        | named h1 h2 =>
          refine ⟨?_, h2⟩
          cases m with
          | true => simp
          | false => simp [h1 rfl]
    | list t m =>
      simp only [wrappersOk, Bool.false_and, Bool.false_eq_true, false_iff]
      intro h; cases h
  | list s n ih =>
    cases f with
    | named b m =>
      simp only [wrappersOk, Bool.false_and, Bool.false_eq_true, false_iff]
      intro h; cases h
    | list t m =>
      simp only [wrappersOk, Ty.base]
      constructor
      · intro h
        have hnm : m = false → n = false := by
          intro hm
          cases n with
          | false => rfl
          | true => simp [hm] at h
        refine .list hnm ((ih t).mp ?_)
        cases m with
        | true => simpa using h
        | false => simpa [hnm rfl] using h
      · intro h
        cases h with
        | list h1 h2 =>
          have := (ih t).mpr h2
          cases m with
          | true => simpa using this
          | false => simpa [h1 rfl] using this

end Verif.SchemaRules
