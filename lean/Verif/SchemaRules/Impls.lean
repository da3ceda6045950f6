import Verif.SchemaRules.Checks

/-!
# Interfaces, unions, enums, extensions and the schema
-/
namespace Verif.SchemaRules

variable {c : Ctx} {o : Opts} {ds : List Definition}

theorem put_keys {β : Type} (m : List (Name × β)) (k : Name) (v : β) (x : Name) :
    x ∈ (put m k v).map (·.1) ↔ x = k ∨ x ∈ m.map (·.1) := by
  induction m with
  | nil => simp [put]
  | cons e m ih =>
    obtain ⟨j, w⟩ := e
    simp only [put]
    by_cases hj : j = k
    · subst hj; simp
    · simp only [hj, if_false, List.map_cons, List.mem_cons, ih]
      constructor
      · rintro (h | h | h)
        · exact .inr (.inl h)
        · exact .inl h
        · exact .inr (.inr h)
      · rintro (h | h | h)
        · exact .inr (.inl h)
        · exact .inl h
        · exact .inr (.inr h)

theorem put_nodup {β : Type} (m : List (Name × β)) (k : Name) (v : β) (h : (m.map (·.1)).Nodup) :
    ((put m k v).map (·.1)).Nodup := by
  induction m with
  | nil => simp [put]
  | cons e m ih =>
    obtain ⟨j, w⟩ := e
    simp only [List.map_cons, List.nodup_cons] at h
    simp only [put]
    by_cases hj : j = k
    · subst hj; simp [h.1, h.2]
    · simp only [hj, if_false, List.map_cons, List.nodup_cons, put_keys]
      refine ⟨?_, ih h.2⟩
      rintro (e | e)
      · exact e.elim
      · exact h.1 e

theorem mem_iff_get {β : Type} {m : List (Name × β)} (h : (m.map (·.1)).Nodup) (k : Name) (v : β) :
    (k, v) ∈ m ↔ get m k = some v := by
  induction m with
  | nil => simp [get]
  | cons e m ih =>
    obtain ⟨j, w⟩ := e
    simp only [List.map_cons, List.nodup_cons] at h
    simp only [List.mem_cons, Prod.mk.injEq, get]
    by_cases hj : j = k
    · subst hj
      simp only [true_and, if_true, Option.some.injEq]
      constructor
      · rintro (e | hm)
        · exact e.symm
        · exact absurd (List.mem_map.mpr ⟨_, hm, rfl⟩) h.1
      · intro e; exact .inl e.symm
    · simp [hj, Ne.symm hj, ih h.2]

theorem get_mem_keys {β : Type} {m : List (Name × β)} {k : Name} {v : β} (h : get m k = some v) : k ∈ m.map (·.1) := by
  induction m with
  | nil => simp [get] at h
  | cons e m ih =>
    obtain ⟨j, w⟩ := e
    simp only [get] at h
    by_cases hj : j = k
    · simp [hj]
    · simp only [hj, if_false] at h
      simp only [List.map_cons, List.mem_cons]
      exact .inr (ih h)

theorem argOf_cons (a : Arg) (l : List Arg) (n : Name) :
    argOf (a :: l) n = (argOf l n).or (if a.name = n then some a else none) := by
  unfold argOf
  rw [List.reverse_cons, List.find?_append]
  by_cases hn : a.name = n <;> simp [hn]

theorem candidates_get (l : List Arg) : ∀ (m : List (Name × (Option Arg × Option Arg))) (n : Name),
    get (l.foldl (fun m a => put m a.name (some a, none)) m) n =
      match argOf l n with
      | some a => some (some a, none)
      | none => get m n := by
  induction l with
  | nil => intro m n; simp [argOf]
  | cons a l ih =>
    intro m n
    rw [List.foldl_cons, ih, argOf_cons, get_put]
    cases argOf l n with
    | some b => simp
    | none => by_cases hn : a.name = n <;> simp [hn]

theorem ifaces_get (l : List Arg) : ∀ (m : List (Name × (Option Arg × Option Arg))) (n : Name),
    get (l.foldl (fun m a => put m a.name (((get m a.name).getD (none, none)).1, some a)) m) n =
      match argOf l n with
      | some a => some (((get m n).getD (none, none)).1, some a)
      | none => get m n := by
  induction l with
  | nil => intro m n; simp [argOf]
  | cons a l ih =>
    intro m n
    rw [List.foldl_cons, ih, argOf_cons, get_put]
    by_cases hn : a.name = n
    · subst hn
      cases argOf l a.name <;> simp
    · cases argOf l n <;> simp [hn]

theorem argMap_get (g f : List Arg) (n : Name) : get (argMap g f) n =
    match argOf g n, argOf f n with
    | none, none => none
    | a, b => some (a, b) := by
  unfold argMap
  rw [ifaces_get, candidates_get]
  cases argOf g n <;> cases argOf f n <;> simp [get]

theorem argMap_nodup (g f : List Arg) : ((argMap g f).map (·.1)).Nodup := by
  unfold argMap
  have h1 : ∀ (l : List Arg) (m : List (Name × (Option Arg × Option Arg))), (m.map (·.1)).Nodup →
      ((l.foldl (fun m a => put m a.name (some a, none)) m).map (·.1)).Nodup := by
    intro l
    induction l with
    | nil => intro m h; exact h
    | cons a l ih => intro m h; exact ih _ (put_nodup _ _ _ h)
  have h2 : ∀ (l : List Arg) (m : List (Name × (Option Arg × Option Arg))), (m.map (·.1)).Nodup →
      ((l.foldl (fun m a => put m a.name (((get m a.name).getD (none, none)).1, some a)) m).map (·.1)).Nodup := by
    intro l
    induction l with
    | nil => intro m h; exact h
    | cons a l ih => intro m h; exact ih _ (put_nodup _ _ _ h)
  exact h2 f _ (h1 g _ (by simp))

theorem argumentsOk_nil (t i n : Name) (g f : List Arg) : argumentsOk t i n g f = [] ↔
    (∀ n b, argOf f n = some b → ∃ a, argOf g n = some a ∧ a.ty = b.ty) ∧
    ∀ n a, argOf g n = some a → argOf f n = none → a.ty.nullable = true := by
  unfold argumentsOk
  rw [flatMap_nil]
  constructor
  · intro h
    refine ⟨?_, ?_⟩
    · intro n b hb
      have hg := argMap_get g f n
      rw [hb] at hg
      cases ha : argOf g n with
      | none =>
        rw [ha] at hg
        have := h _ ((mem_iff_get (argMap_nodup g f) _ _).mpr hg)
        simp at this
      | some a =>
        rw [ha] at hg
        have := h _ ((mem_iff_get (argMap_nodup g f) _ _).mpr hg)
        simp only [ite_nil] at this
        exact ⟨a, rfl, this⟩
    · intro n a ha hb
      have hg := argMap_get g f n
      rw [ha, hb] at hg
      have := h _ ((mem_iff_get (argMap_nodup g f) _ _).mpr hg)
      simpa only [ite_nil] using this
  · rintro ⟨h1, h2⟩ ⟨k, v⟩ hm
    have hg := (mem_iff_get (argMap_nodup g f) _ _).mp hm
    rw [argMap_get] at hg
    cases ha : argOf g k with
    | none =>
      cases hb : argOf f k with
      | none => simp [ha, hb] at hg
      | some b =>
        obtain ⟨a, ha', _⟩ := h1 k b hb
        rw [ha] at ha'
        cases ha'
    | some a =>
      cases hb : argOf f k with
      | none =>
        simp [ha, hb] at hg
        subst hg
        simp [h2 k a ha hb]
      | some b =>
        simp [ha, hb] at hg
        subst hg
        obtain ⟨a', ha', he⟩ := h1 k b hb
        rw [ha] at ha'
        injection ha' with ha'
        subst ha'
        simp [he]

theorem fieldsImplement_nil (hk : Knows c o ds) (t : Name) (fs : List Field) (i : Name) (ifs : List Field) :
    fieldsImplement c t fs i ifs = [] ↔
      ∀ f ∈ ifs, ∃ g, (allFields c t fs).find? (fun g => decide (g.name = f.name)) = some g ∧ Implements ds g f := by
  unfold fieldsImplement
  rw [List.append_eq_nil_iff, flatMap_nil, flatMap_nil]
  constructor
  · rintro ⟨h1, h2⟩ f hf
    have h1 := h1 f hf
    have h2 := h2 f hf
    cases hg : (allFields c t fs).find? (fun g => decide (g.name = f.name)) with
    | none => simp [hg] at h2
    | some g =>
      simp only [hg, List.append_eq_nil_iff, ite_nil, argumentsOk_nil] at h1
      exact ⟨g, rfl, (covariant_iff hk _ _).mp h1.1, h1.2⟩
  · intro h
    refine ⟨?_, ?_⟩
    · intro f hf
      obtain ⟨g, hg, h1, h2⟩ := h f hf
      simp only [hg, List.append_eq_nil_iff, ite_nil, argumentsOk_nil]
      exact ⟨(covariant_iff hk _ _).mpr h1, h2⟩
    · intro f hf
      obtain ⟨g, hg, _⟩ := h f hf
      simp [hg]

theorem implementsList_nil (hk : Knows c o ds) (t : Name) (impls : List Name) (fs : List Field) :
    implementsList c t impls fs = [] ↔ ImplementsOk o ds impls (allFields c t fs) := by
  unfold implementsList ImplementsOk
  rw [List.append_eq_nil_iff, List.map_eq_nil_iff, dups_nil, flatMap_nil]
  refine and_congr Iff.rfl (forall_congr' fun i => imp_congr Iff.rfl ?_)
  cases hf : findType c i with
  | none =>
    constructor
    · intro h; simp at h
    · rintro ⟨u, _, _, hu, _⟩
      have := (stands_iff hk i u).mpr hu
      rw [hf] at this
      cases this
  | some u =>
    have hu := (stands_iff hk i u).mp hf
    have huniq : ∀ v, Stands o ds i v → v = u := by
      intro v hv
      have := (stands_iff hk i v).mpr hv
      rw [hf] at this
      injection this with this
      exact this.symm
    cases hkk : u.kind with
    | interface is ifs =>
      simp only [hkk, List.append_eq_nil_iff, flatMap_nil, ite_nil, fieldsImplement_nil hk, List.contains_iff_mem]
      constructor
      · rintro ⟨h1, h2⟩
        exact ⟨u, is, ifs, hu, hkk, h1, h2⟩
      · rintro ⟨v, is', ifs', hv, hkv, h1, h2⟩
        have := huniq v hv
        subst this
        rw [hkk] at hkv
        injection hkv with e1 e2
        subst e1 e2
        exact ⟨h1, h2⟩
    | _ =>
      simp only [hkk]
      constructor
      · intro h; simp at h
      · rintro ⟨v, is', ifs', hv, hkv, _⟩
        have := huniq v hv
        subst this
        rw [hkk] at hkv
        cases hkv

theorem allFields_eq (hk : Knows c o ds) (t : TypeDef) : allFields c t.name t.kind.fields = fieldsOf ds t := by
  unfold allFields fieldsOf
  rw [hk.fields]

theorem isObject_iff (k : Kind) : isObject k = true ↔ ∃ is fs, k = .object is fs := by
  cases k <;> simp [isObject]

theorem fieldOk_nil' (hk : Knows c o ds) (ty : Name) (f : Field) :
    (validateObjectField c ty f = [] ∧ outputType c f.ty.base = []) ↔ FieldOk o ds f := by
  rw [← fieldOk_nil hk ty, List.append_eq_nil_iff]

theorem validateObject_nil (hk : Knows c o ds) (t : TypeDef) {is : List Name} {fs : List Field}
    (hkd : t.kind = .object is fs) : validateObject c t is fs = [] ↔ TypeOk o ds t := by
  have hall : allFields c t.name fs = fieldsOf ds t := by rw [← allFields_eq hk, hkd]; rfl
  have himp : is ++ (get c.extImpls t.name).getD [] = implementsOf ds t := by
    unfold implementsOf; rw [hk.impls, hkd]; rfl
  unfold validateObject TypeOk
  simp only [hkd, List.append_eq_nil_iff, himp, implementsList_nil hk, hall, validateDirectives_nil hk, flatMap_nil,
    ite_nil', List.map_eq_nil_iff, dups_nil, List.isEmpty_iff, fieldOk_nil' hk, and_assoc]
  constructor
  · rintro ⟨h1, h2, h3, h4, h5⟩; exact ⟨h1, h2, h3, h5, h4⟩
  · rintro ⟨h1, h2, h3, h5, h4⟩; exact ⟨h1, h2, h3, h4, h5⟩

theorem validateInterface_nil (hk : Knows c o ds) (t : TypeDef) {is : List Name} {fs : List Field}
    (hkd : t.kind = .interface is fs) : validateInterface c t is fs = [] ↔ TypeOk o ds t := by
  have hall : allFields c t.name fs = fieldsOf ds t := by rw [← allFields_eq hk, hkd]; rfl
  have himp : is ++ (get c.extImpls t.name).getD [] = implementsOf ds t := by
    unfold implementsOf; rw [hk.impls, hkd]; rfl
  unfold validateInterface TypeOk
  simp only [hkd, List.append_eq_nil_iff, himp, implementsList_nil hk, hall, validateDirectives_nil hk, flatMap_nil,
    ite_nil', List.isEmpty_iff, fieldOk_nil' hk, and_assoc, ne_eq]

theorem validateUnion_nil (hk : Knows c o ds) (t : TypeDef) {ms : List Name} (hkd : t.kind = .union ms) :
    validateUnion c t ms = [] ↔ TypeOk o ds t := by
  have hall : ms ++ (get c.extUnions t.name).getD [] = membersOf ds t := by
    unfold membersOf; rw [hk.unions, hkd]; rfl
  unfold validateUnion TypeOk
  simp only [hkd, hall, List.append_eq_nil_iff, validateDirectives_nil hk, List.map_eq_nil_iff, dups_nil, flatMap_nil,
    and_assoc]
  refine and_congr Iff.rfl ?_
  rw [and_comm]
  refine and_congr Iff.rfl (forall_congr' fun m => imp_congr Iff.rfl ?_)
  rw [hk.defs]
  cases hd : definition ds m with
  | none => simp
  | some u =>
    simp only [ite_nil, isObject_iff]
    constructor
    · rintro ⟨is, fs, h⟩; exact ⟨u, is, fs, rfl, h⟩
    · rintro ⟨v, is, fs, h1, h2⟩
      injection h1 with h1
      subst h1
      exact ⟨is, fs, h2⟩

/-- The handler panics exactly when a repetition starts after the values of the definition. -/
theorem enumDups_eq (t : Name) (vs : List Value) (ps : List (Nat × Nat)) :
    (∃ e, enumDups t vs ps = .error e) ↔ ∃ p ∈ ps, vs.length ≤ p.1 := by
  induction ps with
  | nil => simp [enumDups]
  | cons p ps ih =>
    simp only [enumDups, List.mem_cons]
    cases hv : vs[p.1]? with
    | none =>
      have : vs.length ≤ p.1 := by simpa using hv
      simp only [Except.error.injEq, exists_eq', true_iff]
      exact ⟨p, .inl rfl, this⟩
    | some v =>
      have hlt : p.1 < vs.length := (List.getElem?_eq_some_iff.mp hv).1
      have hih : (∃ e, enumDups t vs ps = .error e) ↔ ∃ q, (q = p ∨ q ∈ ps) ∧ vs.length ≤ q.1 := by
        rw [ih]
        constructor
        · rintro ⟨q, h1, h2⟩; exact ⟨q, .inr h1, h2⟩
        · rintro ⟨q, rfl | h1, h2⟩
          · omega
          · exact ⟨q, h1, h2⟩
      rw [← hih]
      cases enumDups t vs ps with
      | error e => simp
      | ok es => simp

theorem enumDups_ok (t : Name) (vs : List Value) (ps : List (Nat × Nat)) : enumDups t vs ps = .ok [] ↔ ps = [] := by
  cases ps with
  | nil => simp [enumDups]
  | cons p ps =>
    simp only [enumDups]
    cases vs[p.1]? with
    | none => simp
    | some v => cases enumDups t vs ps <;> simp

theorem validateEnum_panic (hk : Knows c o ds) (t : TypeDef) {vs : List Value} (hkd : t.kind = .enum vs) :
    (∃ e, validateEnum c t vs = .error e) ↔
      ¬ (((extensionsOf ds t.name).flatMap (·.kind.values)).map (·.name)).Nodup := by
  have hall : (vs ++ (get c.extEnums t.name).getD []) = vs ++ (extensionsOf ds t.name).flatMap (·.kind.values) := by
    rw [hk.enums]
  have hd : ((vs ++ (extensionsOf ds t.name).flatMap (·.kind.values)).map (·.name)).drop vs.length =
      ((extensionsOf ds t.name).flatMap (·.kind.values)).map (·.name) := by
    rw [List.map_append, List.drop_left' (by simp)]
  rw [← hd, ← dups_after, ← enumDups_eq t.name]
  unfold validateEnum
  simp only [hall]
  cases enumDups t.name vs _ <;> simp

theorem validateEnum_nil (hk : Knows c o ds) (t : TypeDef) {vs : List Value} (hkd : t.kind = .enum vs) :
    validateEnum c t vs = .ok [] ↔ TypeOk o ds t := by
  have hall : vs ++ (get c.extEnums t.name).getD [] = valuesOf ds t := by
    unfold valuesOf; rw [hk.enums, hkd]; rfl
  unfold validateEnum TypeOk
  simp only [hkd, hall, ← dups_nil]
  rw [← enumDups_ok t.name vs]
  cases enumDups t.name vs (dups ((valuesOf ds t).map (·.name))) with
  | error e => simp
  | ok es =>
    simp only [Except.ok.injEq, List.append_eq_nil_iff, validateDirectives_nil hk, flatMap_nil, and_assoc]

theorem sameKind_iff (a b : Kind) : sameKind a b = true ↔ Alike a b := by
  constructor
  · intro h
    cases a <;> cases b <;> simp [sameKind] at h <;> constructor
  · intro h
    cases h <;> rfl

theorem validateExtension_nil (hk : Knows c o ds) (t : TypeDef) :
    validateExtension c t = [] ↔ ExtensionOk o ds t := by
  unfold validateExtension ExtensionOk
  have hl : kindLoc t.kind = place t.kind := by cases t.kind <;> rfl
  rw [List.append_eq_nil_iff, hl, validateDirectives_nil hk, ite_nil', hk.opts, hk.defs]
  refine and_congr Iff.rfl ?_
  rw [← isBuiltin_iff]
  have hs : sameKind t.kind .scalar = true ↔ t.kind = .scalar := by cases t.kind <;> simp [sameKind]
  rw [← hs]
  cases hd : definition ds t.name with
  | none => cases o.forbidUnknown <;> cases sameKind t.kind .scalar <;> cases isBuiltin t.name <;> simp
  | some u =>
    have ha := sameKind_iff t.kind u.kind
    simp only [Option.some.injEq, exists_eq_left', ← ha]
    cases o.forbidUnknown <;> cases sameKind t.kind .scalar <;> cases isBuiltin t.name <;>
      cases sameKind t.kind u.kind <;> simp

theorem isObject_def (ds : List Definition) (n : Name) :
    (match definition ds n with
      | none => [Err.rootUnknown n]
      | some t => if isObject t.kind then [] else [Err.rootKind n]) = [] ↔ IsObject ds n := by
  unfold IsObject
  cases definition ds n with
  | none => simp
  | some t =>
    simp only [ite_nil, isObject_iff]
    constructor
    · rintro ⟨is, fs, h⟩; exact ⟨t, is, fs, rfl, h⟩
    · rintro ⟨u, is, fs, h1, h2⟩
      injection h1 with h1
      subst h1
      exact ⟨is, fs, h2⟩

theorem rootReference_nil (hk : Knows c o ds) (r : Option Name) :
    rootReference c r = [] ↔ ∀ n, r = some n → IsObject ds n := by
  cases r with
  | none => simp [rootReference]
  | some n =>
    simp only [rootReference, hk.defs, Option.some.injEq, forall_eq']
    exact isObject_def ds n

theorem schemaReferences_nil (hk : Knows c o ds) (s : SchemaDef) :
    validateDirectives c s.directives .schema ++ schemaReferences c s = [] ↔ SchemaOk ds s := by
  unfold schemaReferences SchemaOk rootNames queryName mutationName subscriptionName
  generalize "Query".toList = qn
  generalize "Mutation".toList = mn
  generalize "Subscription".toList = sn
  simp only [List.append_eq_nil_iff, validateDirectives_nil hk, ite_nil', flatMap_nil, List.mem_cons, List.not_mem_nil,
    or_false, forall_eq_or_imp, forall_eq, hk.defs, List.nodup_cons, not_or, not_false_eq_true, List.nodup_nil, and_true]
  have hr := rootReference_nil hk
  rw [hr, hr, hr]
  constructor
  · rintro ⟨h1, ⟨⟨h2, h3⟩, h4⟩, h5, h6, h7⟩
    refine ⟨h1, ⟨⟨h2, h3⟩, h4⟩, ?_⟩
    rintro n (h | h | h)
    · exact h5 n h
    · exact h6 n h
    · exact h7 n h
  · rintro ⟨h1, ⟨⟨h2, h3⟩, h4⟩, h5⟩
    exact ⟨h1, ⟨⟨h2, h3⟩, h4⟩, fun n h => h5 n (.inl h), fun n h => h5 n (.inr (.inl h)), fun n h => h5 n (.inr (.inr h))⟩

theorem schemaDefinitions_nil (hk : Knows c o ds) (ss : List SchemaDef) : ∀ first, schemaDefinitions c first ss = [] ↔
    (∀ s ∈ ss, SchemaOk ds s) ∧ (ss.filter (fun s => !s.extend)).length ≤ (if first then 0 else 1) := by
  induction ss with
  | nil => intro first; simp [schemaDefinitions]
  | cons s ss ih =>
    intro first
    simp only [schemaDefinitions]
    rw [List.append_eq_nil_iff, schemaReferences_nil hk]
    simp only [List.mem_cons, forall_eq_or_imp]
    rw [and_assoc]
    refine and_congr Iff.rfl ?_
    cases he : s.extend with
    | true => simp [ih, he]
    | false =>
      cases first with
      | true => simp [he]
      | false => simp [ih, he]

theorem rootTypes_nil (hk : Knows c o ds) : rootTypes c = [] ↔
    ∀ n, n = "Query".toList ∨ n = "Mutation".toList ∨ n = "Subscription".toList →
      ∀ t, definition ds n = some t → ∃ is fs, t.kind = .object is fs := by
  have hr : ∀ n, (match definition ds n with
      | some t => if isObject t.kind then [] else [Err.rootKind n]
      | none => []) = [] ↔ ∀ t, definition ds n = some t → ∃ is fs, t.kind = .object is fs := by
    intro n
    cases definition ds n with
    | none => simp
    | some t => simp only [ite_nil, isObject_iff, Option.some.injEq, forall_eq']
  unfold rootTypes queryName mutationName subscriptionName
  generalize "Query".toList = qn
  generalize "Mutation".toList = mn
  generalize "Subscription".toList = sn
  simp only [flatMap_nil, List.mem_cons, List.not_mem_nil, or_false, hk.defs]
  exact forall_congr' fun n => imp_congr Iff.rfl (hr n)

end Verif.SchemaRules
