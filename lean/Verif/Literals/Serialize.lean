import Verif.Literals.Eval
/-!
# What is serialized is the value of the literal
-/
namespace Verif.Literals

open Verif.Common Verif.Wrapping Verif.Coercion

variable {nm : Names} {env : Env}

theorem serItems_map : ∀ xs, serItems nm env xs = xs.map (serQ nm env)
  | [] => rfl
  | x :: xs => by unfold serItems; rw [serItems_map xs]; rfl

theorem serMap_map : ∀ xs, serMap nm env xs = xs.map fun p => (p.1, serQ nm env p.2)
  | [] => rfl
  | (k, x) :: xs => by unfold serMap; rw [serMap_map xs]; rfl

theorem plainQItems_map : ∀ xs, plainQItems xs = xs.map plainQ
  | [] => rfl
  | x :: xs => by unfold plainQItems; rw [plainQItems_map xs]; rfl

theorem plainQFields_map : ∀ xs, plainQFields xs = xs.map fun p => (p.1, plainQ p.2)
  | [] => rfl
  | (k, x) :: xs => by unfold plainQFields; rw [plainQFields_map xs]; rfl

theorem jsonInt_spec (i : Int) : JsonInt i (jsonInt i) := by
  unfold jsonInt
  split
  · exact .pos _ (by omega)
  · exact .neg (by omega)

theorem serQ_plain {j : Lit} (h : Plain j) : PlainValue j (serQ nm env (plainQ j)) := by
  induction h with
  | null => exact .null
  | int i => exact .int (jsonInt_spec i)
  | float q => exact .float q
  | str s => exact .str s
  | bool b => exact .bool b
  | list xs _ ih =>
    simp only [plainQ, serQ, serItems_map, plainQItems_map, List.map_map]
    refine .list (by simp) fun i x v hx hv => ?_
    simp only [List.getElem?_map, hx, Option.map_some, Function.comp, Option.some.injEq] at hv
    subst hv
    exact ih x (List.mem_of_getElem? hx)
  | obj fs _ ih =>
    simp only [plainQ, serQ, serMap_map, plainQFields_map, List.map_map]
    refine .obj (by simp) (fun i p v hp hv => ?_) fun i p v hp hv => ?_
    · simp only [List.getElem?_map, hp, Option.map_some, Function.comp, Option.some.injEq] at hv
      subst hv
      rfl
    · simp only [List.getElem?_map, hp, Option.map_some, Function.comp, Option.some.injEq] at hv
      subst hv
      exact ih p (List.mem_of_getElem? hp)

theorem serQ_scalar {k : ScalarType} {j : Lit} {o : Q} (h : ScalarBound k j o) : ScalarValue k j (serQ nm env o) := by
  cases h with
  | string s => exact .string s
  | boolean b => exact .boolean b
  | float q => exact .float q
  | floatInt i => exact .floatInt i
  | int i h1 h2 => exact .int h1 h2 (jsonInt_spec i)
  | custom j h => exact .custom (serQ_plain h)
  | intFloat q i h1 h2 h3 => exact .intFloat h1 h2 h3 (jsonInt_spec i)
  | intClamped q i h1 h2 => exact .intClamped h1 h2 (jsonInt_spec _)

theorem serQ_nest (n : Nat) (o : Q) : serQ nm env (nest n o) = nestJ n (serQ nm env o) := by
  induction n with
  | zero => rfl
  | succ n ih =>
    unfold nest nestJ
    rw [serQ, serItems, serItems, ih]

def Q.isVariable : Q → Bool
  | .variable _ => true
  | _ => false

theorem nest_not_variable {n : Nat} {o : Q} (h : o.isVariable = false) : (nest n o).isVariable = false := by
  cases n with
  | zero => exact h
  | succ n => rfl

theorem plainQ_not_variable {j : Lit} : (plainQ j).isVariable = false := by
  cases j <;> rfl

theorem Bound.variable_out {s : Schema} {vars : Option (List VarDef)} {r : Rules} {top : Bool} {d : Nat} {t : GType} {j : Lit} {o : Q}
    (h : Bound s vars r top d t j o) : (j.isVar = false → o.isVariable = false) ∧
      ∀ name, j = .var name → ∃ i, o = .variable i ∧ Usable r vars d t name i := by
  induction h with
  | asIs _ ih => exact ih
  | bare _ _ _ h _ ih =>
    refine ⟨fun _ => nest_not_variable (ih.1 h), fun name e => ?_⟩
    subst e
    cases h
  | var hu => exact ⟨fun h => (by cases h), fun name e => by cases e; exact ⟨_, rfl, hu⟩⟩
  | null => exact ⟨fun _ => rfl, fun name e => by cases e⟩
  | nonNull h _ _ ih =>
    refine ⟨ih.1, fun name e => ?_⟩
    subst e
    cases h
  | list => exact ⟨fun _ => rfl, fun name e => by cases e⟩
  | scalar _ h =>
    cases h with
    | custom j h => exact ⟨fun _ => plainQ_not_variable, fun name e => by subst e; cases h⟩
    | _ => exact ⟨fun _ => rfl, fun name e => by cases e⟩
  | enum => exact ⟨fun _ => rfl, fun name e => by cases e⟩
  | object => exact ⟨fun _ => rfl, fun name e => by cases e⟩
  | oneOf => exact ⟨fun _ => rfl, fun name e => by cases e⟩

theorem idx_unique {vs : List VarDef} (h : (vs.map (·.name)).Nodup) {i j : Nat} {v w : VarDef} (hi : vs[i]? = some v)
    (hj : vs[j]? = some w) (e : v.name = w.name) : i = j := by
  unfold List.Nodup at h
  rw [List.pairwise_map] at h
  obtain ⟨pi, ei⟩ := List.getElem?_eq_some_iff.1 hi
  obtain ⟨pj, ej⟩ := List.getElem?_eq_some_iff.1 hj
  rcases Nat.lt_trichotomy i j with hab | hab | hab
  · have := List.pairwise_iff_getElem.1 h i j pi pj hab
    rw [ei, ej] at this
    exact absurd e this
  · exact hab
  · have := List.pairwise_iff_getElem.1 h j i pj pi hab
    rw [ei, ej] at this
    exact absurd e.symm this

theorem Bound.undefined_iff {c : Ctx} {top : Bool} {d : Nat} {t : GType} {j : Lit} {o : Q} (hv : ∀ vs, c.vars = some vs → VarsOk vs)
    (h : Bound c.s c.vars c.r top d t j o) : isUndefined c.env o = true ↔ Absent c j := by
  obtain ⟨h1, h2⟩ := h.variable_out
  constructor
  · intro hu
    cases hj : j.isVar with
    | false =>
      have := h1 hj
      cases o <;> first | cases hu; done | cases this
    | true =>
      cases j with
      | var name =>
        obtain ⟨i, rfl, vs, v, T, a, b, e, _⟩ := h2 name rfl
        refine ⟨vs, i, v, a, b, by rw [e], ?_⟩
        unfold isUndefined at hu
        simpa using hu
      | _ => cases hj
  · rintro ⟨vs, i, v, a, b, e, hn⟩
    obtain ⟨i', rfl, vs', v', T, a', b', e', _⟩ := h2 _ e
    rw [a] at a'
    cases a'
    have hnd := (hv vs a).names
    have : i' = i := idx_unique hnd b' b e'
    subst this
    unfold isUndefined
    simp [hn]

theorem Value.ne_null_top {c : Ctx} {d : Nat} {t : GType} {j : Lit} {v : Json} (h : Value c true d t j v) (hj : j.isNull = false)
    (hv : j.isVar = false) : v ≠ .null := by
  generalize hb : true = b at h
  cases h with
  | asIs h => exact h.ne_null hj hv
  | @bare _ t _ v h1 _ _ _ h =>
    have hne := h.ne_null hj hv
    cases hd : t.depth with
    | zero => exact hne
    | succ n => simp [nestJ]
  | _ => cases hb

theorem oneOfVars_nest (n : Nat) (o : Q) : oneOfVars (nest n o) = oneOfVars o := by
  induction n with
  | zero => rfl
  | succ n ih => unfold nest; rw [oneOfVars, oneOfVarsItems, oneOfVarsItems, ih]; simp

theorem oneOfVars_item {i : Nat} {x : Q} : ∀ {xs}, x ∈ xs → i ∈ oneOfVars x → i ∈ oneOfVarsItems xs
  | y :: ys, h, hi => by
    unfold oneOfVarsItems
    rcases List.mem_cons.1 h with rfl | h
    · exact List.mem_append_left _ hi
    · exact List.mem_append_right _ (oneOfVars_item h hi)

theorem oneOfVars_field {i : Nat} {b : Bool} {p : Nat × Q} (hp : b = true → p.2.isVariable = false) :
    ∀ {xs}, p ∈ xs → i ∈ oneOfVars p.2 → i ∈ oneOfVarsFields b xs
  | y :: ys, h, hi => by
    unfold oneOfVarsFields
    rcases List.mem_cons.1 h with rfl | h
    · refine List.mem_append_left _ ?_
      obtain ⟨k, x⟩ := p
      cases b with
      | false => exact hi
      | true =>
        have := hp rfl
        cases x <;> first | exact hi | cases this
    · exact List.mem_append_right _ (oneOfVars_field hp h hi)

/-- The entries of an input object or of arguments. -/
theorem serFields_value {c : Ctx} {R : Nat → GType → Lit → Q → Prop} {R' : Nat → GType → Lit → Json → Prop} {fs : List (Str × Lit)} :
    ∀ {fields : List InputField} {xs : List (Nat × Q)}, (fields.map (·.id)).Nodup → (ids xs).Sublist ((accessible fields).map (·.id)) →
    (∀ f ∈ accessible fields,
      (∃ j o t, (f.name, j) ∈ fs ∧ (f.id, o) ∈ xs ∧ Reachable f.ty.wrapping t ∧ R f.ty.definition t j o) ∨
      (f.name ∉ keys fs ∧ ∃ dv, f.default = some dv ∧ (f.id, Q.default dv) ∈ xs) ∨
      (f.name ∉ keys fs ∧ f.default = none ∧ f.id ∉ ids xs ∧ ∃ t, Reachable f.ty.wrapping t ∧ t.required = false)) →
    (∀ f ∈ fields, nm.field f.id = f.name ∧ nm.fieldDefault f.id = f.default) → c.dflt = nm.default →
    (∀ d t j o id, R d t j o → (id, o) ∈ xs → (isUndefined c.env o = true ↔ Absent c j) ∧ (Absent c j → t.required = false) ∧
      (¬ Absent c j → R' d t j (serQ nm c.env o))) →
    FieldsValue c R' fs fields (serFields nm c.env xs)
  | [], xs, _, hsub, _, _, _, _ => by
    have : xs = [] := by
      have := List.eq_nil_of_sublist_nil hsub
      unfold ids at this
      exact List.map_eq_nil_iff.1 this
    subst this
    exact .nil
  | f :: rest, xs, hnd, hsub, hb, hnm, hdf, hR => by
    have hnd' := (List.nodup_cons.1 hnd)
    have hnot : f.id ∉ (accessible rest).map (·.id) := by
      intro h
      obtain ⟨g, hg, e⟩ := List.mem_map.1 h
      exact hnd'.1 (List.mem_map.2 ⟨g, (mem_accessible.1 hg).1, e⟩)
    cases hin : f.inaccessible with
    | true =>
      have e : accessible (f :: rest) = accessible rest := by simp [accessible, hin]
      rw [e] at hsub hb
      exact .hidden hin (serFields_value hnd'.2 hsub hb (fun g hg => hnm g (List.mem_cons_of_mem _ hg)) hdf hR)
    | false =>
      have e : accessible (f :: rest) = f :: accessible rest := by simp [accessible, hin]
      rw [e] at hsub hb
      have first : ∀ o, (f.id, o) ∈ xs → ∃ xs', xs = (f.id, o) :: xs' ∧ (ids xs').Sublist ((accessible rest).map (·.id)) := by
        intro o ho
        match xs, ho, hsub with
        | (k, y) :: xs', ho, hsub =>
          unfold ids at hsub
          rw [List.map_cons, List.map_cons] at hsub
          rw [List.sublist_cons_iff] at hsub
          rcases hsub with h | ⟨r, h1, h2⟩
          · exfalso
            have := h.subset (List.mem_map.2 ⟨_, ho, rfl⟩)
            exact hnot this
          · cases h1
            rcases List.mem_cons.1 ho with h | h
            · cases h
              exact ⟨xs', rfl, h2⟩
            · exact absurd (h2.subset (List.mem_map.2 ⟨_, h, rfl⟩)) hnot
      have restB : ∀ o xs', xs = (f.id, o) :: xs' → ∀ g ∈ accessible rest,
          (∃ j o t, (g.name, j) ∈ fs ∧ (g.id, o) ∈ xs' ∧ Reachable g.ty.wrapping t ∧ R g.ty.definition t j o) ∨
          (g.name ∉ keys fs ∧ ∃ dv, g.default = some dv ∧ (g.id, Q.default dv) ∈ xs') ∨
          (g.name ∉ keys fs ∧ g.default = none ∧ g.id ∉ ids xs' ∧ ∃ t, Reachable g.ty.wrapping t ∧ t.required = false) := by
        rintro o xs' rfl g hg
        have hne : g.id ≠ f.id := fun h => hnot (List.mem_map.2 ⟨g, hg, h⟩)
        have mem : ∀ {y}, (g.id, y) ∈ (f.id, o) :: xs' → (g.id, y) ∈ xs' := by
          intro y hy
          rcases List.mem_cons.1 hy with h | h
          · exact absurd (congrArg (·.1) h) hne
          · exact h
        rcases hb g (List.mem_cons_of_mem _ hg) with ⟨j, o', t, h1, h2, h3⟩ | ⟨h1, dv, h2, h3⟩ | ⟨h1, h2, h3, h4⟩
        · exact Or.inl ⟨j, o', t, h1, mem h2, h3⟩
        · exact Or.inr (Or.inl ⟨h1, dv, h2, mem h3⟩)
        · exact Or.inr (Or.inr ⟨h1, h2, fun h => h3 (List.mem_cons_of_mem _ h), h4⟩)
      have hnmr : ∀ g ∈ rest, nm.field g.id = g.name ∧ nm.fieldDefault g.id = g.default := fun g hg => hnm g (List.mem_cons_of_mem _ hg)
      obtain ⟨hn1, hn2⟩ := hnm f List.mem_cons_self
      rcases hb f List.mem_cons_self with ⟨j, o, t, h1, h2, h3, h4⟩ | ⟨h1, dv, h2, h3⟩ | ⟨h1, h2, h3, t, h4, h5⟩
      · obtain ⟨xs', rfl, hsub'⟩ := first o h2
        have ih := serFields_value hnd'.2 hsub' (restB o xs' rfl) hnmr hdf
          (fun d t j o id h hm => hR d t j o id h (List.mem_cons_of_mem _ hm))
        obtain ⟨a, b, e⟩ := hR _ _ _ _ _ h4 h2
        unfold serFields
        by_cases hu : isUndefined c.env o = true
        · rw [if_pos hu, hn2, hn1]
          have hab := a.1 hu
          cases hd : f.default with
          | none => exact .omitted hin (Or.inr ⟨j, h1, hab⟩) hd h3 (b hab) ih
          | some dv =>
            simp only
            rw [← hdf]
            exact .default hin (Or.inr ⟨j, h1, hab⟩) hd ih
        · rw [if_neg hu, hn1]
          have hab : ¬ Absent c j := fun h => hu (a.2 h)
          exact .given hin h1 hab h3 (e hab) ih
      · obtain ⟨xs', rfl, hsub'⟩ := first _ h3
        have ih := serFields_value hnd'.2 hsub' (restB _ xs' rfl) hnmr hdf
          (fun d t j o id h hm => hR d t j o id h (List.mem_cons_of_mem _ hm))
        unfold serFields
        rw [if_neg (by simp [isUndefined]), hn1, serQ, ← hdf]
        exact .default hin (Or.inl h1) h2 ih
      · have hsub' : (ids xs).Sublist ((accessible rest).map (·.id)) := by
          rw [List.map_cons, List.sublist_cons_iff] at hsub
          rcases hsub with h | ⟨r, h6, _⟩
          · exact h
          · exact absurd (by rw [h6]; exact List.mem_cons_self) h3
        have ih := serFields_value hnd'.2 hsub' (fun g hg => hb g (List.mem_cons_of_mem _ hg)) hnmr hdf hR
        exact .omitted hin (Or.inl h1) h2 h4 h5 ih

/-- Variables used for `@oneOf` fields have a value. -/
def OneOfOk (r : Rules) (env : Nat → Option Json) (is : List Nat) : Prop :=
  ∀ i ∈ is, env i ≠ none ∧ (env i = some .null → r.oneOfNull)

theorem Bound.value {c : Ctx} {args : List InputField} (hs : SchemaOk c.s) (hv : ∀ vs, c.vars = some vs → VarsOk vs)
    (hnm : NamesOk c.s nm args) (hdf : c.dflt = nm.default) (he : Defined c.vars c.env) {top : Bool} {d : Nat} {t : GType} {j : Lit} {o : Q}
    (h : Bound c.s c.vars c.r top d t j o) (ho : OneOfOk c.r c.env (oneOfVars o)) : Value c top d t j (serQ nm c.env o) := by
  induction h with
  | asIs _ ih => exact .asIs (ih ho)
  | bare h1 h2 h3 h4 _ ih =>
    rw [oneOfVars_nest] at ho
    rw [serQ_nest]
    exact .bare h1 h2 h3 h4 (ih ho)
  | @var d t name i hu =>
    rw [serQ]
    cases hi : c.env i with
    | none => exact .absent hu hi
    | some v => exact .var hu hi
  | null h => exact .null h
  | @nonNull d t j o hvar hne h ih =>
    refine .nonNull hvar ((ih ho).ne_null ?_ hvar) (ih ho)
    cases hj : j.isNull with
    | false => rfl
    | true => exact absurd (h.null_out hj) hne
  | @list d t xs ys hl hi ih =>
    rw [serQ, serItems_map]
    refine .list (by simp [hl]) fun i x v hx hv' => ?_
    rw [List.getElem?_map] at hv'
    obtain ⟨y, hy, rfl⟩ := Option.map_eq_some_iff.1 hv'
    exact ih i x y hx hy fun k hk => ho k (oneOfVars_item (List.mem_of_getElem? hy) hk)
  | scalar hk h => exact .scalar hk (serQ_scalar h)
  | enum hk h1 h2 =>
    rw [serQ, hnm.enums _ _ hk _ h1]
    exact .enum hk h1 h2
  | @object d fields fs xs R hR hk hkn hf ih =>
    rw [serQ]
    refine .object (fun d t j v => Value c true d t j v) (fun _ _ _ _ h => h) hk hkn hf.declared ?_
    refine serFields_value (R := R) (hs.ids _ _ _ hk) hf.ordered hf.bound (fun f hf => hnm.fields _ _ _ hk f hf) hdf ?_
    intro d' t' j' o' id hr hm
    refine ⟨(hR _ _ _ _ hr).undefined_iff hv, fun ha => ?_, fun _ => ih _ _ _ _ hr fun k hk => ho k (oneOfVars_field (by simp) hm hk)⟩
    obtain ⟨vs, i, v, a, b, e, hn⟩ := ha
    obtain ⟨i', rfl, hu⟩ := (hR _ _ _ _ hr).variable_out.2 _ e
    have := ((hR _ _ _ _ hr).undefined_iff hv).2 ⟨vs, i, v, a, b, e, hn⟩
    refine Usable.nullable he hu ?_
    unfold isUndefined at this
    simpa using this
  | @oneOf d fields f t j o hk hf ht hnull h ih =>
    rw [serQ]
    have hun := h.undefined_iff hv
    have hnotabs : ¬ Absent c j := by
      intro ha
      have h1 := hun.2 ha
      cases o with
      | «variable» i =>
        unfold isUndefined at h1
        exact (ho i (by simp [oneOfVars, oneOfVarsFields])).1 (by simpa using h1)
      | _ => cases h1
    have hsf : serFields nm c.env [(f.id, o)] = [(f.name, serQ nm c.env o)] := by
      unfold serFields
      rw [if_neg fun h => hnotabs (hun.1 h), (hnm.fields _ _ _ hk f (mem_accessible.1 hf).1).1]
      rfl
    rw [hsf]
    have hval : Value c true f.ty.definition t j (serQ nm c.env o) := by
      cases hj : j.isVar with
      | false => exact ih fun k hk' => ho k (oneOfVars_field (p := (f.id, o)) (fun _ => h.variable_out.1 hj) List.mem_cons_self hk')
      | true =>
        cases j with
        | var name =>
          obtain ⟨i, rfl, _⟩ := h.variable_out.2 name rfl
          exact ih fun k hk' => by simp [oneOfVars] at hk'
        | _ => cases hj
    refine .oneOf hk hf ht (fun e => ?_) hnotabs hval
    cases hj : j.isNull with
    | true => exact hnull hj
    | false =>
      cases hj' : j.isVar with
      | false => exact absurd e (hval.ne_null_top hj hj')
      | true =>
        cases j with
        | var name =>
          obtain ⟨i, rfl, _⟩ := h.variable_out.2 name rfl
          obtain ⟨h1, h2⟩ := ho i (by simp [oneOfVars, oneOfVarsFields])
          rw [serQ] at e
          cases hi : c.env i with
          | none => exact absurd hi h1
          | some w =>
            rw [hi] at e
            simp at e
            subst e
            exact h2 hi
        | _ => cases hj'

end Verif.Literals
