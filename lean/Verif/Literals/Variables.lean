import Verif.Literals.Serialize
/-!
# The values of the variables
-/
namespace Verif.Literals

open Verif.Common Verif.Wrapping Verif.Coercion

variable {nm : Names}

theorem serOutItems_map : ∀ xs, serOutItems nm xs = xs.map (serOut nm)
  | [] => rfl
  | x :: xs => by unfold serOutItems; rw [serOutItems_map xs]; rfl

theorem serOutFields_map : ∀ xs, serOutFields nm xs = xs.map fun p => (nm.field p.1, serOut nm p.2)
  | [] => rfl
  | (k, x) :: xs => by unfold serOutFields; rw [serOutFields_map xs]; rfl

theorem serOut_ne_null {o : Out} (h : o ≠ .null) (hd : ∀ id, o ≠ .default id) : serOut nm o ≠ .null := by
  cases o with
  | null => exact absurd rfl h
  | default id => exact absurd rfl (hd id)
  | int i => unfold serOut jsonInt; simp
  | _ => unfold serOut; simp

theorem jsonOut_not_default (j : Json) (id : Nat) : jsonOut j ≠ .default id := by
  cases j <;> simp [jsonOut]

theorem conforms_not_default {s : Schema} {nul : Prop} {d : Nat} {t : GType} {o : Out} (h : Conforms s nul d t o) (id : Nat) :
    o ≠ .default id := by
  induction h with
  | nonNull _ _ ih => exact ih
  | custom _ h => cases h; exact jsonOut_not_default _ _
  | _ => simp

/-- A coerced value is serialized to a value of the type. -/
theorem conforms_isValue {s : Schema} {r : Rules} {args : List InputField} (hs : SchemaOk s) (hnm : NamesOk s nm args)
    (hdf : DefaultsOk s r nm.default args) {d : Nat} {t : GType} {o : Out}
    (h : Conforms s r.oneOfNull d t o) : IsValue s r.tight d t (serOut nm o) := by
  induction h with
  | null h => exact .null h
  | nonNull h hc ih => exact .nonNull (serOut_ne_null h (conforms_not_default hc)) ih
  | list _ ih =>
    rw [serOut, serOutItems_map]
    refine .list fun v hv => ?_
    obtain ⟨y, hy, rfl⟩ := List.mem_map.1 hv
    exact ih y hy
  | string h => exact .string h
  | boolean h => exact .boolean h
  | float h => exact .float h
  | @int d v h h1 h2 => exact .int h h1 h2 (jsonInt_spec v)
  | custom h => exact .custom h
  | enum h h1 h2 =>
    rw [serOut, hnm.enums _ _ h _ h1]
    exact .enum h h1 h2
  | @object d fields xs isOneOf R hR hd hnd h1 h2 h3 ih =>
    rw [serOut, serOutFields_map]
    have hname : ∀ p ∈ xs, ∃ f ∈ accessible fields, f.id = p.1 ∧ nm.field p.1 = f.name := by
      intro p hp
      obtain ⟨f, hf, e, _⟩ := h1 p hp
      exact ⟨f, hf, e, by rw [← e]; exact (hnm.fields _ _ _ hd f (mem_accessible.1 hf).1).1⟩
    refine .object (IsValue s r.tight) (fun _ _ _ h => h) hd ?_ ?_ ?_ ?_
    · unfold Coercion.keys
      rw [List.map_map]
      unfold Coercion.ids at hnd
      unfold List.Nodup at hnd ⊢
      rw [List.pairwise_map] at hnd ⊢
      refine hnd.imp_of_mem fun {p q} hp hq hne he => hne ?_
      simp only [Function.comp] at he
      obtain ⟨f, hf, e1, e2⟩ := hname p hp
      obtain ⟨g, hg, e3, e4⟩ := hname q hq
      rw [e2, e4] at he
      have hfg : f = g := by
        have hn := hs.names _ _ _ hd
        unfold List.Nodup at hn
        rw [List.pairwise_map] at hn
        obtain ⟨a, ha, ea⟩ := List.getElem_of_mem (mem_accessible.1 hf).1
        obtain ⟨b, hb, eb⟩ := List.getElem_of_mem (mem_accessible.1 hg).1
        rcases Nat.lt_trichotomy a b with hab | hab | hab
        · have := List.pairwise_iff_getElem.1 hn a b ha hb hab
          rw [ea, eb] at this
          exact absurd he this
        · subst hab; rw [← ea, ← eb]
        · have := List.pairwise_iff_getElem.1 hn b a hb ha hab
          rw [ea, eb] at this
          exact absurd he.symm this
      subst hfg
      rw [← e1, ← e3]
    · intro p hp
      obtain ⟨q, hq, rfl⟩ := List.mem_map.1 hp
      obtain ⟨f, hf, e, h⟩ := h1 q hq
      have e2 : nm.field q.1 = f.name := by rw [← e]; exact (hnm.fields _ _ _ hd f (mem_accessible.1 hf).1).1
      rcases h with ⟨_, dv, h4, h5⟩ | ⟨t, ht, h⟩
      · obtain ⟨t, ht⟩ := hs.wrapped _ _ _ hd f (mem_accessible.1 hf).1
        refine ⟨f, hf, t, e2.symm, ht, ?_⟩
        rw [h5, serOut]
        exact hdf.fields _ _ _ hd f (mem_accessible.1 hf).1 dv h4 t ht
      · exact ⟨f, hf, t, e2.symm, ht, ih _ _ _ h⟩
    · intro ho f hf hdn t ht hr
      have := h2 ho f hf hdn t ht hr
      obtain ⟨p, hp, e⟩ := List.mem_map.1 this
      unfold Coercion.keys
      rw [List.map_map]
      refine List.mem_map.2 ⟨p, hp, ?_⟩
      simp only [Function.comp]
      rw [e]
      exact (hnm.fields _ _ _ hd f (mem_accessible.1 hf).1).1
    · intro ho
      obtain ⟨p, rfl, h⟩ := h3 ho
      refine ⟨_, rfl, fun hn => ?_⟩
      rcases h with h | h
      · exact h
      · obtain ⟨f, _, _, h5⟩ := h1 p List.mem_cons_self
        rcases h5 with ⟨h6, _⟩ | ⟨t, _, h7⟩
        · rw [ho] at h6; cases h6
        · exact absurd hn (serOut_ne_null h (conforms_not_default (hR _ _ _ h7)))

/-! ## Variables of a bound value -/

theorem FieldsBound.mem {R : Nat → GType → Lit → Q → Prop} {fields : List InputField} {fs : List (Str × Lit)} {xs : List (Nat × Q)}
    (h : FieldsBound R fields fs xs) (hi : (fields.map (·.id)).Nodup) {id : Nat} {o : Q} (hm : (id, o) ∈ xs) :
    (∃ d t j, R d t j o) ∨ ∃ dv, o = .default dv := by
  have hnd : ((accessible fields).map (·.id)).Nodup := (List.Sublist.map _ List.filter_sublist).nodup hi
  have hn := h.ordered.nodup hnd
  obtain ⟨f, hf, e⟩ := List.mem_map.1 (h.ordered.subset (List.mem_map.2 ⟨_, hm, rfl⟩))
  simp only at e
  subst e
  have uniq : ∀ o', (f.id, o') ∈ xs → o' = o := by
    intro o' ho'
    unfold ids List.Nodup at hn
    rw [List.pairwise_map] at hn
    obtain ⟨a, ha, ea⟩ := List.getElem_of_mem hm
    obtain ⟨b, hb, eb⟩ := List.getElem_of_mem ho'
    rcases Nat.lt_trichotomy a b with hab | hab | hab
    · have := List.pairwise_iff_getElem.1 hn a b ha hb hab
      rw [ea, eb] at this
      exact absurd rfl this
    · subst hab
      rw [ea] at eb
      exact (congrArg (·.2) eb).symm
    · have := List.pairwise_iff_getElem.1 hn b a hb ha hab
      rw [ea, eb] at this
      exact absurd rfl this
  rcases h.bound f hf with ⟨j, o', t, _, h2, _, h4⟩ | ⟨_, dv, _, h3⟩ | ⟨_, _, h3, _⟩
  · have := uniq _ h2
    subst this
    exact Or.inl ⟨_, _, _, h4⟩
  · exact Or.inr ⟨dv, (uniq _ h3).symm⟩
  · exact absurd (List.mem_map.2 ⟨_, hm, rfl⟩) h3

theorem oneOfVarsItems_mem {i : Nat} : ∀ {xs}, i ∈ oneOfVarsItems xs → ∃ x ∈ xs, i ∈ oneOfVars x
  | x :: xs, h => by
    unfold oneOfVarsItems at h
    rcases List.mem_append.1 h with h | h
    · exact ⟨x, List.mem_cons_self, h⟩
    · obtain ⟨y, hy, h⟩ := oneOfVarsItems_mem h
      exact ⟨y, List.mem_cons_of_mem _ hy, h⟩

theorem oneOfVarsFields_mem {i : Nat} : ∀ {xs}, i ∈ oneOfVarsFields false xs → ∃ p ∈ xs, i ∈ oneOfVars p.2
  | (k, x) :: xs, h => by
    unfold oneOfVarsFields at h
    rcases List.mem_append.1 h with h | h
    · exact ⟨_, List.mem_cons_self, h⟩
    · obtain ⟨y, hy, h⟩ := oneOfVarsFields_mem h
      exact ⟨y, List.mem_cons_of_mem _ hy, h⟩

theorem oneOfVars_plain {j : Lit} : Plain j → oneOfVars (plainQ j) = [] := by
  intro h
  induction h with
  | list xs _ ih =>
    rw [plainQ, oneOfVars, plainQItems_map]
    cases hl : oneOfVarsItems (xs.map plainQ) with
    | nil => rfl
    | cons i l =>
      obtain ⟨x, hx, hi⟩ := oneOfVarsItems_mem (i := i) (by rw [hl]; exact List.mem_cons_self)
      obtain ⟨y, hy, rfl⟩ := List.mem_map.1 hx
      rw [ih y hy] at hi
      cases hi
  | _ => rfl

/-- The variables of `@oneOf` fields are declared. -/
theorem Bound.oneOfVars_declared {s : Schema} {vars : Option (List VarDef)} {r : Rules} (hs : SchemaOk s) {top : Bool} {d : Nat} {t : GType}
    {j : Lit} {o : Q} (h : Bound s vars r top d t j o) : ∀ i ∈ oneOfVars o, ∃ vs v, vars = some vs ∧ vs[i]? = some v := by
  induction h with
  | asIs _ ih => exact ih
  | bare _ _ _ _ _ ih => rw [oneOfVars_nest]; exact ih
  | nonNull _ _ _ ih => exact ih
  | list hl _ ih =>
    intro i hi
    obtain ⟨y, hy, hi⟩ := oneOfVarsItems_mem hi
    obtain ⟨k, hk, rfl⟩ := List.getElem_of_mem hy
    exact ih k _ _ (List.getElem?_eq_getElem (by omega)) (List.getElem?_eq_getElem hk) i hi
  | scalar _ h =>
    cases h with
    | custom j h => rw [oneOfVars_plain h]; intro i hi; cases hi
    | _ => intro i hi; cases hi
  | object R _ hd _ hf ih =>
    intro i hi
    obtain ⟨⟨k, y⟩, hp, hi⟩ := oneOfVarsFields_mem hi
    rcases hf.mem (hs.ids _ _ _ hd) hp with ⟨d, t, j, h⟩ | ⟨dv, rfl⟩
    · exact ih _ _ _ _ h i hi
    · cases hi
  | @oneOf d fields f t j o _ _ _ _ h ih =>
    intro i hi
    rw [oneOfVars] at hi
    cases o with
    | «variable» k =>
      simp [oneOfVarsFields] at hi
      subst hi
      cases hj : j.isVar with
      | false => have := h.variable_out.1 hj; cases this
      | true =>
        cases j with
        | var name =>
          obtain ⟨i', e, vs, v, T, a, b, _⟩ := h.variable_out.2 name rfl
          cases e
          exact ⟨vs, v, a, b⟩
        | _ => cases hj
    | _ => exact ih i (by simpa [oneOfVarsFields] using hi)
  | _ => intro i hi; cases hi

/-! ## Given values -/

theorem jsonOutItems_map : ∀ xs, jsonOutItems xs = xs.map jsonOut
  | [] => rfl
  | x :: xs => by unfold jsonOutItems; rw [jsonOutItems_map xs]; rfl

theorem jsonOutFields_map : ∀ xs, jsonOutFields xs = xs.map fun p => (p.1, jsonOut p.2)
  | [] => rfl
  | (k, x) :: xs => by unfold jsonOutFields; rw [jsonOutFields_map xs]; rfl

theorem serOutMap_map : ∀ xs, serOutMap nm xs = xs.map fun p => (p.1, serOut nm p.2)
  | [] => rfl
  | (k, x) :: xs => by unfold serOutMap; rw [serOutMap_map xs]; rfl

mutual
theorem rounded : ∀ j, Rounded j (serOut nm (jsonOut j))
  | .null => .null
  | .bool b => .bool b
  | .num n => .num n
  | .str s => .str s
  | .arr xs => by
    rw [jsonOut, serOut, serOutItems_map, jsonOutItems_map, List.map_map]
    refine .arr (by simp) fun i x v hx hv => ?_
    simp only [List.getElem?_map, hx, Option.map_some, Function.comp, Option.some.injEq] at hv
    subst hv
    exact roundedItems xs x (List.mem_of_getElem? hx)
  | .obj fs => by
    rw [jsonOut, serOut, serOutMap_map, jsonOutFields_map, List.map_map]
    refine .obj (by simp) (fun i p v hp hv => ?_) fun i p v hp hv => ?_
    · simp only [List.getElem?_map, hp, Option.map_some, Function.comp, Option.some.injEq] at hv
      subst hv
      rfl
    · simp only [List.getElem?_map, hp, Option.map_some, Function.comp, Option.some.injEq] at hv
      subst hv
      exact roundedFields fs p (List.mem_of_getElem? hp)
theorem roundedItems : ∀ (xs : List Json), ∀ x ∈ xs, Rounded x (serOut nm (jsonOut x))
  | [], x, h => by cases h
  | y :: ys, x, h => by
    rcases List.mem_cons.1 h with e | h
    · rw [e]; exact rounded y
    · exact roundedItems ys x h
theorem roundedFields : ∀ (xs : List (Str × Json)), ∀ p ∈ xs, Rounded p.2 (serOut nm (jsonOut p.2))
  | [], x, h => by cases h
  | (k, y) :: ys, x, h => by
    rcases List.mem_cons.1 h with e | h
    · rw [e]; exact rounded y
    · exact roundedFields ys x h
end

theorem serOut_nest (n : Nat) (o : Out) : serOut nm (Coercion.nest n o) = nestJ n (serOut nm o) := by
  induction n with
  | zero => rfl
  | succ n ih =>
    unfold Coercion.nest nestJ
    rw [serOut, serOutItems, serOutItems, ih]

theorem serOutFields_given {dflt : Nat → Json} {R : Nat → GType → Json → Out → Prop} {R' : Nat → GType → Json → Json → Prop}
    {fs : List (Str × Json)} : ∀ {fields : List InputField} {xs : List (Nat × Out)}, (fields.map (·.id)).Nodup →
    (Coercion.ids xs).Sublist ((accessible fields).map (·.id)) →
    (∀ f ∈ accessible fields,
      (∃ j o t, (f.name, j) ∈ fs ∧ (f.id, o) ∈ xs ∧ Reachable f.ty.wrapping t ∧ R f.ty.definition t j o) ∨
      (f.name ∉ Coercion.keys fs ∧ ∃ dv, f.default = some dv ∧ (f.id, Out.default dv) ∈ xs) ∨
      (f.name ∉ Coercion.keys fs ∧ f.default = none ∧ f.id ∉ Coercion.ids xs ∧ ∃ t, Reachable f.ty.wrapping t ∧ t.required = false)) →
    (∀ f ∈ fields, nm.field f.id = f.name) → dflt = nm.default →
    (∀ d t j o, R d t j o → R' d t j (serOut nm o)) →
    FieldsGiven dflt R' fs fields (serOutFields nm xs)
  | [], xs, _, hsub, _, _, _, _ => by
    have : xs = [] := by
      have := List.eq_nil_of_sublist_nil hsub
      unfold Coercion.ids at this
      exact List.map_eq_nil_iff.1 this
    subst this
    exact .nil
  | f :: rest, xs, hnd, hsub, hb, hnm, hdf, hR => by
    have hnd' := (List.nodup_cons.1 hnd)
    have hnot : f.id ∉ (accessible rest).map (·.id) := by
      intro h
      obtain ⟨g, hg, e⟩ := List.mem_map.1 h
      exact hnd'.1 (List.mem_map.2 ⟨g, (mem_accessible.1 hg).1, e⟩)
    cases hin : f.inaccessible with
    | true =>
      have e : accessible (f :: rest) = accessible rest := by simp [accessible, hin]
      rw [e] at hsub hb
      exact .hidden hin (serOutFields_given hnd'.2 hsub hb (fun g hg => hnm g (List.mem_cons_of_mem _ hg)) hdf hR)
    | false =>
      have e : accessible (f :: rest) = f :: accessible rest := by simp [accessible, hin]
      rw [e] at hsub hb
      have first : ∀ o, (f.id, o) ∈ xs → ∃ xs', xs = (f.id, o) :: xs' ∧ (Coercion.ids xs').Sublist ((accessible rest).map (·.id)) := by
        intro o ho
        match xs, ho, hsub with
        | (k, y) :: xs', ho, hsub =>
          unfold Coercion.ids at hsub
          rw [List.map_cons, List.map_cons] at hsub
          rw [List.sublist_cons_iff] at hsub
          rcases hsub with h | ⟨r, h1, h2⟩
          · exfalso
            have := h.subset (List.mem_map.2 ⟨_, ho, rfl⟩)
            exact hnot this
          · cases h1
            rcases List.mem_cons.1 ho with h | h
            · cases h
              exact ⟨xs', rfl, h2⟩
            · exact absurd (h2.subset (List.mem_map.2 ⟨_, h, rfl⟩)) hnot
      have restB : ∀ o xs', xs = (f.id, o) :: xs' → ∀ g ∈ accessible rest,
          (∃ j o t, (g.name, j) ∈ fs ∧ (g.id, o) ∈ xs' ∧ Reachable g.ty.wrapping t ∧ R g.ty.definition t j o) ∨
          (g.name ∉ Coercion.keys fs ∧ ∃ dv, g.default = some dv ∧ (g.id, Out.default dv) ∈ xs') ∨
          (g.name ∉ Coercion.keys fs ∧ g.default = none ∧ g.id ∉ Coercion.ids xs' ∧ ∃ t, Reachable g.ty.wrapping t ∧ t.required = false) := by
        rintro o xs' rfl g hg
        have hne : g.id ≠ f.id := fun h => hnot (List.mem_map.2 ⟨g, hg, h⟩)
        have mem : ∀ {y}, (g.id, y) ∈ (f.id, o) :: xs' → (g.id, y) ∈ xs' := by
          intro y hy
          rcases List.mem_cons.1 hy with h | h
          · exact absurd (congrArg (·.1) h) hne
          · exact h
        rcases hb g (List.mem_cons_of_mem _ hg) with ⟨j, o', t, h1, h2, h3⟩ | ⟨h1, dv, h2, h3⟩ | ⟨h1, h2, h3, h4⟩
        · exact Or.inl ⟨j, o', t, h1, mem h2, h3⟩
        · exact Or.inr (Or.inl ⟨h1, dv, h2, mem h3⟩)
        · exact Or.inr (Or.inr ⟨h1, h2, fun h => h3 (List.mem_cons_of_mem _ h), h4⟩)
      have hnmr : ∀ g ∈ rest, nm.field g.id = g.name := fun g hg => hnm g (List.mem_cons_of_mem _ hg)
      have hn1 := hnm f List.mem_cons_self
      rcases hb f List.mem_cons_self with ⟨j, o, t, h1, h2, h3, h4⟩ | ⟨h1, dv, h2, h3⟩ | ⟨h1, h2, h3, t, h4, h5⟩
      · obtain ⟨xs', rfl, hsub'⟩ := first o h2
        have ih := serOutFields_given hnd'.2 hsub' (restB o xs' rfl) hnmr hdf hR
        unfold serOutFields
        rw [hn1]
        exact .given hin h1 h3 (hR _ _ _ _ h4) ih
      · obtain ⟨xs', rfl, hsub'⟩ := first _ h3
        have ih := serOutFields_given hnd'.2 hsub' (restB _ xs' rfl) hnmr hdf hR
        unfold serOutFields
        rw [hn1, serOut, ← hdf]
        exact .default hin h1 h2 ih
      · have hsub' : (Coercion.ids xs).Sublist ((accessible rest).map (·.id)) := by
          rw [List.map_cons, List.sublist_cons_iff] at hsub
          rcases hsub with h | ⟨r, h6, _⟩
          · exact h
          · exact absurd (by rw [h6]; exact List.mem_cons_self) h3
        exact .omitted hin h1 h2 h4 h5 (serOutFields_given hnd'.2 hsub' (fun g hg => hb g (List.mem_cons_of_mem _ hg)) hnmr hdf hR)

theorem coerced_not_default {s : Schema} {top : Bool} {d : Nat} {t : GType} {j : Json} {o : Out} (h : Coerced s top d t j o) (id : Nat) :
    o ≠ .default id := by
  induction h with
  | asIs _ ih => exact ih
  | @bare d t j o _ _ _ _ ih =>
    cases t.depth with
    | zero => exact ih
    | succ n => unfold Coercion.nest; simp
  | nonNull _ _ ih => exact ih
  | scalar _ h =>
    cases h with
    | custom j => exact jsonOut_not_default _ _
    | _ => simp
  | _ => simp

/-- A coerced value is serialized to the value given. -/
theorem coerced_given {s : Schema} {args : List InputField} (hs : SchemaOk s) (hnm : NamesOk s nm args) {top : Bool} {d : Nat} {t : GType}
    {j : Json} {o : Out} (h : Coerced s top d t j o) : Given s nm.default top d t j (serOut nm o) := by
  induction h with
  | asIs _ ih => exact .asIs ih
  | bare h1 h2 h3 _ ih => rw [serOut_nest]; exact .bare h1 h2 h3 ih
  | null h => exact .null h
  | nonNull h hc ih => exact .nonNull (serOut_ne_null h (coerced_not_default hc)) ih
  | list hl _ ih =>
    rw [serOut, serOutItems_map]
    refine .list (by simp [hl]) fun i x v hx hv => ?_
    rw [List.getElem?_map] at hv
    obtain ⟨y, hy, rfl⟩ := Option.map_eq_some_iff.1 hv
    exact ih i x y hx hy
  | scalar hk h =>
    refine .scalar hk ?_
    cases h with
    | string s => exact .string s
    | boolean b => exact .boolean b
    | float n => exact .float n
    | int n i h1 h2 h3 _ => exact .int h1 h2 h3 (jsonInt_spec i)
    | intClamped q i h1 h2 => exact .intClamped h1 h2 (jsonInt_spec _)
    | custom => exact .custom (rounded _)
  | enum hk h1 h2 =>
    rw [serOut, hnm.enums _ _ hk _ h1]
    exact .enum hk h1 h2
  | object R _ hk h1 h2 h3 ih =>
    rw [serOut]
    exact .object (fun d t j v => Given s nm.default true d t j v) (fun _ _ _ _ h => h) hk h1
      (serOutFields_given (hs.ids _ _ _ hk) h3 h2 (fun f hf => (hnm.fields _ _ _ hk f hf).1) rfl ih)
  | oneOf hk hf ht _ ih =>
    rw [serOut, serOutFields, serOutFields, (hnm.fields _ _ _ hk _ (mem_accessible.1 hf).1).1]
    exact .oneOf hk hf ht ih

/-! ## Declarations and values of a request -/

/-- The variable definitions are bound from declarations; `defaults` are the default values by id. -/
def Declares (s : Schema) (decls : List Decl) (defaults : Nat → Q) (vars : List VarDef) : Prop :=
  vars.length = decls.length ∧ ∀ (i : Nat) decl v, decls[i]? = some decl → vars[i]? = some v →
    v.name = decl.name ∧ bindDecl s decl = .ok (v.ty, v.default.map defaults)

/-- The default value of a variable is the value of its literal. -/
theorem default_value {s : Schema} {args : List InputField} (hs : SchemaOk s) (hnm : NamesOk s nm args)
    {decl : Decl} {ty : Ty} {q : Q} {T : GType} (h : bindDecl s decl = .ok (ty, some q)) (ht : Reachable ty.wrapping T) :
    ∃ v, decl.default = some v ∧
      Value ⟨s, none, lax, fun _ => none, nm.default⟩ true ty.definition T v (serQ nm (fun _ => none) q) := by
  unfold bindDecl at h
  cases hd : decl.default with
  | none => rw [hd] at h; cases h
  | some v =>
    rw [hd] at h
    simp only at h
    cases hv : variableType decl.ty (!v.isNull) with
    | none => rw [hv] at h; cases h
    | some ty' =>
      rw [hv] at h
      simp only at h
      obtain ⟨q', h1, h2⟩ := map_ok h
      cases h2
      have hb := (sound (vars := none) hs (fun _ e => by cases e) _).1 _ _ _ _ (Typed.of_reachable ht) h1
      exact ⟨v, rfl, hb.value (c := ⟨s, none, lax, fun _ => none, nm.default⟩) hs (fun _ e => by cases e) hnm rfl
        (fun _ _ _ _ e => by cases e) (fun i hi => by obtain ⟨_, _, e, _⟩ := hb.oneOfVars_declared hs i hi; cases e)⟩

/-- The default value of a variable is a value of its type. -/
theorem default_isValue {s : Schema} {args : List InputField} (hs : SchemaOk s) (hnm : NamesOk s nm args)
    (hdf : DefaultsOk s lax nm.default args) {decl : Decl} {ty : Ty} {q : Q} {T : GType} (h : bindDecl s decl = .ok (ty, some q))
    (ht : Reachable ty.wrapping T) : IsValue s lax.tight ty.definition T (serQ nm (fun _ => none) q) := by
  obtain ⟨v, _, hc⟩ := default_value hs hnm h ht
  exact hc.isValue (r' := lax.tight) (args := args) hs (fun _ => Or.inl rfl) (fun h => h) ⟨hdf.fields, hdf.args⟩
    ⟨fun _ _ _ _ _ e => (by cases e), fun _ _ _ _ e => by cases e⟩

/-- The type of a definition. -/
noncomputable def typeOf (v : VarDef) : GType := open Classical in
  if h : ∃ T, Reachable v.ty.wrapping T then Classical.choose h else .named

theorem typeOf_spec {vars : List VarDef} (hv : VarsOk vars) : ∀ v ∈ vars, Reachable v.ty.wrapping (typeOf v) := by
  intro v hm
  unfold typeOf
  rw [dif_pos (hv.wrapped v hm)]
  exact Classical.choose_spec (hv.wrapped v hm)

/-- The values of an accepted request. -/
theorem env_ok {s : Schema} {args : List InputField} (hs : SchemaOk s) (hnm : NamesOk s nm args) (hdf : DefaultsOk s lax nm.default args)
    {decls : List Decl} {defaults : Nat → Q} {vars : List VarDef} (hdecl : Declares s decls defaults vars) (hv : VarsOk vars)
    {raw : List (Str × Json)} {vals : List VarValue} (h : bindVariables s vars raw = some vals) :
    EnvOk s lax (some vars) (envOf nm defaults vals) := by
  obtain ⟨_, h2⟩ := C07_request_values s vars typeOf raw vals hs hv.names (typeOf_spec hv) h
  have ty : ∀ {v T}, v ∈ vars → Reachable v.ty.wrapping T → T = typeOf v := fun hm ht =>
    (Typed.of_reachable ht).unique (Typed.of_reachable (typeOf_spec hv _ hm))
  constructor
  · intro vs i v w T e hi hw ht
    cases e
    have hT := ty (List.mem_of_getElem? hi) ht
    subst hT
    unfold envOf at hw
    rcases h2 i v hi with ⟨x, o, _, h3, h4⟩ | ⟨_, id, h3, h4⟩ | ⟨_, _, _, h4⟩
    · rw [h3] at hw
      cases hw
      exact conforms_isValue hs hnm hdf (r := lax) (h4.conforms hs (Or.inl trivial))
    · rw [h4] at hw
      cases hw
      have hlt : i < decls.length := by
        rw [← hdecl.1]
        exact (List.getElem?_eq_some_iff.1 hi).1
      obtain ⟨_, hb⟩ := hdecl.2 i _ v (List.getElem?_eq_getElem hlt) hi
      rw [h3] at hb
      exact default_isValue hs hnm hdf hb ht
    · rw [h4] at hw
      cases hw
  · intro vs i v T e hi hn ht
    cases e
    have hT := ty (List.mem_of_getElem? hi) ht
    subst hT
    unfold envOf at hn
    rcases h2 i v hi with ⟨x, o, _, h3, h4⟩ | ⟨_, id, h3, h4⟩ | ⟨_, _, h4, _⟩
    · rw [h3] at hn
      cases hn
    · rw [h4] at hn
      cases hn
    · exact h4

/-- A variable used for a `@oneOf` field has a value in an accepted request. -/
theorem env_oneOf {s : Schema} {defaults : Nat → Q} {vars : List VarDef} (hv : VarsOk vars)
    {raw : List (Str × Json)} {vals : List VarValue} (h : bindVariables s vars raw = some vals) {i : Nat} {v : VarDef} (hi : vars[i]? = some v)
    (ho : v.oneOfUsage = true) : envOf nm defaults vals i ≠ none := by
  obtain ⟨h1, h2⟩ := (bindVariables_some s vars raw hv.names vals).1 h
  subst h2
  have hz := h1 v (List.mem_of_getElem? hi)
  unfold envOf
  rw [List.getElem?_map, hi]
  simp only [Option.map_some, Option.bind_some]
  unfold bindVariable at hz ⊢
  cases hg : given raw v.name with
  | some x =>
    rw [hg] at hz
    simp only at hz ⊢
    cases hc : coerceVariable s v.ty x with
    | ok o => simp [varJson]
    | error e => rw [hc] at hz; simp at hz
  | none =>
    rw [hg] at hz
    simp only at hz ⊢
    cases hd : v.default with
    | some id => simp [varJson]
    | none =>
      rw [hd, ho] at hz
      simp only at hz
      split at hz <;> simp at hz

end Verif.Literals
