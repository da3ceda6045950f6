import Verif.Literals.EvalSpec
import Verif.Literals.Bind
/-!
# The value of a literal is a value of its type
-/
namespace Verif.Literals

open Verif.Common Verif.Wrapping Verif.Coercion

theorem IsValue.mono {s : Schema} {r r' : Rules} (hb : r.bare → r'.bare) (hn : r.oneOfNull → r'.oneOfNull) {d : Nat} {t : GType} {v : Json}
    (h : IsValue s r d t v) : IsValue s r' d t v := by
  induction h with
  | null h => exact .null h
  | nonNull h _ ih => exact .nonNull h ih
  | list _ ih => exact .list ih
  | bare h1 h2 h3 _ ih => exact .bare (hb h1) h2 h3 ih
  | string h => exact .string h
  | boolean h => exact .boolean h
  | float h => exact .float h
  | int h h1 h2 h3 => exact .int h h1 h2 h3
  | custom h => exact .custom h
  | enum h h1 h2 => exact .enum h h1 h2
  | object R _ hd h1 h2 h3 h4 ih =>
    refine .object R ih hd h1 h2 h3 fun ho => ?_
    obtain ⟨p, h5, h6⟩ := h4 ho
    exact ⟨p, h5, fun h => hn (h6 h)⟩

theorem IsValue.of_tight {s : Schema} {r : Rules} {d : Nat} {t : GType} {v : Json} (h : IsValue s r.tight d t v) : IsValue s r d t v :=
  IsValue.mono (r := r.tight) (r' := r) (fun h => False.elim h) (fun h => h) h

theorem admits_null {t : GType} (h : t.Admits .null) : t.required = false := by
  cases t with
  | nonNull t => exact absurd rfl h.1
  | _ => rfl

theorem null_admits {t : GType} (h : t.required = false) : t.Admits .null := by
  cases t with
  | nonNull t => cases h
  | named => exact Or.inl rfl
  | list t => exact Or.inl rfl

theorem isValue_of_leaf {s : Schema} {r : Rules} {d n : Nat} {v : Json} (hv : v ≠ .null) (h : IsValue s r d .named v) :
    ∀ t : GType, t.Admits (.leaf n) → IsValue s r d t v
  | .named, _ => h
  | .list t, ha => by
    rcases ha with ha | ⟨vs, ha, _⟩ <;> cases ha
  | .nonNull t, ha => .nonNull hv (isValue_of_leaf hv h t ha.2)

theorem isValue_null {s : Schema} {r : Rules} {d : Nat} {t : GType} (h : t.Admits .null) : IsValue s r d t .null := .null (admits_null h)

theorem exists_vals {α : Type} {P : α → Val → Prop} : ∀ {vs : List α}, (∀ v ∈ vs, ∃ x, P v x) →
    ∃ xs : List Val, xs.length = vs.length ∧ ∀ (i : Nat) v x, vs[i]? = some v → xs[i]? = some x → P v x
  | [], _ => ⟨[], rfl, fun i v x h => by simp at h⟩
  | v :: vs, h => by
    obtain ⟨x, hx⟩ := h v List.mem_cons_self
    obtain ⟨xs, h1, h2⟩ := exists_vals (vs := vs) fun w hw => h w (List.mem_cons_of_mem _ hw)
    refine ⟨x :: xs, by simp [h1], fun i w y hw hy => ?_⟩
    cases i with
    | zero => simp at hw hy; subst hw; subst hy; exact hx
    | succ i => simp at hw hy; exact h2 i w y hw hy

theorem isValue_of_list {s : Schema} {r : Rules} {d : Nat} {vs : List Json} {xs : List Val}
    (h : ∀ t, (∀ x ∈ xs, t.Admits x) → ∀ v ∈ vs, IsValue s r d t v) :
    ∀ t : GType, t.Admits (.list xs) → IsValue s r d t (.arr vs)
  | .named, ha => by rcases ha with ha | ⟨n, ha⟩ <;> cases ha
  | .list t, ha => by
    rcases ha with ha | ⟨vs', ha, h'⟩
    · cases ha
    · cases ha
      exact .list (h t h')
  | .nonNull t, ha => .nonNull (by simp) (isValue_of_list h t ha.2)

/-- The outline of a value: what the wrappers see of it. -/
theorem IsValue.outline {s : Schema} {r : Rules} {d : Nat} {t : GType} {v : Json} (h : IsValue s r d t v) (hr : ¬ r.bare) :
    ∃ x, t.Admits x ∧ (∀ t' : GType, t'.Admits x → IsValue s r d t' v) ∧ (∀ n, x = .leaf n → v ≠ .null ∧ IsValue s r d .named v) ∧
      (x = .null → v = .null) := by
  have leaf : ∀ {d v}, v ≠ .null → IsValue s r d .named v → ∃ x, GType.named.Admits x ∧ (∀ t' : GType, t'.Admits x → IsValue s r d t' v) ∧
      (∀ n, x = .leaf n → v ≠ .null ∧ IsValue s r d .named v) ∧ (x = .null → v = .null) := fun hv h =>
    ⟨.leaf 0, Or.inr ⟨0, rfl⟩, fun t' ha => isValue_of_leaf hv h t' ha, fun _ _ => ⟨hv, h⟩, fun e => by cases e⟩
  induction h with
  | null h => exact ⟨.null, null_admits h, fun t' ha => isValue_null ha, fun n e => (by cases e), fun _ => rfl⟩
  | nonNull hv h ih =>
    obtain ⟨x, h1, h2, h3, h4⟩ := ih
    exact ⟨x, ⟨fun e => hv (h4 e), h1⟩, h2, h3, h4⟩
  | @list d t vs h ih =>
    obtain ⟨xs, h1, h2⟩ := exists_vals ih
    refine ⟨.list xs, Or.inr ⟨xs, rfl, fun x hx => ?_⟩, isValue_of_list ?_, fun n e => (by cases e), fun e => by cases e⟩
    · obtain ⟨i, hi, rfl⟩ := List.getElem_of_mem hx
      exact (h2 i _ _ (List.getElem?_eq_getElem (by omega)) (List.getElem?_eq_getElem hi)).1
    · intro t' ha v hv
      obtain ⟨i, hi, rfl⟩ := List.getElem_of_mem hv
      exact (h2 i _ _ (List.getElem?_eq_getElem hi) (List.getElem?_eq_getElem (by omega))).2.1 t' (ha _ (List.getElem_mem _))
  | bare h1 => exact absurd h1 hr
  | string h => exact leaf (by simp) (.string h)
  | boolean h => exact leaf (by simp) (.boolean h)
  | float h => exact leaf (by simp) (.float h)
  | int h h1 h2 h3 => exact leaf (by cases h3 <;> simp) (.int h h1 h2 h3)
  | @custom d v h =>
    by_cases hv : v = .null
    · subst hv
      exact ⟨.null, Or.inl rfl, fun t' ha => isValue_null ha, fun n e => (by cases e), fun _ => rfl⟩
    · exact leaf hv (.custom h)
  | enum h h1 h2 => exact leaf (by simp) (.enum h h1 h2)
  | object R hR hd h1 h2 h3 h4 => exact leaf (by simp) (.object R hR hd h1 h2 h3 h4)

theorem Usable.nullable {r : Rules} {vars : Option (List VarDef)} {env : Nat → Option Json} (he : Defined vars env)
    {d : Nat} {t : GType} {name : Str} {i : Nat} (hu : Usable r vars d t name i) (hn : env i = none) : t.required = false := by
  obtain ⟨vs, v, T, h1, h2, _, h4, h5, h6⟩ := hu
  rcases h6 .null (null_admits (he vs i v T h1 h2 hn h5)) with h | ⟨_, _, n, hn⟩
  · exact admits_null h
  · cases hn

/-- A variable that may be used at a position has a value for it. -/
theorem Usable.isValue {s : Schema} {r : Rules} {vars : Option (List VarDef)} {env : Nat → Option Json} (he : EnvOk s r vars env)
    {d : Nat} {t : GType} {name : Str} {i : Nat} (hu : Usable r vars d t name i) :
    (∀ w, env i = some w → IsValue s r d t w) ∧ (env i = none → t.required = false) := by
  obtain ⟨vs, v, T, h1, h2, h3, h4, h5, h6⟩ := hu
  constructor
  · intro w hw
    have hv := he.values vs i v w T h1 h2 hw h5
    rw [h4] at hv
    obtain ⟨x, a, b, c, _⟩ := hv.outline (fun h => h)
    rcases h6 x a with h | ⟨hb, hl, n, hn⟩
    · exact (b t h).of_tight
    · obtain ⟨e1, e2⟩ := c n hn
      exact .bare hb hl e1 e2.of_tight
  · intro hn
    exact Usable.nullable he.defined ⟨vs, v, T, h1, h2, h3, h4, h5, h6⟩ hn

theorem PlainValue.ne_null {j : Lit} {v : Json} (h : PlainValue j v) (hj : j.isNull = false) : v ≠ .null := by
  cases h with
  | null => cases hj
  | int h => cases h <;> simp
  | _ => simp

theorem ScalarValue.ne_null {k : ScalarType} {j : Lit} {v : Json} (h : ScalarValue k j v) (hj : j.isNull = false) : v ≠ .null := by
  cases h with
  | int _ _ h => cases h <;> simp
  | intFloat _ _ _ h => cases h <;> simp
  | intClamped _ _ h => cases h <;> simp
  | custom h => exact h.ne_null hj
  | _ => simp

theorem Value.ne_null {c : Ctx} {d : Nat} {t : GType} {j : Lit} {v : Json} (h : Value c false d t j v) (hj : j.isNull = false)
    (hv : j.isVar = false) : v ≠ .null := by
  generalize hb : false = b at h
  cases h with
  | asIs => cases hb
  | bare => cases hb
  | var => cases hv
  | absent => cases hv
  | null => cases hj
  | nonNull _ h _ => exact h
  | scalar _ h => exact h.ne_null hj
  | _ => simp

theorem nestJ_isValue {s : Schema} {r : Rules} {d : Nat} {v : Json} (hv : v ≠ .null) (h : IsValue s r d .named v) :
    ∀ t : GType, IsValue s r d t (nestJ t.depth v) ∧ nestJ t.depth v ≠ .null
  | .named => ⟨h, hv⟩
  | .list t => by
    refine ⟨.list fun w hw => ?_, by simp [GType.depth, nestJ]⟩
    simp at hw
    subst hw
    exact (nestJ_isValue hv h t).1
  | .nonNull t => ⟨.nonNull (nestJ_isValue hv h t).2 (nestJ_isValue hv h t).1, (nestJ_isValue hv h t).2⟩

theorem FieldsValue.keys_sublist {c : Ctx} {R : Nat → GType → Lit → Json → Prop} {fs : List (Str × Lit)} {fields : List InputField}
    {out : List (Str × Json)} (h : FieldsValue c R fs fields out) :
    (Coercion.keys out).Sublist ((accessible fields).map (·.name)) := by
  induction h with
  | nil => exact List.Sublist.slnil
  | hidden hf _ ih => simpa [accessible, hf] using ih
  | given hf _ _ _ _ _ ih =>
    simp only [accessible, hf, Coercion.keys, List.map_cons, List.filter_cons, Bool.not_false, if_true]
    exact ih.cons_cons _
  | default hf _ _ _ ih =>
    simp only [accessible, hf, Coercion.keys, List.map_cons, List.filter_cons, Bool.not_false, if_true]
    exact ih.cons_cons _
  | omitted hf _ _ _ _ _ ih =>
    simp only [accessible, hf, List.map_cons, List.filter_cons, Bool.not_false, if_true]
    exact ih.cons _

/-- What the entries are, field by field. -/
theorem FieldsValue.entries {c : Ctx} {R : Nat → GType → Lit → Json → Prop} {fs : List (Str × Lit)} {fields : List InputField}
    {out : List (Str × Json)} (h : FieldsValue c R fs fields out) :
    (∀ p ∈ out, ∃ f ∈ accessible fields, f.name = p.1 ∧
      ((∃ j t, (f.name, j) ∈ fs ∧ Reachable f.ty.wrapping t ∧ R f.ty.definition t j p.2) ∨ ∃ dv, f.default = some dv ∧ p.2 = c.dflt dv)) ∧
    (∀ f ∈ accessible fields, f.default = none → ∀ t, Reachable f.ty.wrapping t → t.required = true → f.name ∈ Coercion.keys out) := by
  have acc : ∀ {f g : InputField} {rest}, f ∈ accessible (g :: rest) → (f = g ∧ g.inaccessible = false) ∨ f ∈ accessible rest := by
    intro f g rest h
    obtain ⟨h1, h2⟩ := mem_accessible.1 h
    rcases List.mem_cons.1 h1 with rfl | h1
    · exact Or.inl ⟨rfl, h2⟩
    · exact Or.inr (mem_accessible.2 ⟨h1, h2⟩)
  have sub : ∀ {f g : InputField} {rest}, f ∈ accessible rest → f ∈ accessible (g :: rest) := by
    intro f g rest h
    obtain ⟨h1, h2⟩ := mem_accessible.1 h
    exact mem_accessible.2 ⟨List.mem_cons_of_mem _ h1, h2⟩
  have self : ∀ {g : InputField} {rest}, g.inaccessible = false → g ∈ accessible (g :: rest) :=
    fun h => mem_accessible.2 ⟨List.mem_cons_self, h⟩
  induction h with
  | nil => exact ⟨fun p hp => by (cases hp), fun f hf => by simp [accessible] at hf⟩
  | hidden hf _ ih =>
    refine ⟨fun p hp => ?_, fun f hf' => ?_⟩
    · obtain ⟨f, h1, h2⟩ := ih.1 p hp
      exact ⟨f, sub h1, h2⟩
    · rcases acc hf' with ⟨rfl, h⟩ | h
      · rw [hf] at h; cases h
      · exact ih.2 f h
  | @given f rest out j t v hf h1 h2 h3 h4 _ ih =>
    refine ⟨fun p hp => ?_, fun g hg hd u hu hr => ?_⟩
    · rcases List.mem_cons.1 hp with rfl | hp
      · exact ⟨f, self hf, rfl, Or.inl ⟨j, t, h1, h3, h4⟩⟩
      · obtain ⟨f, h1, h2⟩ := ih.1 p hp
        exact ⟨f, sub h1, h2⟩
    · rcases acc hg with ⟨rfl, h⟩ | h
      · exact List.mem_cons_self
      · exact List.mem_cons_of_mem _ (ih.2 g h hd u hu hr)
  | @default f rest out dv hf h1 h2 _ ih =>
    refine ⟨fun p hp => ?_, fun g hg hd u hu hr => ?_⟩
    · rcases List.mem_cons.1 hp with rfl | hp
      · exact ⟨f, self hf, rfl, Or.inr ⟨dv, h2, rfl⟩⟩
      · obtain ⟨f, h1, h2⟩ := ih.1 p hp
        exact ⟨f, sub h1, h2⟩
    · rcases acc hg with ⟨rfl, h⟩ | h
      · exact List.mem_cons_self
      · exact List.mem_cons_of_mem _ (ih.2 g h hd u hu hr)
  | @omitted f rest out t hf h1 h2 h3 h4 _ ih =>
    refine ⟨fun p hp => ?_, fun g hg hd u hu hr => ?_⟩
    · obtain ⟨f, h1, h2⟩ := ih.1 p hp
      exact ⟨f, sub h1, h2⟩
    · rcases acc hg with ⟨rfl, h⟩ | h
      · rw [(Typed.of_reachable hu).unique (Typed.of_reachable h3), h4] at hr
        cases hr
      · exact ih.2 g h hd u hu hr

theorem accessible_names_nodup {fields : List InputField} (h : (fields.map (·.name)).Nodup) : ((accessible fields).map (·.name)).Nodup :=
  (List.Sublist.map _ List.filter_sublist).nodup h

/-- The value of a literal is a value of the type. Without variables there are no bare items. -/
theorem Value.isValue {c : Ctx} {r' : Rules} (hs : SchemaOk c.s) (hb : c.r.bare → c.vars = none ∨ r'.bare) (hn : c.r.oneOfNull → r'.oneOfNull)
    {args : List InputField} (hd : DefaultsOk c.s r' c.dflt args)
    (he : EnvOk c.s c.r c.vars c.env) {top : Bool} {d : Nat} {t : GType} {j : Lit} {v : Json} (h : Value c top d t j v) :
    IsValue c.s r' d t v := by
  have up : ∀ {d t name i w}, Usable c.r c.vars d t name i → IsValue c.s c.r d t w → IsValue c.s r' d t w := by
    intro d t name i w hu h
    refine h.mono (fun h => ?_) hn
    rcases hb h with h1 | h1
    · obtain ⟨vs, _, _, h2, _⟩ := hu
      rw [h1] at h2
      cases h2
    · exact h1
  induction h with
  | asIs _ ih => exact ih
  | bare h1 h2 h3 h4 h5 ih => exact (nestJ_isValue (h5.ne_null h3 h4) ih _).1
  | var hu hw => exact up hu (((Usable.isValue he hu).1) _ hw)
  | absent hu hw => exact .null (((Usable.isValue he hu).2) hw)
  | null h => exact .null h
  | nonNull _ h _ ih => exact .nonNull h ih
  | @list d t xs vs hl hi ih =>
    refine .list fun v hv => ?_
    obtain ⟨i, hi, rfl⟩ := List.getElem_of_mem hv
    exact ih i _ _ (List.getElem?_eq_getElem (by omega)) (List.getElem?_eq_getElem hi)
  | scalar hk h =>
    cases h with
    | string => exact .string hk
    | boolean => exact .boolean hk
    | float => exact .float hk
    | floatInt => exact .float hk
    | int h1 h2 h3 => exact .int hk h1 h2 h3
    | custom => exact .custom hk
    | intFloat _ h1 h2 h3 => exact .int hk h1 (by omega) h3
    | intClamped _ _ h3 => exact .int hk (by omega) (by omega) h3
  | enum h h1 h2 => exact .enum h h1 h2
  | @object d fields fs out R hR hk hkn hdecl hf ih =>
    obtain ⟨h1, h2⟩ := hf.entries
    refine .object (IsValue c.s r') (fun _ _ _ h => h) hk (hf.keys_sublist.nodup (accessible_names_nodup (hs.names _ _ _ hk))) ?_ (fun _ => h2)
      (fun e => by cases e)
    intro p hp
    obtain ⟨f, hf1, hf2, h⟩ := h1 p hp
    rcases h with ⟨j, t, _, h4, h5⟩ | ⟨dv, h3, h4⟩
    · exact ⟨f, hf1, t, hf2, h4, ih _ _ _ _ h5⟩
    · obtain ⟨t, ht⟩ := hs.wrapped _ _ _ hk f (mem_accessible.1 hf1).1
      refine ⟨f, hf1, t, hf2, ht, ?_⟩
      rw [h4]
      exact (hd.fields _ _ _ hk f (mem_accessible.1 hf1).1 dv h3 t ht).of_tight
  | @oneOf d fields f t j v hk hf ht hnull _ _ ih =>
    refine .object (IsValue c.s r') (fun _ _ _ h => h) hk (by simp [Coercion.keys]) ?_ (fun e => by cases e) (fun _ => ⟨_, rfl, fun h => hn (hnull h)⟩)
    intro p hp
    simp at hp
    subst hp
    exact ⟨f, hf, t, rfl, ht, ih⟩

end Verif.Literals
