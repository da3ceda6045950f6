import Verif.Literals.Sound
/-!
# Values written in an operation: binding is sound and complete
-/
namespace Verif.Literals

open Verif.Common Verif.Wrapping Verif.Coercion

variable {vars : Option (List VarDef)}

/-! ## Soundness -/

theorem fieldsBound_of_loop {s : Schema} {co : Ty → Lit → Except Err Q}
    (hco : ∀ ty t v o, Typed ty.wrapping t → co ty v = .ok o → Bound s vars lax true ty.definition t v o)
    {fields : List InputField} (hw : ∀ f ∈ fields, ∃ t, Reachable f.ty.wrapping t) (hn : (fields.map (·.name)).Nodup)
    (hi : (fields.map (·.id)).Nodup) {fs : List (Str × Lit)} {xs : List (Nat × Q)} (hl : fieldLoop co fields fs = .ok (xs, [])) :
    (keys fs).Nodup ∧ FieldsBound (fun d t j o => Bound s vars lax true d t j o) fields fs xs := by
  refine ⟨(fieldLoop_nodup hn hl).1, ?_⟩
  obtain ⟨a, b, c⟩ := fieldLoop_spec hn hi hl
  refine ⟨?_, ?_, a⟩
  · intro k hk
    obtain ⟨p, hp, rfl⟩ := List.mem_map.1 hk
    rcases b p hp with h | h
    · cases h
    · exact h
  · intro f hf
    obtain ⟨t, ht⟩ := hw f (mem_accessible.1 hf).1
    rcases c f hf with ⟨j, o, h1, h2, h3⟩ | h | ⟨h1, h2, h3, h4⟩
    · exact Or.inl ⟨j, o, t, h1, h2, ht, hco _ _ _ _ (Typed.of_reachable ht) h3⟩
    · exact Or.inr (Or.inl h)
    · refine Or.inr (Or.inr ⟨h1, h2, h3, t, ht, ?_⟩)
      rw [← (Typed.of_reachable ht).isNonNull]
      exact h4

theorem coerceObject_ok {s : Schema} (hs : SchemaOk s) (hv : ∀ vs, vars = some vs → VarsOk vs) {co : Ty → Lit → Except Err Q}
    (hco : ∀ ty t v o, Typed ty.wrapping t → co ty v = .ok o → Bound s vars lax true ty.definition t v o)
    {d : Nat} {isOneOf : Bool} {fields : List InputField} {j : Lit} {o : Q} (hd : s d = .inputObject isOneOf fields)
    (h : coerceObject vars co isOneOf fields j = .ok o) : Bound s vars lax false d .named j o := by
  unfold coerceObject at h
  cases j with
  | obj fs =>
    simp only at h
    cases isOneOf with
    | true =>
      rw [if_pos rfl] at h
      match fs, h with
      | [(name, v)], h =>
        simp only at h
        cases hf : fields.find? fun f => !f.inaccessible && decide (f.name = name) with
        | none => rw [hf] at h; cases h
        | some f =>
          rw [hf] at h
          obtain ⟨o', h1, rfl⟩ := map_ok h
          have hp := List.find?_some hf
          have hm := List.mem_of_find?_eq_some hf
          simp at hp
          obtain ⟨t, ht⟩ := hs.wrapped d _ _ hd f hm
          obtain ⟨hp1, rfl⟩ := hp
          refine .oneOf hd (mem_accessible.2 ⟨hm, hp1⟩) ht (fun _ => trivial) ?_
          unfold coerceOneOfField at h1
          split at h1
          · obtain ⟨i, rfl, hu⟩ := (variableRef_iff hv (Typed.of_reachable ht) _).1 h1
            exact .asIs (.var hu)
          · exact hco _ _ _ _ (Typed.of_reachable ht) h1
      | [], h => cases h
      | _ :: _ :: _, h => cases h
    | false =>
      rw [if_neg (by simp)] at h
      cases hl : fieldLoop co fields fs with
      | error e => rw [hl] at h; cases h
      | ok r =>
        obtain ⟨xs, left⟩ := r
        rw [hl] at h
        simp only [bind, Except.bind] at h
        cases left with
        | cons p ps => cases h
        | nil =>
          cases h
          obtain ⟨a, b⟩ := fieldsBound_of_loop hco (hs.wrapped d _ _ hd) (hs.names d _ _ hd) (hs.ids d _ _ hd) hl
          exact .object _ (fun _ _ _ _ h => h) hd a b
  | _ => cases h

theorem coerceType_notVar {s : Schema} {n d : Nat} {w : Wrapping} {v : Lit} : v.isVar = false →
    coerceType s vars (n + 1) d w v =
      match w.popOutermost with
      | none => .error .unreachable
      | some (none, w) =>
        if v.isNull then (if w.isNonNull then .error .unexpectedNull else .ok .null)
        else coerceNamed s vars n d v
      | some (some lw, w) =>
        match v, lw with
        | .null, .listNonNull => .error .unexpectedNull
        | .null, .list => .ok .null
        | .list xs, _ => (mapE (coerceType s vars n d w) xs).map .list
        | _, _ => .error .missingList := by
  intro hv
  rw [coerceType.eq_def]
  cases v with
  | var => cases hv
  | _ => rfl

theorem sound {s : Schema} (hs : SchemaOk s) (hv : ∀ vs, vars = some vs → VarsOk vs) (n : Nat) :
    (∀ ty t v o, Typed ty.wrapping t → coerceInput s vars n ty v = .ok o → Bound s vars lax true ty.definition t v o) ∧
    (∀ d w t v o, Typed w t → coerceType s vars n d w v = .ok o → Bound s vars lax false d t v o) ∧
    (∀ d v o, v.isNull = false → v.isVar = false → coerceNamed s vars n d v = .ok o → Bound s vars lax false d .named v o) := by
  induction n with
  | zero =>
    refine ⟨?_, ?_, ?_⟩
    · intro ty t v o _ h; unfold coerceInput at h; cases h
    · intro d w t v o _ h; unfold coerceType at h; cases h
    · intro d v o _ _ h; unfold coerceNamed at h; cases h
  | succ n ih =>
    obtain ⟨ih1, ih2, ih3⟩ := ih
    refine ⟨?_, ?_, ?_⟩
    · intro ty t v o ht h
      unfold coerceInput at h
      split at h
      · rename_i hc
        simp only [Bool.and_eq_true, Bool.not_eq_true'] at hc
        obtain ⟨o', h1, rfl⟩ := map_ok h
        rw [wrap_eq, ht.length]
        exact .bare (by rw [← ht.isList]; exact hc.1.1.1) hc.1.1.2 hc.1.2 hc.2 (ih3 _ _ _ hc.1.2 hc.2 h1)
      · exact .asIs (ih2 _ _ _ _ _ ht h)
    · intro d w t v o ht h
      by_cases hvar : v.isVar = true
      · cases v with
        | var name =>
          unfold coerceType at h
          obtain ⟨i, rfl, hu⟩ := (variableRef_iff hv ht _).1 h
          exact .var hu
        | _ => cases hvar
      have hvar : v.isVar = false := by simpa using hvar
      rw [coerceType_notVar hvar] at h
      rcases ht.cases with ⟨hp, hc⟩ | ⟨u, w', hu, hc⟩
      · rw [hp] at h
        simp only at h
        by_cases hv : v.isNull = true
        · rw [if_pos hv] at h
          split at h
          · cases h
          · rename_i hn
            cases h
            have : v = .null := by cases v <;> first | rfl | cases hv
            subst this
            refine .null ?_
            rcases hc with ⟨rfl, _⟩ | ⟨rfl, h2⟩
            · rfl
            · exact absurd h2 hn
        · rw [if_neg hv] at h
          have hv' : v.isNull = false := by simpa using hv
          have := ih3 _ _ _ hv' hvar h
          rcases hc with ⟨rfl, _⟩ | ⟨rfl, _⟩
          · exact this
          · exact .nonNull hvar (this.ne_null hv') this
      · have key : ∀ lw, w.popOutermost = some (some lw, w') → (v = .null → lw = .list ∧ o = .null) ∧
            (v ≠ .null → ∃ xs ys, v = .list xs ∧ o = .list ys ∧ mapE (coerceType s vars n d w') xs = .ok ys) := by
          intro lw hp
          rw [hp] at h
          simp only at h
          cases v with
          | null =>
            cases lw with
            | list => cases h; exact ⟨fun _ => ⟨rfl, rfl⟩, fun hc => absurd rfl hc⟩
            | listNonNull => cases h
          | list xs =>
            cases lw with
            | list =>
              obtain ⟨ys, h1, rfl⟩ := map_ok h
              exact ⟨fun hc => (by cases hc), fun _ => ⟨xs, ys, rfl, rfl, h1⟩⟩
            | listNonNull =>
              obtain ⟨ys, h1, rfl⟩ := map_ok h
              exact ⟨fun hc => (by cases hc), fun _ => ⟨xs, ys, rfl, rfl, h1⟩⟩
          | var b => cases hvar
          | bool b => cases lw <;> cases h
          | int b => cases lw <;> cases h
          | float b => cases lw <;> cases h
          | enum b => cases lw <;> cases h
          | str b => cases lw <;> cases h
          | obj b => cases lw <;> cases h
        have hlist : ∀ lw, w.popOutermost = some (some lw, w') → v ≠ .null → Bound s vars lax false d (.list u) v o ∧ o ≠ .null := by
          intro lw hp hv
          obtain ⟨xs, ys, rfl, rfl, h1⟩ := (key lw hp).2 hv
          obtain ⟨h2, h3⟩ := mapE_ok h1
          exact ⟨.list h2 fun i x y hx hy => ih2 _ _ _ _ _ hu (h3 i x y hx hy), fun e => by cases e⟩
        rcases hc with ⟨rfl, hp⟩ | ⟨rfl, hp⟩
        · by_cases hv : v = .null
          · obtain ⟨_, ho⟩ := (key _ hp).1 hv
            subst hv
            subst ho
            exact .null rfl
          · exact (hlist _ hp hv).1
        · by_cases hv : v = .null
          · obtain ⟨hl, _⟩ := (key _ hp).1 hv
            cases hl
          · obtain ⟨h1, h2⟩ := hlist _ hp hv
            exact .nonNull hvar h2 h1
    · intro d v o hn hvar h
      unfold coerceNamed at h
      cases hd : s d with
      | scalar t =>
        rw [hd] at h
        exact .scalar hd (coerceScalar_ok hvar h)
      | enum vs =>
        rw [hd] at h
        obtain ⟨e, he, ha, rfl, rfl⟩ := coerceEnum_ok h
        exact .enum hd he ha
      | inputObject isOneOf fields =>
        rw [hd] at h
        exact coerceObject_ok hs hv ih1 hd h
      | output => rw [hd] at h; cases h

/-! ## Completeness -/

theorem Bound.list_inv {s : Schema} {d : Nat} {u : GType} {j : Lit} {o : Q} (hvar : j.isVar = false)
    (h : Bound s vars lax false d (.list u) j o) :
    j = .null ∨ ∃ xs, j = .list xs ∧ ∀ x ∈ xs, ∃ y, Bound s vars lax false d u x y := by
  generalize hb : false = b at h
  generalize ht : GType.list u = t at h
  cases h with
  | asIs => cases hb
  | bare => cases hb
  | var => cases hvar
  | nonNull => cases ht
  | null => exact Or.inl rfl
  | @list _ _ xs ys hl hi =>
    cases ht
    refine Or.inr ⟨xs, rfl, fun x hx => ?_⟩
    obtain ⟨i, hi', rfl⟩ := List.getElem_of_mem hx
    exact ⟨ys[i], hi i _ _ (List.getElem?_eq_getElem hi') (List.getElem?_eq_getElem (by omega))⟩
  | scalar => cases ht
  | enum => cases ht
  | object => cases ht
  | oneOf => cases ht

theorem Bound.nonNull_inv {s : Schema} {d : Nat} {u : GType} {j : Lit} {o : Q} (hvar : j.isVar = false)
    (h : Bound s vars lax false d (.nonNull u) j o) : j.isNull = false ∧ Bound s vars lax false d u j o := by
  have hn := h.null_out
  generalize hb : false = b at h
  generalize ht : GType.nonNull u = t at h
  cases h with
  | asIs => cases hb
  | bare => cases hb
  | var => cases hvar
  | nonNull _ h1 h2 =>
    cases ht
    refine ⟨?_, h2⟩
    cases hj : j.isNull with
    | false => rfl
    | true => exact absurd (hn hj) h1
  | null h => subst ht; cases h
  | list => cases ht
  | scalar => cases ht
  | enum => cases ht
  | object => cases ht
  | oneOf => cases ht

theorem mem_keys_unique {fs : List (Str × Lit)} (hkn : (keys fs).Nodup) {k : Str} {j j' : Lit} (h1 : (k, j) ∈ fs) (h2 : (k, j') ∈ fs) :
    j = j' := by
  have hp := hkn
  unfold keys List.Nodup at hp
  rw [List.pairwise_map] at hp
  obtain ⟨a, ha, e1⟩ := List.getElem_of_mem h1
  obtain ⟨b, hb', e2⟩ := List.getElem_of_mem h2
  rcases Nat.lt_trichotomy a b with hab | hab | hab
  · have := List.pairwise_iff_getElem.1 hp a b ha hb' hab
    rw [e1, e2] at this
    exact absurd rfl this
  · subst hab
    rw [e1] at e2
    exact congrArg (·.2) e2
  · have := List.pairwise_iff_getElem.1 hp b a hb' ha hab
    rw [e1, e2] at this
    exact absurd rfl this

theorem loop_of_fieldsBound {R : Nat → GType → Lit → Q → Prop} {co : Ty → Lit → Except Err Q} {fields : List InputField}
    {fs : List (Str × Lit)} {xs : List (Nat × Q)} (hn : (fields.map (·.name)).Nodup) (hkn : (keys fs).Nodup)
    (h : FieldsBound R fields fs xs)
    (hco : ∀ f ∈ accessible fields, ∀ t v o, Typed f.ty.wrapping t → R f.ty.definition t v o → (f.name, v) ∈ fs → ∃ o', co f.ty v = .ok o') :
    ∃ ys, fieldLoop co fields fs = .ok (ys, []) := by
  refine fieldLoop_total hn hkn h.declared ?_ ?_
  · intro f hff j' hj'
    rcases h.bound f hff with ⟨j, o, t, h1, h2, h3, h4⟩ | ⟨h1, _⟩ | ⟨h1, _⟩
    · have e := mem_keys_unique hkn h1 hj'
      subst e
      exact hco f hff _ _ _ (Typed.of_reachable h3) h4 h1
    · exact absurd (List.mem_map.2 ⟨_, hj', rfl⟩) h1
    · exact absurd (List.mem_map.2 ⟨_, hj', rfl⟩) h1
  · intro f hff hnk hdn
    rcases h.bound f hff with ⟨j, o, t, h1, _⟩ | ⟨_, dv, h2, _⟩ | ⟨_, _, _, t, h4, h5⟩
    · exact absurd (List.mem_map.2 ⟨_, h1, rfl⟩) hnk
    · rw [hdn] at h2; cases h2
    · rw [(Typed.of_reachable h4).isNonNull, h5]

theorem coerceObject_total {s : Schema} (hs : SchemaOk s) (hv : ∀ vs, vars = some vs → VarsOk vs) {co : Ty → Lit → Except Err Q} {j : Lit}
    (hco : ∀ ty t v o, Typed ty.wrapping t → Bound s vars lax true ty.definition t v o → (∃ fs k, j = .obj fs ∧ (k, v) ∈ fs) → ∃ o', co ty v = .ok o')
    {d : Nat} {isOneOf : Bool} {fields : List InputField} {o : Q} (hd : s d = .inputObject isOneOf fields)
    (hn : j.isNull = false) (hvar : j.isVar = false) (h : Bound s vars lax false d .named j o) :
    ∃ o', coerceObject vars co isOneOf fields j = .ok o' := by
  generalize hb : false = b at h
  generalize ht : GType.named = t at h
  cases h with
  | asIs => cases hb
  | bare => cases hb
  | var => cases hvar
  | nonNull => cases ht
  | list => cases ht
  | null => cases hn
  | scalar hd' => rw [hd] at hd'; cases hd'
  | enum hd' => rw [hd] at hd'; cases hd'
  | @object _ fields' fs xs R hR hd' hkn hf =>
    rw [hd] at hd'
    cases hd'
    obtain ⟨ys, hys⟩ := loop_of_fieldsBound (co := co) (hs.names d _ _ hd) hkn hf
      (fun f _ t v o hT hr hm => hco _ _ _ _ hT (hR _ _ _ _ hr) ⟨fs, f.name, rfl, hm⟩)
    refine ⟨.object false ys, ?_⟩
    unfold coerceObject
    simp only [Bool.false_eq_true, if_false]
    rw [hys]
    rfl
  | @oneOf _ fields' f t j o hd' hf ht' _ hc =>
    rw [hd] at hd'
    cases hd'
    have hex : ∃ o', coerceOneOfField vars co f.ty j = .ok o' := by
      unfold coerceOneOfField
      split
      · rename_i name _
        have hu : ∃ i, Usable lax vars f.ty.definition t name i := by
          generalize hb2 : true = b2 at hc
          generalize hj2 : Lit.var name = j2 at hc
          cases hc with
          | asIs hc =>
            clear hb2
            subst hj2
            generalize hj3 : Lit.var name = j3 at hc
            generalize hb3 : false = b3 at hc
            cases hc with
            | var hu => cases hj3; exact ⟨_, hu⟩
            | asIs => cases hb3
            | bare => cases hb3
            | nonNull h => subst hj3; cases h
            | scalar _ hsc => subst hj3; cases hsc with | custom _ hp => cases hp
            | _ => cases hj3
          | bare _ _ _ h => subst hj2; cases h
          | _ => cases hb2
        obtain ⟨i, hu⟩ := hu
        exact ⟨.variable i, (variableRef_iff hv (Typed.of_reachable ht') _).2 ⟨i, rfl, hu⟩⟩
      · exact hco _ _ _ _ (Typed.of_reachable ht') hc ⟨_, f.name, rfl, List.mem_cons_self⟩
    obtain ⟨o', ho⟩ := hex
    refine ⟨.object true [(f.id, o')], ?_⟩
    unfold coerceObject
    simp only [if_true]
    obtain ⟨hm, ha⟩ := mem_accessible.1 hf
    rw [find_unique (f := (·.name)) (hs.names d _ _ hd) hm (by simp [ha]) (fun y hy => by simp at hy; exact hy.2)]
    simp only
    rw [ho]
    rfl

theorem Bound.var_inv {s : Schema} {d : Nat} {t : GType} {name : Str} {o : Q}
    (h : Bound s vars lax false d t (.var name) o) : ∃ i, o = .variable i ∧ Usable lax vars d t name i := by
  generalize hj3 : Lit.var name = j3 at h
  generalize hb3 : false = b3 at h
  cases h with
  | var hu => cases hj3; exact ⟨_, rfl, hu⟩
  | asIs => cases hb3
  | bare => cases hb3
  | nonNull h => subst hj3; cases h
  | scalar _ hsc => subst hj3; cases hsc with | custom _ hp => cases hp
  | _ => cases hj3

theorem complete {s : Schema} (hs : SchemaOk s) (hvs : ∀ vs, vars = some vs → VarsOk vs) (n : Nat) :
    (∀ ty t v o, Typed ty.wrapping t → 3 * height v ≤ n → Bound s vars lax true ty.definition t v o →
      ∃ o', coerceInput s vars n ty v = .ok o') ∧
    (∀ d w t v o, Typed w t → 3 * height v ≤ n + 1 → Bound s vars lax false d t v o → ∃ o', coerceType s vars n d w v = .ok o') ∧
    (∀ d v o, v.isNull = false → v.isVar = false → 3 * height v ≤ n + 2 → Bound s vars lax false d .named v o →
      ∃ o', coerceNamed s vars n d v = .ok o') := by
  induction n with
  | zero =>
    refine ⟨?_, ?_, ?_⟩
    · intro ty t v o _ h _; have := height_pos v; omega
    · intro d w t v o _ h _; have := height_pos v; omega
    · intro d v o _ _ h _; have := height_pos v; omega
  | succ n ih =>
    obtain ⟨ih1, ih2, ih3⟩ := ih
    refine ⟨?_, ?_, ?_⟩
    · intro ty t v o ht hf h
      unfold coerceInput
      have hbare : (ty.wrapping.isList && !v.isList && !v.isNull && !v.isVar) = true → Bound s vars lax false ty.definition t v o → False := by
        intro hc h
        simp only [Bool.and_eq_true, Bool.not_eq_true'] at hc
        have hl : t.isList = true := by rw [← ht.isList]; exact hc.1.1.1
        have hlist : ∀ u, Bound s vars lax false ty.definition (.list u) v o → False := by
          intro u h
          rcases h.list_inv hc.2 with rfl | ⟨xs, rfl, _⟩
          · cases hc.1.2
          · cases hc.1.1.2
        rcases ht.cases with ⟨_, ⟨rfl, _⟩ | ⟨rfl, _⟩⟩ | ⟨u, w', _, ⟨rfl, _⟩ | ⟨rfl, _⟩⟩
        · cases hl
        · cases hl
        · exact hlist u h
        · exact hlist u (h.nonNull_inv hc.2).2
      generalize hb : true = b at h
      cases h with
      | asIs h =>
        rw [if_neg fun hc => hbare hc h]
        exact ih2 _ _ _ _ _ ht (by omega) h
      | @bare _ _ _ o' h1 h2 h3 h3' h4 =>
        rw [if_pos (by rw [ht.isList, h1, h2, h3, h3']; rfl)]
        obtain ⟨x, hx⟩ := ih3 _ _ _ h3 h3' (by omega) h4
        rw [hx]
        exact ⟨_, rfl⟩
      | var => cases hb
      | null => cases hb
      | nonNull => cases hb
      | list => cases hb
      | scalar => cases hb
      | enum => cases hb
      | object => cases hb
      | oneOf => cases hb
    · intro d w t v o ht hf h
      by_cases hvar : v.isVar = true
      · cases v with
        | var name =>
          unfold coerceType
          obtain ⟨i, _, hu⟩ := h.var_inv
          exact ⟨.variable i, (variableRef_iff hvs ht _).2 ⟨i, rfl, hu⟩⟩
        | _ => cases hvar
      have hvar : v.isVar = false := by simpa using hvar
      rw [coerceType_notVar hvar]
      rcases ht.cases with ⟨hp, hc⟩ | ⟨u, w', hu, hc⟩
      · rw [hp]
        simp only
        by_cases hv : v.isNull = true
        · rw [if_pos hv]
          rcases hc with ⟨rfl, hn⟩ | ⟨rfl, _⟩
          · rw [hn]; exact ⟨_, rfl⟩
          · have := (h.nonNull_inv hvar).1
            rw [hv] at this
            cases this
        · rw [if_neg hv]
          have hv' : v.isNull = false := by simpa using hv
          rcases hc with ⟨rfl, _⟩ | ⟨rfl, _⟩
          · exact ih3 _ _ _ hv' hvar (by omega) h
          · exact ih3 _ _ _ hv' hvar (by omega) (h.nonNull_inv hvar).2
      · have harr : ∀ xs, v = .list xs → Bound s vars lax false d (.list u) v o → ∃ ys, mapE (coerceType s vars n d w') xs = .ok ys := by
          rintro xs rfl h
          rcases h.list_inv rfl with h | ⟨xs', h1, h2⟩
          · cases h
          · cases h1
            exact mapE_total fun x hx => by
              obtain ⟨y, hy⟩ := h2 x hx
              exact ih2 _ _ _ _ _ hu (by have := height_item hx; omega) hy
        rcases hc with ⟨rfl, hp⟩ | ⟨rfl, hp⟩
        · rw [hp]
          rcases h.list_inv hvar with rfl | ⟨xs, rfl, _⟩
          · exact ⟨_, rfl⟩
          · obtain ⟨ys, hys⟩ := harr xs rfl h
            simp only
            rw [hys]
            exact ⟨_, rfl⟩
        · rw [hp]
          obtain ⟨hn, h⟩ := h.nonNull_inv hvar
          rcases h.list_inv hvar with rfl | ⟨xs, rfl, _⟩
          · cases hn
          · obtain ⟨ys, hys⟩ := harr xs rfl h
            simp only
            rw [hys]
            exact ⟨_, rfl⟩
    · intro d v o hv hvar hf h
      unfold coerceNamed
      cases hd : s d with
      | inputObject isOneOf fields =>
        simp only
        refine coerceObject_total hs hvs ?_ hd hv hvar h
        rintro ty t x o' ht hc ⟨fs, k, rfl, hm⟩
        exact ih1 _ _ _ _ ht (by have := height_field hm; simp only at this; omega) hc
      | scalar k =>
        simp only
        generalize hb : false = b at h
        generalize ht : GType.named = t at h
        cases h with
        | asIs => cases hb
        | bare => cases hb
        | var => cases hvar
        | nonNull => cases ht
        | list => cases ht
        | null => cases hv
        | scalar hd' hc =>
          rw [hd] at hd'
          cases hd'
          exact ⟨_, coerceScalar_total hc (by omega)⟩
        | enum hd' => rw [hd] at hd'; cases hd'
        | object R hR hd' => rw [hd] at hd'; cases hd'
        | oneOf hd' => rw [hd] at hd'; cases hd'
      | enum vs =>
        simp only
        generalize hb : false = b at h
        generalize ht : GType.named = t at h
        cases h with
        | asIs => cases hb
        | bare => cases hb
        | var => cases hvar
        | nonNull => cases ht
        | list => cases ht
        | null => cases hv
        | scalar hd' hc => rw [hd] at hd'; cases hd'
        | enum hd' he ha =>
          rw [hd] at hd'
          cases hd'
          exact ⟨_, coerceEnum_total (hs.enums d vs hd) he ha⟩
        | object R hR hd' => rw [hd] at hd'; cases hd'
        | oneOf hd' => rw [hd] at hd'; cases hd'
      | output =>
        generalize hb : false = b at h
        generalize ht : GType.named = t at h
        cases h with
        | asIs => cases hb
        | bare => cases hb
        | var => cases hvar
        | nonNull => cases ht
        | list => cases ht
        | null => cases hv
        | scalar hd' hc => rw [hd] at hd'; cases hd'
        | enum hd' => rw [hd] at hd'; cases hd'
        | object R hR hd' => rw [hd] at hd'; cases hd'
        | oneOf hd' => rw [hd] at hd'; cases hd'

/-! ## No panic, enough fuel -/

theorem coerceObject_error {co : Ty → Lit → Except Err Q} {isOneOf : Bool} {fields : List InputField} {j : Lit} {e : Err}
    (he : Bad e) (h : coerceObject vars co isOneOf fields j = .error e) :
    ∃ fs, j = .obj fs ∧ ∃ p ∈ fs, ∃ f ∈ fields, co f.ty p.2 = .error e := by
  unfold coerceObject at h
  cases j with
  | obj fs =>
    refine ⟨fs, rfl, ?_⟩
    simp only at h
    cases isOneOf with
    | true =>
      rw [if_pos rfl] at h
      match fs, h with
      | [(name, v)], h =>
        simp only at h
        cases hf : fields.find? fun f => !f.inaccessible && decide (f.name = name) with
        | none => rw [hf] at h; cases h; rcases he with h | h <;> cases h
        | some f =>
          rw [hf] at h
          refine ⟨_, List.mem_cons_self, f, List.mem_of_find?_eq_some hf, ?_⟩
          have h1 := map_error h
          unfold coerceOneOfField at h1
          split at h1
          · obtain ⟨h2, h3⟩ := variableRef_error h1
            rcases he with h | h
            · exact absurd h h2
            · exact absurd h h3
          · exact h1
      | [], h => cases h; rcases he with h | h <;> cases h
      | _ :: _ :: _, h => cases h; rcases he with h | h <;> cases h
    | false =>
      rw [if_neg (by simp)] at h
      cases hl : fieldLoop co fields fs with
      | error e' =>
        rw [hl] at h
        cases h
        rcases fieldLoop_error hl with h | ⟨f, hf, j, h1, h2⟩
        · subst h; rcases he with h | h <;> cases h
        · exact ⟨_, h1, f, hf, h2⟩
      | ok r =>
        obtain ⟨xs, left⟩ := r
        rw [hl] at h
        simp only [bind, Except.bind] at h
        cases left with
        | cons p ps => cases h; rcases he with h | h <;> cases h
        | nil => cases h
  | _ => cases h; rcases he with h | h <;> cases h

theorem safe {s : Schema} (hs : SchemaOk s) {e : Err} (he : Bad e) (n : Nat) :
    (∀ ty t v, Typed ty.wrapping t → s ty.definition ≠ .output → 3 * height v ≤ n → coerceInput s vars n ty v ≠ .error e) ∧
    (∀ d w t v, Typed w t → s d ≠ .output → 3 * height v ≤ n + 1 → coerceType s vars n d w v ≠ .error e) ∧
    (∀ d v, s d ≠ .output → 3 * height v ≤ n + 2 → coerceNamed s vars n d v ≠ .error e) := by
  have notBad : ∀ {e'}, e' ≠ Err.unreachable ∧ e' ≠ Err.fuel → e' = e → False := by
    rintro e' ⟨h1, h2⟩ rfl
    rcases he with h | h
    · exact h1 h
    · exact h2 h
  induction n with
  | zero =>
    refine ⟨?_, ?_, ?_⟩
    · intro ty t v _ _ h _; have := height_pos v; omega
    · intro d w t v _ _ h _; have := height_pos v; omega
    · intro d v _ h _; have := height_pos v; omega
  | succ n ih =>
    obtain ⟨ih1, ih2, ih3⟩ := ih
    refine ⟨?_, ?_, ?_⟩
    · intro ty t v ht hd hf h
      unfold coerceInput at h
      split at h
      · exact ih3 _ _ hd (by omega) (map_error h)
      · exact ih2 _ _ _ _ ht hd (by omega) h
    · intro d w t v ht hd hf h
      by_cases hvar : v.isVar = true
      · cases v with
        | var name =>
          unfold coerceType at h
          exact notBad (variableRef_error h) rfl
        | _ => cases hvar
      have hvar : v.isVar = false := by simpa using hvar
      rw [coerceType_notVar hvar] at h
      rcases ht.cases with ⟨hp, hc⟩ | ⟨u, w', hu, hc⟩
      · rw [hp] at h
        simp only at h
        split at h
        · split at h
          · cases h; rcases he with h | h <;> cases h
          · cases h
        · exact ih3 _ _ hd (by omega) h
      · have key : ∀ lw, w.popOutermost = some (some lw, w') → False := by
          intro lw hp
          rw [hp] at h
          simp only at h
          cases v with
          | list xs =>
            have : ∃ r, mapE (coerceType s vars n d w') xs = .error r ∧ r = e := by
              cases lw <;> exact ⟨_, map_error h, rfl⟩
            obtain ⟨r, h1, rfl⟩ := this
            obtain ⟨x, hx, hx'⟩ := mapE_error h1
            exact ih2 _ _ _ _ hu hd (by have := height_item hx; omega) hx'
          | _ => cases lw <;> cases h <;> rcases he with h | h <;> cases h
        rcases hc with ⟨_, hp⟩ | ⟨_, hp⟩
        · exact key _ hp
        · exact key _ hp
    · intro d v hd hf h
      unfold coerceNamed at h
      cases hsd : s d with
      | output => exact hd hsd
      | inputObject isOneOf fields =>
        rw [hsd] at h
        obtain ⟨fs, rfl, p, hp, f, hff, hc⟩ := coerceObject_error he h
        obtain ⟨t, ht⟩ := hs.wrapped d _ _ hsd f hff
        exact ih1 _ _ _ (Typed.of_reachable ht) (hs.inputs d _ _ hsd f hff) (by have := height_field hp; omega) hc
      | enum vs =>
        rw [hsd] at h
        exact notBad (coerceEnum_error h) rfl
      | scalar t =>
        rw [hsd] at h
        exact notBad (coerceScalar_error (by omega) h) rfl

end Verif.Literals
