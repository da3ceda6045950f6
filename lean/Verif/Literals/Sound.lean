import Verif.Literals.Lemmas
/-!
# Values written in an operation: the code against the specification
-/
namespace Verif.Literals

open Verif.Common Verif.Wrapping Verif.Coercion

/-! ## Types -/

theorem Typed.reachable {w : Wrapping} {t : GType} (h : Typed w t) : Reachable w t := by
  obtain ⟨i, ls, h1, rfl⟩ := h
  revert w
  induction ls using snoc_induction with
  | h0 =>
    intro w h1
    cases i with
    | false => exact ⟨[], congrArg some (rep_unique rep_new h1), rfl⟩
    | true => exact ⟨[.nonNull], congrArg some (rep_unique (rep_nonNull_named rep_new) h1), rfl⟩
  | h1 xs x ih =>
    intro w h1
    obtain ⟨w', _, h3⟩ := rep_pop h1
    obtain ⟨ops, e1, e2⟩ := ih h3
    have hl : xs.length < 10 := by have := h1.len; simp at this; omega
    obtain ⟨w2, h4, h5⟩ := rep_push h3 x hl
    have hw : w2 = w := rep_unique h5 h1
    subst hw
    refine ⟨ops ++ [.push x], ?_, ?_⟩
    · unfold run at e1 ⊢
      rw [List.foldlM_append, e1]
      simp [step, h4]
    · unfold specRun at e2 ⊢
      rw [List.foldlM_append, e2, readBack_snoc]
      have hd : (readBack i xs).depth < 10 := by rw [readBack_depth]; exact hl
      cases x <;> simp [specStep, hd]

theorem admitted_lax (t : GType) (v : Val) : Admitted lax t v ↔ AdmittedAt t v := by
  unfold Admitted AdmittedAt lax
  simp

/-! ## Variables -/

theorem findIdx_unique {vs : List VarDef} (hn : (vs.map (·.name)).Nodup) {i : Nat} {v : VarDef} (hi : vs[i]? = some v) :
    vs.findIdx? (fun x => decide (x.name = v.name)) = some i := by
  rw [List.findIdx?_eq_some_iff_getElem]
  obtain ⟨hlt, he⟩ := List.getElem?_eq_some_iff.1 hi
  refine ⟨hlt, by rw [he]; simp, fun j hj => ?_⟩
  simp only [decide_eq_true_eq]
  intro e
  have hp := hn
  unfold List.Nodup at hp
  rw [List.pairwise_map] at hp
  have := List.pairwise_iff_getElem.1 hp j i (by omega) hlt hj
  rw [he] at this
  exact this e

theorem variableRef_iff {vars : Option (List VarDef)} (hv : ∀ vs, vars = some vs → VarsOk vs) {name : Str} {d : Nat} {w : Wrapping}
    {t : GType} (ht : Typed w t) (q : Q) :
    variableRef vars name ⟨d, w⟩ = .ok q ↔ ∃ i, q = .variable i ∧ Usable lax vars d t name i := by
  unfold variableRef Usable
  cases vars with
  | none =>
    constructor
    · intro h; cases h
    · rintro ⟨i, _, vs, v, T, h, _⟩; cases h
  | some vs =>
    have hvs := hv vs rfl
    simp only
    constructor
    · intro h
      cases hf : vs.findIdx? fun v => decide (v.name = name) with
      | none => rw [hf] at h; cases h
      | some i =>
        rw [hf] at h
        simp only at h
        obtain ⟨hlt, hp, _⟩ := List.findIdx?_eq_some_iff_getElem.1 hf
        rw [List.getElem?_eq_getElem hlt] at h
        simp only at h
        split at h
        · rename_i hc
          cases h
          obtain ⟨T, hT⟩ := hvs.wrapped _ (List.getElem_mem hlt)
          obtain ⟨h1, h2⟩ := (C09_usage_iff _ ⟨d, w⟩ T t hT (Typed.reachable ht)).1 hc
          refine ⟨i, rfl, vs, vs[i], T, rfl, List.getElem?_eq_getElem hlt, by simpa using hp, h1, hT, fun x hx => ?_⟩
          exact (admitted_lax t x).2 (h2 x hx)
        · cases h
    · rintro ⟨i, rfl, vs', v, T, h0, h1, h2, h3, h4, h5⟩
      cases h0
      have := findIdx_unique hvs.names h1
      rw [h2] at this
      rw [this]
      simp only
      rw [h1]
      simp only
      rw [if_pos]
      exact (C09_usage_iff _ ⟨d, w⟩ T t h4 (Typed.reachable ht)).2 ⟨h3, fun x hx => (admitted_lax t x).1 (h5 x hx)⟩

theorem variableRef_error {vars : Option (List VarDef)} {name : Str} {ty : Ty} {e : Err}
    (h : variableRef vars name ty = .error e) : e ≠ .unreachable ∧ e ≠ .fuel := by
  unfold variableRef at h
  split at h
  · cases h; exact ⟨by simp, by simp⟩
  · split at h
    · cases h; exact ⟨by simp, by simp⟩
    · rename_i vs i hf
      obtain ⟨hlt, _, _⟩ := List.findIdx?_eq_some_iff_getElem.1 hf
      rw [List.getElem?_eq_getElem hlt] at h
      simp only at h
      split at h
      · cases h
      · cases h; exact ⟨by simp, by simp⟩

/-! ## Scalars and enums -/

theorem plainQItems_eq (xs : List Lit) : plainQItems xs = xs.map plainQ := by
  induction xs with
  | nil => rfl
  | cons x xs ih => unfold plainQItems; rw [ih]; rfl

theorem plainQFields_eq (fs : List (Str × Lit)) : plainQFields fs = fs.map fun p => (p.1, plainQ p.2) := by
  induction fs with
  | nil => rfl
  | cons p fs ih => obtain ⟨k, v⟩ := p; unfold plainQFields; rw [ih]; rfl

theorem mapE_mem {α β : Type} {f : α → Except Err β} {xs : List α} {ys : List β} (h : mapE f xs = .ok ys) :
    ∀ x ∈ xs, ∃ y, f x = .ok y := by
  intro x hx
  obtain ⟨h1, h2⟩ := mapE_ok h
  obtain ⟨i, hi, rfl⟩ := List.getElem_of_mem hx
  exact ⟨ys[i], h2 i _ _ (List.getElem?_eq_getElem hi) (List.getElem?_eq_getElem (by omega))⟩

theorem coerceAny_ok (n : Nat) : ∀ {j : Lit} {o : Q}, coerceAny n j = .ok o → o = plainQ j ∧ Plain j := by
  induction n with
  | zero => intro j o h; cases h
  | succ n ih =>
    intro j o h
    cases j with
    | null => cases h; exact ⟨rfl, .null⟩
    | bool b => cases h; exact ⟨rfl, .bool _⟩
    | int m => cases h; exact ⟨rfl, .int _⟩
    | float m => cases h; exact ⟨rfl, .float _⟩
    | str s => cases h; exact ⟨rfl, .str _⟩
    | enum s => cases h
    | var s => cases h
    | list xs =>
      obtain ⟨ys, h1, rfl⟩ := map_ok h
      refine ⟨?_, .list _ fun x hx => ?_⟩
      · rw [mapE_eq_map h1 fun x _ y hy => (ih hy).1]
        show _ = Q.list (plainQItems xs)
        rw [plainQItems_eq]
      · obtain ⟨y, hy⟩ := mapE_mem h1 x hx
        exact (ih hy).2
    | obj fs =>
      obtain ⟨ys, h1, rfl⟩ := map_ok h
      refine ⟨?_, .obj _ fun p hp => ?_⟩
      · rw [mapE_eq_map (g := fun p => (p.1, plainQ p.2)) h1 fun x _ y hy => by
          obtain ⟨a, ha, rfl⟩ := map_ok hy
          rw [(ih ha).1]]
        show _ = Q.map (plainQFields fs)
        rw [plainQFields_eq]
      · obtain ⟨y, hy⟩ := mapE_mem h1 p hp
        obtain ⟨a, ha, _⟩ := map_ok hy
        exact (ih ha).2

theorem coerceAny_total (n : Nat) : ∀ {j : Lit}, height j ≤ n → Plain j → ∃ o, coerceAny n j = .ok o := by
  induction n with
  | zero => intro j h; have := height_pos j; omega
  | succ n ih =>
    intro j h hp
    cases hp with
    | null => exact ⟨_, rfl⟩
    | int => exact ⟨_, rfl⟩
    | float => exact ⟨_, rfl⟩
    | str => exact ⟨_, rfl⟩
    | bool => exact ⟨_, rfl⟩
    | list xs hx =>
      obtain ⟨ys, hys⟩ := mapE_total (f := coerceAny n) (xs := xs) fun x hx' => by
        have := height_item hx'
        exact ih (by omega) (hx x hx')
      exact ⟨.list ys, by show (mapE (coerceAny n) xs).map Q.list = _; rw [hys]; rfl⟩
    | obj fs hf =>
      obtain ⟨ys, hys⟩ := mapE_total (f := fun p : Str × Lit => (coerceAny n p.2).map fun v => (p.1, v)) (xs := fs) fun p hp => by
        have := height_field hp
        obtain ⟨o, ho⟩ := ih (j := p.2) (by omega) (hf p hp)
        exact ⟨_, by rw [ho]; rfl⟩
      exact ⟨.map ys, by
        show (mapE (fun p : Str × Lit => (coerceAny n p.2).map fun v => (p.1, v)) fs).map Q.map = _
        rw [hys]; rfl⟩

theorem coerceAny_error (n : Nat) : ∀ {j : Lit} {e : Err}, height j ≤ n → coerceAny n j = .error e → e = .scalarType := by
  induction n with
  | zero => intro j e h; have := height_pos j; omega
  | succ n ih =>
    intro j e hh h
    cases j with
    | null => cases h
    | bool b => cases h
    | int m => cases h
    | float m => cases h
    | str s => cases h
    | enum s => cases h; rfl
    | var s => cases h; rfl
    | list xs =>
      obtain ⟨x, hx, h1⟩ := mapE_error (map_error h)
      exact ih (by have := height_item hx; omega) h1
    | obj fs =>
      obtain ⟨p, hp, h1⟩ := mapE_error (map_error h)
      exact ih (by have := height_field hp; omega) (map_error h1)

theorem coerceScalar_int (vars : Option (List VarDef)) (fuel d : Nat) (i : Int) : coerceScalar vars fuel d .int (.int i) =
    if -2147483648 ≤ i ∧ i ≤ 2147483647 then .ok (.int i) else .error .scalarValue := by
  show (match toI32 i with | some i => Except.ok (Q.int i) | none => .error Err.scalarValue) = _
  unfold toI32
  by_cases h : -2147483648 ≤ i ∧ i ≤ 2147483647
  · rw [if_pos h, if_pos h]
  · rw [if_neg h, if_neg h]

theorem coerceScalar_intFloat (vars : Option (List VarDef)) (fuel d : Nat) (q : Rat) : coerceScalar vars fuel d .int (.float q) =
    if canCoerceToInt q then .ok (.int (asI32 q)) else .error .scalarType := rfl

theorem coerceScalar_ok {vars : Option (List VarDef)} {fuel d : Nat} {t : ScalarType} {j : Lit} {o : Q} (hv : j.isVar = false)
    (h : coerceScalar vars fuel d t j = .ok o) : ScalarBound t j o := by
  cases t with
  | unknown =>
    have h' : coerceAny fuel j = .ok o := by cases j <;> exact h
    obtain ⟨rfl, hp⟩ := coerceAny_ok fuel h'
    exact .custom j hp
  | int =>
    cases j with
    | int i =>
      rw [coerceScalar_int] at h
      split at h
      · rename_i hc; cases h; exact .int _ hc.1 hc.2
      · cases h
    | float q =>
      rw [coerceScalar_intFloat] at h
      split at h
      · rename_i hc
        obtain ⟨i, rfl, hi⟩ := (canCoerceToInt_iff q).1 hc
        rw [asI32_int (by omega)] at h
        split at h
        · rename_i hlt; cases h; exact .intClamped _ i rfl hlt
        · cases h; exact .intFloat _ i rfl (by omega) hi
      · cases h
    | var n => cases hv
    | _ => cases h
  | float =>
    cases j with
    | int i => cases h; exact .floatInt i
    | float i => cases h; exact .float i
    | var n => cases hv
    | _ => cases h
  | string =>
    cases j with
    | str n => cases h; exact .string n
    | var n => cases hv
    | _ => cases h
  | boolean =>
    cases j with
    | bool n => cases h; exact .boolean n
    | var n => cases hv
    | _ => cases h

theorem coerceScalar_total {vars : Option (List VarDef)} {fuel d : Nat} {t : ScalarType} {j : Lit} {o : Q} (h : ScalarBound t j o)
    (hf : height j ≤ fuel) : coerceScalar vars fuel d t j = .ok o := by
  cases h with
  | string s => rfl
  | boolean b => rfl
  | float n => rfl
  | floatInt n => rfl
  | int i h1 h2 => rw [coerceScalar_int, if_pos ⟨h1, h2⟩]
  | intFloat q i h1 h2 h3 =>
    subst h1
    rw [coerceScalar_intFloat, if_pos ((canCoerceToInt_iff _).2 ⟨i, rfl, h3⟩), asI32_int (by omega), if_neg (by omega)]
  | intClamped q i h1 h2 =>
    subst h1
    rw [coerceScalar_intFloat, if_pos ((canCoerceToInt_iff _).2 ⟨i, rfl, by omega⟩), asI32_int (by omega), if_pos h2]
  | custom j hp =>
    obtain ⟨o, ho⟩ := coerceAny_total fuel hf hp
    obtain ⟨rfl, _⟩ := coerceAny_ok fuel ho
    cases j <;> exact ho

theorem coerceScalar_error {vars : Option (List VarDef)} {fuel d : Nat} {t : ScalarType} {j : Lit} {e : Err}
    (hf : height j ≤ fuel) (h : coerceScalar vars fuel d t j = .error e) : e ≠ .unreachable ∧ e ≠ .fuel := by
  have triv : ∀ {e}, e = .scalarType ∨ e = .scalarValue → e ≠ Err.unreachable ∧ e ≠ Err.fuel := by
    rintro e (rfl | rfl) <;> exact ⟨by simp, by simp⟩
  cases t with
  | unknown =>
    have h' : coerceAny fuel j = .error e := by cases j <;> exact h
    exact triv (Or.inl (coerceAny_error fuel hf h'))
  | int =>
    cases j with
    | int i =>
      rw [coerceScalar_int] at h
      split at h
      · cases h
      · cases h; exact triv (Or.inr rfl)
    | float q =>
      rw [coerceScalar_intFloat] at h
      split at h
      · cases h
      · cases h; exact triv (Or.inl rfl)
    | var n => exact variableRef_error h
    | _ => cases h; exact triv (Or.inl rfl)
  | float =>
    cases j with
    | int i => cases h
    | float i => cases h
    | var n => exact variableRef_error h
    | _ => cases h; exact triv (Or.inl rfl)
  | string =>
    cases j with
    | str n => cases h
    | var n => exact variableRef_error h
    | _ => cases h; exact triv (Or.inl rfl)
  | boolean =>
    cases j with
    | bool n => cases h
    | var n => exact variableRef_error h
    | _ => cases h; exact triv (Or.inl rfl)

theorem coerceEnum_ok {vs : List EnumVal} {j : Lit} {o : Q} (h : coerceEnum vs j = .ok o) :
    ∃ e ∈ vs, e.inaccessible = false ∧ j = .enum e.name ∧ o = .enumValue e.id := by
  unfold coerceEnum at h
  cases j with
  | enum name =>
    simp only at h
    cases hf : (vs.find? fun e => decide (e.name = name)).filter fun e => !e.inaccessible with
    | none => rw [hf] at h; cases h
    | some e =>
      rw [hf] at h
      cases h
      obtain ⟨h1, h2⟩ := Option.filter_eq_some_iff.1 hf
      have h3 := List.find?_some h1
      rw [decide_eq_true_eq] at h3
      exact ⟨e, List.mem_of_find?_eq_some h1, by simpa using h2, by rw [h3], rfl⟩
  | _ => cases h

theorem coerceEnum_total {vs : List EnumVal} {e : EnumVal} (hn : (vs.map (·.name)).Nodup) (h : e ∈ vs) (ha : e.inaccessible = false) :
    coerceEnum vs (.enum e.name) = .ok (.enumValue e.id) := by
  unfold coerceEnum
  simp only
  rw [find_unique hn h (by simp) (fun y hy => by simpa using hy)]
  rw [Option.filter_some_pos (by simp [ha])]

theorem coerceEnum_error {vs : List EnumVal} {j : Lit} {e : Err} (h : coerceEnum vs j = .error e) :
    e ≠ .unreachable ∧ e ≠ .fuel := by
  unfold coerceEnum at h
  split at h
  · split at h
    · cases h
    · cases h; exact ⟨by simp, by simp⟩
  · cases h; exact ⟨by simp, by simp⟩

/-! ## Null in, null out -/

theorem plainQ_null {j : Lit} (hv : j.isVar = false) (h : plainQ j = .null) : j.isNull = true := by
  cases j with
  | null => rfl
  | var n => cases hv
  | _ => cases h

theorem ScalarBound.ne_null {t : ScalarType} {j : Lit} {o : Q} (h : ScalarBound t j o) (hj : j.isNull = false) : o ≠ .null := by
  intro e
  cases h with
  | custom j hp =>
    have hv : j.isVar = false := by cases hp <;> rfl
    have := plainQ_null hv e
    rw [hj] at this
    cases this
  | _ => cases e

theorem nest_ne_null {n : Nat} {o : Q} (h : o ≠ .null) : nest n o ≠ .null := by
  cases n with
  | zero => exact h
  | succ n => intro e; cases e

theorem Bound.ne_null {s : Schema} {vars : Option (List VarDef)} {r : Rules} {b : Bool} {d : Nat} {t : GType} {j : Lit} {o : Q}
    (h : Bound s vars r b d t j o) : j.isNull = false → o ≠ .null := by
  induction h with
  | asIs _ ih => exact ih
  | bare _ _ _ _ _ ih => intro hj; exact nest_ne_null (ih hj)
  | var => intro _ e; cases e
  | null => intro hj; cases hj
  | nonNull _ h1 _ _ => intro _; exact h1
  | list => intro _ e; cases e
  | scalar _ h => intro hj; exact h.ne_null hj
  | enum => intro _ e; cases e
  | object => intro _ e; cases e
  | oneOf => intro _ e; cases e

theorem ScalarBound.null_out {t : ScalarType} {j : Lit} {o : Q} (h : ScalarBound t j o) (hj : j.isNull = true) : o = .null := by
  cases h with
  | custom j =>
    cases j with
    | null => rfl
    | _ => cases hj
  | _ => cases hj

theorem Bound.null_out {s : Schema} {vars : Option (List VarDef)} {r : Rules} {b : Bool} {d : Nat} {t : GType} {j : Lit} {o : Q}
    (h : Bound s vars r b d t j o) : j.isNull = true → o = .null := by
  induction h with
  | asIs _ ih => exact ih
  | bare _ _ h _ _ => intro hj; rw [h] at hj; cases hj
  | var => intro h; cases h
  | null => intro _; rfl
  | nonNull _ _ _ ih => exact ih
  | list => intro h; cases h
  | scalar _ h => intro hj; exact h.null_out hj
  | enum => intro h; cases h
  | object => intro h; cases h
  | oneOf => intro h; cases h

end Verif.Literals
