import Verif.Coercion.Lemmas
/-!
# Coercion of variable values: the code against the specification
-/
namespace Verif.Coercion

open Verif.Common Verif.Wrapping

/-! ## Scalars and enums -/

theorem jsonOutItems_eq (xs : List Json) : jsonOutItems xs = xs.map jsonOut := by
  induction xs with
  | nil => rfl
  | cons x xs ih => unfold jsonOutItems; rw [ih]; rfl

theorem jsonOutFields_eq (fs : List (Str × Json)) : jsonOutFields fs = fs.map fun p => (p.1, jsonOut p.2) := by
  induction fs with
  | nil => rfl
  | cons p fs ih => obtain ⟨k, v⟩ := p; unfold jsonOutFields; rw [ih]; rfl

theorem mapE_eq_map {α β : Type} {f : α → Except Err β} {g : α → β} {xs : List α} {ys : List β}
    (h : mapE f xs = .ok ys) (hg : ∀ x ∈ xs, ∀ y, f x = .ok y → y = g x) : ys = xs.map g := by
  obtain ⟨h1, h2⟩ := mapE_ok h
  apply List.ext_getElem?
  intro i
  rw [List.getElem?_map]
  by_cases hi : i < xs.length
  · have hi' : i < ys.length := by omega
    rw [List.getElem?_eq_getElem hi, List.getElem?_eq_getElem hi', Option.map_some]
    exact congrArg some (hg _ (List.getElem_mem hi) _ (h2 i _ _ (List.getElem?_eq_getElem hi) (List.getElem?_eq_getElem hi')))
  · rw [List.getElem?_eq_none (by omega), List.getElem?_eq_none (by omega)]
    rfl

theorem coerceAny_ok (n : Nat) : ∀ {j : Json} {o : Out}, coerceAny n j = .ok o → o = jsonOut j := by
  induction n with
  | zero => intro j o h; cases h
  | succ n ih =>
    intro j o h
    cases j with
    | null => cases h; rfl
    | bool b => cases h; rfl
    | num m => cases h; rfl
    | str s => cases h; rfl
    | arr xs =>
      obtain ⟨ys, h1, rfl⟩ := map_ok h
      rw [mapE_eq_map h1 fun x _ y hy => ih hy]
      show _ = Out.list (jsonOutItems xs)
      rw [jsonOutItems_eq]
    | obj fs =>
      obtain ⟨ys, h1, rfl⟩ := map_ok h
      rw [mapE_eq_map (g := fun p => (p.1, jsonOut p.2)) h1 fun x _ y hy => by
        obtain ⟨a, ha, rfl⟩ := map_ok hy
        rw [ih ha]]
      show _ = Out.map (jsonOutFields fs)
      rw [jsonOutFields_eq]

theorem coerceAny_total (n : Nat) : ∀ {j : Json}, height j ≤ n → ∃ o, coerceAny n j = .ok o := by
  induction n with
  | zero => intro j h; have := height_pos j; omega
  | succ n ih =>
    intro j h
    cases j with
    | null => exact ⟨_, rfl⟩
    | bool b => exact ⟨_, rfl⟩
    | num m => exact ⟨_, rfl⟩
    | str s => exact ⟨_, rfl⟩
    | arr xs =>
      obtain ⟨ys, hys⟩ := mapE_total (f := coerceAny n) (xs := xs) fun x hx => ih (by have := height_item hx; omega)
      exact ⟨.list ys, by unfold coerceAny; rw [hys]; rfl⟩
    | obj fs =>
      obtain ⟨ys, hys⟩ := mapE_total (f := fun p : Str × Json => (coerceAny n p.2).map fun v => (p.1, v)) (xs := fs) fun p hp => by
        obtain ⟨o, ho⟩ := ih (j := p.2) (by have := height_field hp; omega)
        exact ⟨(p.1, o), by rw [ho]; rfl⟩
      exact ⟨.map ys, by unfold coerceAny; rw [hys]; rfl⟩

theorem coerceAny_error (n : Nat) {j : Json} {e : Err} (h : coerceAny n j = .error e) : e = .fuel := by
  induction n generalizing j with
  | zero => cases h; rfl
  | succ n ih =>
    cases j with
    | null => cases h
    | bool b => cases h
    | num m => cases h
    | str s => cases h
    | arr xs =>
      obtain ⟨x, _, hx⟩ := mapE_error (map_error h)
      exact ih hx
    | obj fs =>
      obtain ⟨x, _, hx⟩ := mapE_error (map_error h)
      exact ih (map_error hx)

theorem trunc_int (i : Int) : trunc (i : Rat) = i := by
  unfold trunc
  split
  · exact Rat.floor_intCast i
  · rw [← Rat.intCast_neg, Rat.floor_intCast]
    omega

theorem maxI32 : (2147483647 : Rat) = ((2147483647 : Int) : Rat) := rfl

theorem canCoerceToInt_iff (q : Rat) : canCoerceToInt q = true ↔ ∃ i : Int, q = (i : Rat) ∧ i < 2147483647 := by
  unfold canCoerceToInt
  rw [Bool.and_eq_true, decide_eq_true_eq, decide_eq_true_eq]
  constructor
  · rintro ⟨h1, h2⟩
    refine ⟨q.floor, h1.symm, ?_⟩
    rw [← h1, maxI32] at h2
    exact Rat.intCast_lt_intCast.1 h2
  · rintro ⟨i, rfl, h⟩
    refine ⟨by rw [Rat.floor_intCast], ?_⟩
    rw [maxI32]
    exact Rat.intCast_lt_intCast.2 h

theorem coerceInt_float (fuel : Nat) (q : Rat) : coerceScalar fuel .int (.num (.float q)) =
    if canCoerceToInt q then .ok (.int (asI32 q)) else .error .scalarValue := rfl

theorem coerceInt_pos (fuel : Nat) (m : Nat) : coerceScalar fuel .int (.num (.pos m)) =
    if m ≤ 2147483647 then .ok (.int m) else .error .scalarValue := by
  unfold coerceScalar
  simp only [Num.asI64]
  by_cases h : m ≤ 2147483647
  · rw [if_pos (by omega), if_pos h]
    simp only [Option.bind_some, toI32]
    rw [if_pos (by omega)]
  · rw [if_neg h]
    by_cases h2 : m ≤ 9223372036854775807
    · rw [if_pos h2]
      simp only [Option.bind_some, toI32]
      rw [if_neg (by omega)]
    · rw [if_neg h2]
      rfl

theorem coerceInt_neg (fuel : Nat) (i : Int) : coerceScalar fuel .int (.num (.neg i)) =
    if -2147483648 ≤ i ∧ i ≤ 2147483647 then .ok (.int i) else .error .scalarValue := by
  unfold coerceScalar
  simp only [Num.asI64, Option.bind_some, toI32]
  by_cases h : -2147483648 ≤ i ∧ i ≤ 2147483647
  · rw [if_pos h, if_pos h]
  · rw [if_neg h, if_neg h]

theorem asI32_int {i : Int} (h : i ≤ 2147483647) : asI32 (i : Rat) = if i < -2147483648 then -2147483648 else i := by
  unfold asI32
  rw [trunc_int]
  split
  · rfl
  · rw [if_neg (by omega)]

theorem ratCast_inj {i j : Int} (h : (i : Rat) = (j : Rat)) : i = j := Rat.intCast_inj.1 h

/-- The `Int` rule of the code. -/
theorem coerceInt_iff (fuel : Nat) (n : Num) (o : Out) : coerceScalar fuel .int (.num n) = .ok o ↔ ScalarCoerced .int (.num n) o := by
  cases n with
  | pos m =>
    rw [coerceInt_pos]
    constructor
    · intro h
      split at h
      · cases h
        exact .int _ _ rfl (by omega) (by omega) (by intro e; cases e)
      · cases h
    · intro h
      cases h with
      | int _ i h1 h2 h3 h4 =>
        have : (m : Int) = i := ratCast_inj h1
        rw [if_pos (by omega), this]
  | neg j =>
    rw [coerceInt_neg]
    constructor
    · intro h
      split at h
      · rename_i hr
        cases h
        exact .int _ _ rfl hr.1 hr.2 (by intro e; cases e)
      · cases h
    · intro h
      cases h with
      | int _ i h1 h2 h3 h4 =>
        have : j = i := ratCast_inj h1
        subst this
        rw [if_pos ⟨h2, h3⟩]
  | float q =>
    rw [coerceInt_float]
    constructor
    · intro h
      split at h
      · rename_i hc
        obtain ⟨i, rfl, hi⟩ := (canCoerceToInt_iff q).1 hc
        rw [asI32_int (by omega)] at h
        split at h
        · rename_i hlt
          cases h
          exact .intClamped _ i rfl hlt
        · cases h
          refine .int _ i rfl (by omega) (by omega) ?_
          intro e
          injection e with e
          have : i = 2147483647 := ratCast_inj (by rw [e]; rfl)
          omega
      · cases h
    · intro h
      cases h with
      | int _ i h1 h2 h3 h4 =>
        have hq : q = (i : Rat) := h1
        subst hq
        have hne : i ≠ 2147483647 := by
          rintro rfl
          exact h4 rfl
        rw [if_pos ((canCoerceToInt_iff _).2 ⟨i, rfl, by omega⟩), asI32_int (by omega), if_neg (by omega)]
      | intClamped _ i h1 h2 =>
        subst h1
        rw [if_pos ((canCoerceToInt_iff _).2 ⟨i, rfl, by omega⟩), asI32_int (by omega), if_pos h2]

theorem coerceScalar_ok {fuel : Nat} {t : ScalarType} {j : Json} {o : Out} (h : coerceScalar fuel t j = .ok o) : ScalarCoerced t j o := by
  cases t with
  | unknown =>
    have : o = jsonOut j := coerceAny_ok fuel (by cases j <;> exact h)
    subst this
    exact .custom j
  | int =>
    cases j with
    | num n => exact (coerceInt_iff fuel n o).1 h
    | _ => cases h
  | float =>
    cases j with
    | num n => cases h; exact .float n
    | _ => cases h
  | string =>
    cases j with
    | str n => cases h; exact .string n
    | _ => cases h
  | boolean =>
    cases j with
    | bool n => cases h; exact .boolean n
    | _ => cases h

theorem coerceScalar_total {fuel : Nat} {t : ScalarType} {j : Json} {o : Out} (h : ScalarCoerced t j o) (hf : height j ≤ fuel) :
    coerceScalar fuel t j = .ok o := by
  cases h with
  | string s => rfl
  | boolean b => rfl
  | float n => rfl
  | int n i h1 h2 h3 h4 => exact (coerceInt_iff fuel n _).2 (.int n i h1 h2 h3 h4)
  | intClamped q i h1 h2 => exact (coerceInt_iff fuel _ _).2 (.intClamped q i h1 h2)
  | custom j =>
    obtain ⟨o, ho⟩ := coerceAny_total fuel hf
    have e := coerceAny_ok fuel ho
    subst e
    cases j <;> exact ho

theorem coerceEnum_ok {vs : List EnumVal} {j : Json} {o : Out} (h : coerceEnum vs j = .ok o) :
    ∃ e ∈ vs, e.inaccessible = false ∧ j = .str e.name ∧ o = .enumValue e.id := by
  unfold coerceEnum at h
  cases j with
  | str name =>
    simp only at h
    cases hf : (vs.find? fun e => decide (e.name = name)).filter fun e => !e.inaccessible with
    | none => rw [hf] at h; cases h
    | some e =>
      rw [hf] at h
      cases h
      obtain ⟨h1, h2⟩ := Option.filter_eq_some_iff.1 hf
      have h3 := List.find?_some h1
      rw [decide_eq_true_eq] at h3
      exact ⟨e, List.mem_of_find?_eq_some h1, by simpa using h2, by rw [h3], rfl⟩
  | _ => cases h

theorem find_unique {α : Type} {f : α → Str} {p : α → Bool} {x : α} : ∀ {l : List α}, (l.map f).Nodup → x ∈ l → p x = true →
    (∀ y, p y = true → f y = f x) → l.find? p = some x
  | [], _, h, _, _ => by cases h
  | y :: ys, hn, h, hp, hu => by
    obtain ⟨h1, h2⟩ := List.nodup_cons.1 hn
    by_cases hy : p y = true
    · rw [List.find?_cons_of_pos hy]
      rcases List.mem_cons.1 h with rfl | h
      · rfl
      · exact absurd (List.mem_map.2 ⟨x, h, (hu y hy).symm⟩) h1
    · rw [List.find?_cons_of_neg (by simpa using hy)]
      rcases List.mem_cons.1 h with rfl | h
      · exact absurd hp hy
      · exact find_unique h2 h hp hu

theorem coerceEnum_total {vs : List EnumVal} {e : EnumVal} (hn : (vs.map (·.name)).Nodup) (h : e ∈ vs) (ha : e.inaccessible = false) :
    coerceEnum vs (.str e.name) = .ok (.enumValue e.id) := by
  unfold coerceEnum
  simp only
  rw [find_unique hn h (by simp) (fun y hy => by simpa using hy)]
  rw [Option.filter_some_pos (by simp [ha])]

/-! ## Null in, null out -/

theorem jsonOut_null {j : Json} (h : jsonOut j = .null) : j.isNull = true := by
  cases j with
  | null => rfl
  | bool b => cases h
  | num n => cases h
  | str s => cases h
  | arr xs => cases h
  | obj fs => cases h

theorem ScalarCoerced.ne_null {t : ScalarType} {j : Json} {o : Out} (h : ScalarCoerced t j o) (hj : j.isNull = false) : o ≠ .null := by
  intro e
  cases h with
  | custom j =>
    have := jsonOut_null e
    rw [hj] at this
    cases this
  | _ => cases e

theorem nest_ne_null {n : Nat} {o : Out} (h : o ≠ .null) : nest n o ≠ .null := by
  cases n with
  | zero => exact h
  | succ n => intro e; cases e

theorem Coerced.ne_null {s : Schema} {b : Bool} {d : Nat} {t : GType} {j : Json} {o : Out} (h : Coerced s b d t j o) :
    j.isNull = false → o ≠ .null := by
  induction h with
  | asIs _ ih => exact ih
  | bare _ _ _ _ ih => intro hj; exact nest_ne_null (ih hj)
  | null => intro hj; cases hj
  | nonNull h1 _ _ => intro _; exact h1
  | list => intro _ e; cases e
  | scalar _ h => intro hj; exact h.ne_null hj
  | enum => intro _ e; cases e
  | object => intro _ e; cases e
  | oneOf => intro _ e; cases e

/-! ## Soundness -/

theorem coerceObject_ok {s : Schema} (hs : SchemaOk s) {co : Ty → Json → Except Err Out}
    (hco : ∀ ty t v o, Typed ty.wrapping t → co ty v = .ok o → Coerced s true ty.definition t v o)
    {d : Nat} {isOneOf : Bool} {fields : List InputField} {j : Json} {o : Out} (hd : s d = .inputObject isOneOf fields)
    (h : coerceObject co isOneOf fields j = .ok o) : Coerced s false d .named j o := by
  unfold coerceObject at h
  cases j with
  | obj fs =>
    simp only at h
    cases isOneOf with
    | true =>
      rw [if_pos rfl] at h
      match fs, h with
      | [(name, v)], h =>
        simp only at h
        cases hf : fields.find? fun f => !f.inaccessible && decide (f.name = name) with
        | none => rw [hf] at h; cases h
        | some f =>
          rw [hf] at h
          obtain ⟨o', h1, rfl⟩ := map_ok h
          have hp := List.find?_some hf
          have hm := List.mem_of_find?_eq_some hf
          simp at hp
          obtain ⟨t, ht⟩ := hs.wrapped d _ _ hd f hm
          obtain ⟨hp1, rfl⟩ := hp
          exact .oneOf hd (mem_accessible.2 ⟨hm, hp1⟩) ht (hco _ _ _ _ (Typed.of_reachable ht) h1)
      | [], h => cases h
      | _ :: _ :: _, h => cases h
    | false =>
      rw [if_neg (by simp)] at h
      cases hl : fieldLoop co fields fs with
      | error e => rw [hl] at h; cases h
      | ok r =>
        obtain ⟨xs, left⟩ := r
        rw [hl] at h
        simp only [bind, Except.bind] at h
        cases left with
        | cons p ps => cases h
        | nil =>
          cases h
          obtain ⟨a, b, c⟩ := fieldLoop_spec (hs.names d _ _ hd) (hs.ids d _ _ hd) hl
          refine .object (fun d t j o => Coerced s true d t j o) (fun _ _ _ _ h => h) hd ?_ ?_ a
          · intro k hk
            obtain ⟨p, hp, rfl⟩ := List.mem_map.1 hk
            rcases b p hp with h | h
            · cases h
            · exact h
          · intro f hf
            obtain ⟨t, ht⟩ := hs.wrapped d _ _ hd f (mem_accessible.1 hf).1
            rcases c f hf with ⟨j, o, h1, h2, h3⟩ | h | ⟨h1, h2, h3, h4⟩
            · exact Or.inl ⟨j, o, t, h1, h2, ht, hco _ _ _ _ (Typed.of_reachable ht) h3⟩
            · exact Or.inr (Or.inl h)
            · refine Or.inr (Or.inr ⟨h1, h2, h3, t, ht, ?_⟩)
              rw [← (Typed.of_reachable ht).isNonNull]
              exact h4
  | _ => cases h

theorem sound {s : Schema} (hs : SchemaOk s) (n : Nat) :
    (∀ ty t v o, Typed ty.wrapping t → coerceInput s n ty v = .ok o → Coerced s true ty.definition t v o) ∧
    (∀ d w t v o, Typed w t → coerceType s n d w v = .ok o → Coerced s false d t v o) ∧
    (∀ d v o, v.isNull = false → coerceNamed s n d v = .ok o → Coerced s false d .named v o) := by
  induction n with
  | zero =>
    refine ⟨?_, ?_, ?_⟩
    · intro ty t v o _ h; unfold coerceInput at h; cases h
    · intro d w t v o _ h; unfold coerceType at h; cases h
    · intro d v o _ h; unfold coerceNamed at h; cases h
  | succ n ih =>
    obtain ⟨ih1, ih2, ih3⟩ := ih
    refine ⟨?_, ?_, ?_⟩
    · intro ty t v o ht h
      unfold coerceInput at h
      split at h
      · rename_i hc
        simp only [Bool.and_eq_true, Bool.not_eq_true'] at hc
        obtain ⟨o', h1, rfl⟩ := map_ok h
        rw [wrap_eq, ht.length]
        exact .bare (by rw [← ht.isList]; exact hc.1.1) hc.1.2 hc.2 (ih3 _ _ _ hc.2 h1)
      · exact .asIs (ih2 _ _ _ _ _ ht h)
    · intro d w t v o ht h
      unfold coerceType at h
      rcases ht.cases with ⟨hp, hc⟩ | ⟨u, w', hu, hc⟩
      · rw [hp] at h
        simp only at h
        by_cases hv : v.isNull = true
        · rw [if_pos hv] at h
          split at h
          · cases h
          · rename_i hn
            cases h
            have : v = .null := by cases v <;> first | rfl | cases hv
            subst this
            refine .null ?_
            rcases hc with ⟨rfl, _⟩ | ⟨rfl, h2⟩
            · rfl
            · exact absurd h2 hn
        · rw [if_neg hv] at h
          have hv' : v.isNull = false := by simpa using hv
          have := ih3 _ _ _ hv' h
          rcases hc with ⟨rfl, _⟩ | ⟨rfl, _⟩
          · exact this
          · exact .nonNull (this.ne_null hv') this
      · have key : ∀ lw, w.popOutermost = some (some lw, w') → (v = .null → lw = .list ∧ o = .null) ∧
            (v ≠ .null → ∃ xs ys, v = .arr xs ∧ o = .list ys ∧ mapE (coerceType s n d w') xs = .ok ys) := by
          intro lw hp
          rw [hp] at h
          simp only at h
          cases v with
          | null =>
            cases lw with
            | list => cases h; exact ⟨fun _ => ⟨rfl, rfl⟩, fun hc => absurd rfl hc⟩
            | listNonNull => cases h
          | arr xs =>
            cases lw with
            | list =>
              obtain ⟨ys, h1, rfl⟩ := map_ok h
              exact ⟨fun hc => (by cases hc), fun _ => ⟨xs, ys, rfl, rfl, h1⟩⟩
            | listNonNull =>
              obtain ⟨ys, h1, rfl⟩ := map_ok h
              exact ⟨fun hc => (by cases hc), fun _ => ⟨xs, ys, rfl, rfl, h1⟩⟩
          | bool b => cases lw <;> cases h
          | num b => cases lw <;> cases h
          | str b => cases lw <;> cases h
          | obj b => cases lw <;> cases h
        have hlist : ∀ lw, w.popOutermost = some (some lw, w') → v ≠ .null → Coerced s false d (.list u) v o ∧ o ≠ .null := by
          intro lw hp hv
          obtain ⟨xs, ys, rfl, rfl, h1⟩ := (key lw hp).2 hv
          obtain ⟨h2, h3⟩ := mapE_ok h1
          exact ⟨.list h2 fun i x y hx hy => ih2 _ _ _ _ _ hu (h3 i x y hx hy), fun e => by cases e⟩
        rcases hc with ⟨rfl, hp⟩ | ⟨rfl, hp⟩
        · by_cases hv : v = .null
          · obtain ⟨_, ho⟩ := (key _ hp).1 hv
            subst hv
            subst ho
            exact .null rfl
          · exact (hlist _ hp hv).1
        · by_cases hv : v = .null
          · obtain ⟨hl, _⟩ := (key _ hp).1 hv
            cases hl
          · obtain ⟨h1, h2⟩ := hlist _ hp hv
            exact .nonNull h2 h1
    · intro d v o hv h
      unfold coerceNamed at h
      cases hd : s d with
      | scalar t =>
        rw [hd] at h
        exact .scalar hd (coerceScalar_ok h)
      | enum vs =>
        rw [hd] at h
        obtain ⟨e, he, ha, rfl, rfl⟩ := coerceEnum_ok h
        exact .enum hd he ha
      | inputObject isOneOf fields =>
        rw [hd] at h
        exact coerceObject_ok hs ih1 hd h
      | output => rw [hd] at h; cases h

/-! ## Completeness -/

theorem JsonOk.item {xs : List Json} {x : Json} (h : JsonOk (.arr xs)) (hx : x ∈ xs) : JsonOk x := by
  cases h with
  | arr _ h => exact h x hx

theorem JsonOk.field {fs : List (Str × Json)} {p : Str × Json} (h : JsonOk (.obj fs)) (hp : p ∈ fs) : JsonOk p.2 := by
  cases h with
  | obj _ _ h => exact h p hp

theorem JsonOk.nodup {fs : List (Str × Json)} (h : JsonOk (.obj fs)) : (keys fs).Nodup := by
  cases h with
  | obj _ h _ => exact h

theorem ScalarCoerced.null_out {t : ScalarType} {j : Json} {o : Out} (h : ScalarCoerced t j o) (hj : j.isNull = true) : o = .null := by
  cases h with
  | custom j =>
    cases j with
    | null => rfl
    | _ => cases hj
  | _ => cases hj

theorem Coerced.null_out {s : Schema} {b : Bool} {d : Nat} {t : GType} {j : Json} {o : Out} (h : Coerced s b d t j o) :
    j.isNull = true → o = .null := by
  induction h with
  | asIs _ ih => exact ih
  | bare _ _ h _ _ => intro hj; rw [h] at hj; cases hj
  | null => intro _; rfl
  | nonNull _ _ ih => exact ih
  | list => intro h; cases h
  | scalar _ h => intro hj; exact h.null_out hj
  | enum => intro h; cases h
  | object => intro h; cases h
  | oneOf => intro h; cases h

theorem Coerced.list_inv {s : Schema} {d : Nat} {u : GType} {j : Json} {o : Out} (h : Coerced s false d (.list u) j o) :
    j = .null ∨ ∃ xs, j = .arr xs ∧ ∀ x ∈ xs, ∃ y, Coerced s false d u x y := by
  generalize hb : false = b at h
  generalize ht : GType.list u = t at h
  cases h with
  | asIs => cases hb
  | bare => cases hb
  | nonNull => cases ht
  | null => exact Or.inl rfl
  | @list _ _ xs ys hl hi =>
    cases ht
    refine Or.inr ⟨xs, rfl, fun x hx => ?_⟩
    obtain ⟨i, hi', rfl⟩ := List.getElem_of_mem hx
    exact ⟨ys[i], hi i _ _ (List.getElem?_eq_getElem hi') (List.getElem?_eq_getElem (by omega))⟩
  | scalar => cases ht
  | enum => cases ht
  | object => cases ht
  | oneOf => cases ht

theorem Coerced.nonNull_inv {s : Schema} {d : Nat} {u : GType} {j : Json} {o : Out} (h : Coerced s false d (.nonNull u) j o) :
    j.isNull = false ∧ Coerced s false d u j o := by
  have hn := h.null_out
  generalize hb : false = b at h
  generalize ht : GType.nonNull u = t at h
  cases h with
  | asIs => cases hb
  | bare => cases hb
  | nonNull h1 h2 =>
    cases ht
    refine ⟨?_, h2⟩
    cases hj : j.isNull with
    | false => rfl
    | true => exact absurd (hn hj) h1
  | null h => subst ht; cases h
  | list => cases ht
  | scalar => cases ht
  | enum => cases ht
  | object => cases ht
  | oneOf => cases ht

theorem coerceObject_total {s : Schema} (hs : SchemaOk s) {co : Ty → Json → Except Err Out} {j : Json}
    (hco : ∀ ty t v o, Typed ty.wrapping t → Coerced s true ty.definition t v o → (∃ fs k, j = .obj fs ∧ (k, v) ∈ fs) → ∃ o', co ty v = .ok o')
    {d : Nat} {isOneOf : Bool} {fields : List InputField} {o : Out} (hd : s d = .inputObject isOneOf fields) (hj : JsonOk j)
    (hn : j.isNull = false) (h : Coerced s false d .named j o) : ∃ o', coerceObject co isOneOf fields j = .ok o' := by
  generalize hb : false = b at h
  generalize ht : GType.named = t at h
  cases h with
  | asIs => cases hb
  | bare => cases hb
  | nonNull => cases ht
  | list => cases ht
  | null => cases hn
  | scalar hd' => rw [hd] at hd'; cases hd'
  | enum hd' => rw [hd] at hd'; cases hd'
  | @object _ fields' fs xs R hR hd' hk hf hsub =>
    rw [hd] at hd'
    cases hd'
    have hkn := hj.nodup
    obtain ⟨ys, hys⟩ := fieldLoop_total (co := co) (fields := fields) (fs := fs) (hs.names d _ _ hd) hkn hk (by
      intro f hff j' hj'
      rcases hf f hff with ⟨j, o, t, h1, h2, h3, h4⟩ | ⟨h1, _⟩ | ⟨h1, _⟩
      · have e : j = j' := by
          have hp := hkn
          unfold keys List.Nodup at hp
          rw [List.pairwise_map] at hp
          obtain ⟨a, ha, e1⟩ := List.getElem_of_mem h1
          obtain ⟨b, hb', e2⟩ := List.getElem_of_mem hj'
          rcases Nat.lt_trichotomy a b with hab | hab | hab
          · have := List.pairwise_iff_getElem.1 hp a b ha hb' hab
            rw [e1, e2] at this
            exact absurd rfl this
          · subst hab
            rw [e1] at e2
            exact congrArg (·.2) e2
          · have := List.pairwise_iff_getElem.1 hp b a hb' ha hab
            rw [e1, e2] at this
            exact absurd rfl this
        subst e
        exact hco _ _ _ _ (Typed.of_reachable h3) (hR _ _ _ _ h4) ⟨fs, f.name, rfl, h1⟩
      · exact absurd (List.mem_map.2 ⟨_, hj', rfl⟩) h1
      · exact absurd (List.mem_map.2 ⟨_, hj', rfl⟩) h1) (by
      intro f hff hnk hdn
      rcases hf f hff with ⟨j, o, t, h1, _⟩ | ⟨_, dv, h2, _⟩ | ⟨_, _, _, t, h4, h5⟩
      · exact absurd (List.mem_map.2 ⟨_, h1, rfl⟩) hnk
      · rw [hdn] at h2; cases h2
      · rw [(Typed.of_reachable h4).isNonNull, h5])
    refine ⟨.object ys, ?_⟩
    unfold coerceObject
    simp only [Bool.false_eq_true, if_false]
    rw [hys]
    rfl
  | @oneOf _ fields' f t j o hd' hf ht' hc =>
    rw [hd] at hd'
    cases hd'
    obtain ⟨o', ho⟩ := hco _ _ _ _ (Typed.of_reachable ht') hc ⟨_, f.name, rfl, List.mem_cons_self⟩
    refine ⟨.object [(f.id, o')], ?_⟩
    unfold coerceObject
    simp only [if_true]
    obtain ⟨hm, ha⟩ := mem_accessible.1 hf
    rw [find_unique (f := (·.name)) (hs.names d _ _ hd) hm (by simp [ha]) (fun y hy => by simp at hy; exact hy.2)]
    simp only
    rw [ho]
    rfl

theorem complete {s : Schema} (hs : SchemaOk s) (n : Nat) :
    (∀ ty t v o, Typed ty.wrapping t → JsonOk v → 3 * height v ≤ n → Coerced s true ty.definition t v o →
      ∃ o', coerceInput s n ty v = .ok o') ∧
    (∀ d w t v o, Typed w t → JsonOk v → 3 * height v ≤ n + 1 → Coerced s false d t v o → ∃ o', coerceType s n d w v = .ok o') ∧
    (∀ d v o, v.isNull = false → JsonOk v → 3 * height v ≤ n + 2 → Coerced s false d .named v o → ∃ o', coerceNamed s n d v = .ok o') := by
  induction n with
  | zero =>
    refine ⟨?_, ?_, ?_⟩
    · intro ty t v o _ _ h _; have := height_pos v; omega
    · intro d w t v o _ _ h _; have := height_pos v; omega
    · intro d v o _ _ h _; have := height_pos v; omega
  | succ n ih =>
    obtain ⟨ih1, ih2, ih3⟩ := ih
    refine ⟨?_, ?_, ?_⟩
    · intro ty t v o ht hj hf h
      unfold coerceInput
      have hbare : (ty.wrapping.isList && !v.isArray && !v.isNull) = true → Coerced s false ty.definition t v o → False := by
        intro hc h
        simp only [Bool.and_eq_true, Bool.not_eq_true'] at hc
        have hl : t.isList = true := by rw [← ht.isList]; exact hc.1.1
        have hlist : ∀ u, Coerced s false ty.definition (.list u) v o → False := by
          intro u h
          rcases h.list_inv with rfl | ⟨xs, rfl, _⟩
          · cases hc.2
          · cases hc.1.2
        rcases ht.cases with ⟨_, ⟨rfl, _⟩ | ⟨rfl, _⟩⟩ | ⟨u, w', _, ⟨rfl, _⟩ | ⟨rfl, _⟩⟩
        · cases hl
        · cases hl
        · exact hlist u h
        · exact hlist u h.nonNull_inv.2
      generalize hb : true = b at h
      cases h with
      | asIs h =>
        rw [if_neg fun hc => hbare hc h]
        exact ih2 _ _ _ _ _ ht hj (by omega) h
      | @bare _ _ _ o' h1 h2 h3 h4 =>
        rw [if_pos (by rw [ht.isList, h1, h2, h3]; rfl)]
        obtain ⟨x, hx⟩ := ih3 _ _ _ h3 hj (by omega) h4
        rw [hx]
        exact ⟨_, rfl⟩
      | null => cases hb
      | nonNull => cases hb
      | list => cases hb
      | scalar => cases hb
      | enum => cases hb
      | object => cases hb
      | oneOf => cases hb
    · intro d w t v o ht hj hf h
      unfold coerceType
      rcases ht.cases with ⟨hp, hc⟩ | ⟨u, w', hu, hc⟩
      · rw [hp]
        simp only
        by_cases hv : v.isNull = true
        · rw [if_pos hv]
          rcases hc with ⟨rfl, hn⟩ | ⟨rfl, _⟩
          · rw [hn]; exact ⟨_, rfl⟩
          · have := h.nonNull_inv.1
            rw [hv] at this
            cases this
        · rw [if_neg hv]
          have hv' : v.isNull = false := by simpa using hv
          rcases hc with ⟨rfl, _⟩ | ⟨rfl, _⟩
          · exact ih3 _ _ _ hv' hj (by omega) h
          · exact ih3 _ _ _ hv' hj (by omega) h.nonNull_inv.2
      · have harr : ∀ xs, v = .arr xs → Coerced s false d (.list u) v o → ∃ ys, mapE (coerceType s n d w') xs = .ok ys := by
          rintro xs rfl h
          rcases h.list_inv with h | ⟨xs', h1, h2⟩
          · cases h
          · cases h1
            exact mapE_total fun x hx => by
              obtain ⟨y, hy⟩ := h2 x hx
              exact ih2 _ _ _ _ _ hu (hj.item hx) (by have := height_item hx; omega) hy
        rcases hc with ⟨rfl, hp⟩ | ⟨rfl, hp⟩
        · rw [hp]
          rcases h.list_inv with rfl | ⟨xs, rfl, _⟩
          · exact ⟨_, rfl⟩
          · obtain ⟨ys, hys⟩ := harr xs rfl h
            simp only
            rw [hys]
            exact ⟨_, rfl⟩
        · rw [hp]
          obtain ⟨hn, h⟩ := h.nonNull_inv
          rcases h.list_inv with rfl | ⟨xs, rfl, _⟩
          · cases hn
          · obtain ⟨ys, hys⟩ := harr xs rfl h
            simp only
            rw [hys]
            exact ⟨_, rfl⟩
    · intro d v o hv hj hf h
      unfold coerceNamed
      cases hd : s d with
      | inputObject isOneOf fields =>
        simp only
        refine coerceObject_total hs ?_ hd hj hv h
        rintro ty t x o' ht hc ⟨fs, k, rfl, hm⟩
        exact ih1 _ _ _ _ ht (hj.field hm) (by have := height_field hm; simp only at this; omega) hc
      | scalar k =>
        simp only
        generalize hb : false = b at h
        generalize ht : GType.named = t at h
        cases h with
        | asIs => cases hb
        | bare => cases hb
        | nonNull => cases ht
        | list => cases ht
        | null => cases hv
        | scalar hd' hc =>
          rw [hd] at hd'
          cases hd'
          exact ⟨_, coerceScalar_total hc (by omega)⟩
        | enum hd' => rw [hd] at hd'; cases hd'
        | object R hR hd' => rw [hd] at hd'; cases hd'
        | oneOf hd' => rw [hd] at hd'; cases hd'
      | enum vs =>
        simp only
        generalize hb : false = b at h
        generalize ht : GType.named = t at h
        cases h with
        | asIs => cases hb
        | bare => cases hb
        | nonNull => cases ht
        | list => cases ht
        | null => cases hv
        | scalar hd' hc => rw [hd] at hd'; cases hd'
        | enum hd' he ha =>
          rw [hd] at hd'
          cases hd'
          exact ⟨_, coerceEnum_total (hs.enums d vs hd) he ha⟩
        | object R hR hd' => rw [hd] at hd'; cases hd'
        | oneOf hd' => rw [hd] at hd'; cases hd'
      | output =>
        generalize hb : false = b at h
        generalize ht : GType.named = t at h
        cases h with
        | asIs => cases hb
        | bare => cases hb
        | nonNull => cases ht
        | list => cases ht
        | null => cases hv
        | scalar hd' hc => rw [hd] at hd'; cases hd'
        | enum hd' => rw [hd] at hd'; cases hd'
        | object R hR hd' => rw [hd] at hd'; cases hd'
        | oneOf hd' => rw [hd] at hd'; cases hd'

/-! ## No panic, enough fuel -/

def Bad (e : Err) : Prop := e = .unreachable ∨ e = .fuel

theorem coerceObject_error {co : Ty → Json → Except Err Out} {isOneOf : Bool} {fields : List InputField} {j : Json} {e : Err}
    (he : Bad e) (h : coerceObject co isOneOf fields j = .error e) :
    ∃ fs, j = .obj fs ∧ ∃ p ∈ fs, ∃ f ∈ fields, co f.ty p.2 = .error e := by
  unfold coerceObject at h
  cases j with
  | obj fs =>
    refine ⟨fs, rfl, ?_⟩
    simp only at h
    cases isOneOf with
    | true =>
      rw [if_pos rfl] at h
      match fs, h with
      | [(name, v)], h =>
        simp only at h
        cases hf : fields.find? fun f => !f.inaccessible && decide (f.name = name) with
        | none => rw [hf] at h; cases h; rcases he with h | h <;> cases h
        | some f =>
          rw [hf] at h
          exact ⟨_, List.mem_cons_self, f, List.mem_of_find?_eq_some hf, map_error h⟩
      | [], h => cases h; rcases he with h | h <;> cases h
      | _ :: _ :: _, h => cases h; rcases he with h | h <;> cases h
    | false =>
      rw [if_neg (by simp)] at h
      cases hl : fieldLoop co fields fs with
      | error e' =>
        rw [hl] at h
        cases h
        rcases fieldLoop_error hl with h | ⟨f, hf, j, h1, h2⟩
        · subst h; rcases he with h | h <;> cases h
        · exact ⟨_, h1, f, hf, h2⟩
      | ok r =>
        obtain ⟨xs, left⟩ := r
        rw [hl] at h
        simp only [bind, Except.bind] at h
        cases left with
        | cons p ps => cases h; rcases he with h | h <;> cases h
        | nil => cases h
  | _ => cases h; rcases he with h | h <;> cases h

theorem safe {s : Schema} (hs : SchemaOk s) {e : Err} (he : Bad e) (n : Nat) :
    (∀ ty t v, Typed ty.wrapping t → s ty.definition ≠ .output → 3 * height v ≤ n → coerceInput s n ty v ≠ .error e) ∧
    (∀ d w t v, Typed w t → s d ≠ .output → 3 * height v ≤ n + 1 → coerceType s n d w v ≠ .error e) ∧
    (∀ d v, s d ≠ .output → 3 * height v ≤ n + 2 → coerceNamed s n d v ≠ .error e) := by
  induction n with
  | zero =>
    refine ⟨?_, ?_, ?_⟩
    · intro ty t v _ _ h _; have := height_pos v; omega
    · intro d w t v _ _ h _; have := height_pos v; omega
    · intro d v _ h _; have := height_pos v; omega
  | succ n ih =>
    obtain ⟨ih1, ih2, ih3⟩ := ih
    refine ⟨?_, ?_, ?_⟩
    · intro ty t v ht hd hf h
      unfold coerceInput at h
      split at h
      · exact ih3 _ _ hd (by omega) (map_error h)
      · exact ih2 _ _ _ _ ht hd (by omega) h
    · intro d w t v ht hd hf h
      unfold coerceType at h
      rcases ht.cases with ⟨hp, hc⟩ | ⟨u, w', hu, hc⟩
      · rw [hp] at h
        simp only at h
        split at h
        · split at h
          · cases h; rcases he with h | h <;> cases h
          · cases h
        · exact ih3 _ _ hd (by omega) h
      · have key : ∀ lw, w.popOutermost = some (some lw, w') → False := by
          intro lw hp
          rw [hp] at h
          simp only at h
          cases v with
          | arr xs =>
            have : ∃ r, mapE (coerceType s n d w') xs = .error r ∧ r = e := by
              cases lw <;> exact ⟨_, map_error h, rfl⟩
            obtain ⟨r, h1, rfl⟩ := this
            obtain ⟨x, hx, hx'⟩ := mapE_error h1
            exact ih2 _ _ _ _ hu hd (by have := height_item hx; omega) hx'
          | _ => cases lw <;> cases h <;> rcases he with h | h <;> cases h
        rcases hc with ⟨_, hp⟩ | ⟨_, hp⟩
        · exact key _ hp
        · exact key _ hp
    · intro d v hd hf h
      unfold coerceNamed at h
      cases hsd : s d with
      | output => exact hd hsd
      | inputObject isOneOf fields =>
        rw [hsd] at h
        obtain ⟨fs, rfl, p, hp, f, hff, hc⟩ := coerceObject_error he h
        obtain ⟨t, ht⟩ := hs.wrapped d _ _ hsd f hff
        exact ih1 _ _ _ (Typed.of_reachable ht) (hs.inputs d _ _ hsd f hff) (by have := height_field hp; omega) hc
      | enum vs =>
        rw [hsd] at h
        simp only at h
        unfold coerceEnum at h
        split at h
        · split at h
          · cases h
          · cases h; rcases he with h | h <;> cases h
        · cases h; rcases he with h | h <;> cases h
      | scalar t =>
        rw [hsd] at h
        simp only at h
        cases t with
        | unknown =>
          have h' : coerceAny (n + 1) v = .error e := by cases v <;> exact h
          obtain ⟨o, ho⟩ := coerceAny_total (n + 1) (j := v) (by omega)
          rw [ho] at h'
          cases h'
        | int =>
          cases v with
          | num m =>
            cases m with
            | float q =>
              rw [coerceInt_float] at h
              split at h
              · cases h
              · cases h; rcases he with h | h <;> cases h
            | pos m =>
              rw [coerceInt_pos] at h
              split at h
              · cases h
              · cases h; rcases he with h | h <;> cases h
            | neg m =>
              rw [coerceInt_neg] at h
              split at h
              · cases h
              · cases h; rcases he with h | h <;> cases h
          | _ => cases h; rcases he with h | h <;> cases h
        | float => cases v <;> cases h <;> rcases he with h | h <;> cases h
        | string => cases v <;> cases h <;> rcases he with h | h <;> cases h
        | boolean => cases v <;> cases h <;> rcases he with h | h <;> cases h

/-! ## Coerced values conform -/

theorem conforms_nest {s : Schema} {nul : Prop} {d : Nat} {o : Out} (h : Conforms s nul d .named o) (hn : o ≠ .null) (t : GType) :
    Conforms s nul d t (nest t.depth o) := by
  induction t with
  | named => exact h
  | list t ih =>
    refine .list ?_
    intro y hy
    rw [List.mem_singleton] at hy
    subst hy
    exact ih
  | nonNull t ih => exact .nonNull (nest_ne_null hn) ih

theorem NoNullMember.items {xs : List Json} (h : NoNullMember (.arr xs)) : ∀ x ∈ xs, NoNullMember x := by
  cases h with
  | arr _ h => exact h

theorem NoNullMember.fields {fs : List (Str × Json)} (h : NoNullMember (.obj fs)) : ∀ p ∈ fs, NoNullMember p.2 ∧ p.2.isNull = false := by
  cases h with
  | obj _ h1 h2 => exact fun p hp => ⟨h2 p hp, h1 p hp⟩

theorem Coerced.conforms {s : Schema} (hs : SchemaOk s) {nul : Prop} {b : Bool} {d : Nat} {t : GType} {j : Json} {o : Out}
    (h : Coerced s b d t j o) : (nul ∨ NoNullMember j) → Conforms s nul d t o := by
  induction h with
  | asIs _ ih => exact ih
  | bare _ _ h3 h4 ih => intro hj; exact conforms_nest (ih hj) (h4.ne_null h3) _
  | null h => intro _; exact .null h
  | nonNull h1 _ ih => intro hj; exact .nonNull h1 (ih hj)
  | @list d t xs ys hl _ ih =>
    intro hj
    refine .list fun y hy => ?_
    obtain ⟨i, hi, rfl⟩ := List.getElem_of_mem hy
    refine ih i (xs[i]'(by omega)) _ (List.getElem?_eq_getElem (by omega)) (List.getElem?_eq_getElem hi) ?_
    rcases hj with h | h
    · exact Or.inl h
    · exact Or.inr (h.items _ (List.getElem_mem _))
  | scalar hd hc =>
    intro _
    cases hc with
    | string v => exact .string hd
    | boolean v => exact .boolean hd
    | float v => exact .float hd
    | int n i _ h2 h3 _ => exact .int hd h2 h3
    | intClamped q i _ _ => exact .int hd (by omega) (by omega)
    | custom _ => exact .custom hd ⟨_⟩
  | enum hd he ha => intro _; exact .enum hd he ha
  | @object d fields fs xs R hR hd hk hf hsub ih =>
    intro hj
    have hnodup : (ids xs).Nodup := by
      refine List.Nodup.sublist hsub ?_
      have := hs.ids d _ _ hd
      unfold accessible
      exact List.Nodup.sublist (List.filter_sublist.map _) this
    have huniq : ∀ a o o', (a, o) ∈ xs → (a, o') ∈ xs → o = o' := by
      intro a o o' h1 h2
      have hp := hnodup
      unfold ids List.Nodup at hp
      rw [List.pairwise_map] at hp
      obtain ⟨i, hi, e1⟩ := List.getElem_of_mem h1
      obtain ⟨k, hk', e2⟩ := List.getElem_of_mem h2
      rcases Nat.lt_trichotomy i k with hab | hab | hab
      · have := List.pairwise_iff_getElem.1 hp i k hi hk' hab
        rw [e1, e2] at this
        exact absurd rfl this
      · subst hab
        rw [e1] at e2
        exact congrArg (·.2) e2
      · have := List.pairwise_iff_getElem.1 hp k i hk' hi hab
        rw [e1, e2] at this
        exact absurd rfl this
    refine .object (isOneOf := false) (fun d t o => Conforms s nul d t o) (fun _ _ _ h => h) hd hnodup ?_ ?_ ?_
    · intro p hp
      obtain ⟨f, hff, e⟩ := List.mem_map.1 (hsub.subset (List.mem_map.2 ⟨p, hp, rfl⟩))
      refine ⟨f, hff, e, ?_⟩
      rcases hf f hff with ⟨j, o, t, h1, h2, h3, h4⟩ | ⟨_, dv, h2, h3⟩ | ⟨_, _, h3, _⟩
      · right
        have e' : o = p.2 := huniq f.id _ _ h2 (by rw [e]; exact hp)
        subst e'
        refine ⟨t, h3, ih _ _ _ _ h4 ?_⟩
        rcases hj with h | h
        · exact Or.inl h
        · exact Or.inr (h.fields _ h1).1
      · left
        exact ⟨rfl, dv, h2, (huniq f.id _ _ h3 (by rw [e]; exact hp)).symm⟩
      · exact absurd (List.mem_map.2 ⟨p, hp, e.symm⟩) h3
    · intro _ f hff hdn t ht hr
      rcases hf f hff with ⟨j, o, t, h1, h2, h3, h4⟩ | ⟨_, dv, h2, h3⟩ | ⟨_, _, _, t', h4, h5⟩
      · exact List.mem_map.2 ⟨_, h2, rfl⟩
      · exact List.mem_map.2 ⟨_, h3, rfl⟩
      · have := (Typed.of_reachable ht).unique (Typed.of_reachable h4)
        subst this
        rw [hr] at h5
        cases h5
    · intro h; cases h
  | @oneOf d fields f t j o hd hf ht hc ih =>
    intro hj
    refine .object (isOneOf := true) (fun d t o => Conforms s nul d t o) (fun _ _ _ h => h) hd (by simp [ids]) ?_ ?_ ?_
    · intro p hp
      rw [List.mem_singleton] at hp
      subst hp
      refine ⟨f, hf, rfl, Or.inr ⟨t, ht, ih ?_⟩⟩
      rcases hj with h | h
      · exact Or.inl h
      · exact Or.inr (h.fields _ List.mem_cons_self).1
    · intro h; cases h
    · intro _
      refine ⟨_, rfl, ?_⟩
      rcases hj with h | h
      · exact Or.inl h
      · exact Or.inr (hc.ne_null (h.fields _ List.mem_cons_self).2)

end Verif.Coercion
