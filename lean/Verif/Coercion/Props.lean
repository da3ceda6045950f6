import Verif.Coercion.Bind
import Verif.Wrapping.Props
/-!
Properties C07, C08 and C09: coercion of variables.
-/
namespace Verif.Coercion

open Verif.Common Verif.Wrapping

/-! ### C07 -/

/-- C07, accepted values: coercion of a variable succeeds exactly for the values the specification coerces at the
variable's type (with the code's rule for `Int`, see C08). -/
theorem C07_accepted_iff (s : Schema) (ty : Ty) (t : GType) (v : Json) (hs : SchemaOk s) (ht : Reachable ty.wrapping t)
    (hv : JsonOk v) : (∃ o, coerceVariable s ty v = .ok o) ↔ ∃ o, Coerced s true ty.definition t v o := by
  constructor
  · rintro ⟨o, h⟩
    exact ⟨o, (sound hs _).1 ty t v o (Typed.of_reachable ht) h⟩
  · rintro ⟨o, h⟩
    exact (complete hs _).1 ty t v o (Typed.of_reachable ht) hv (Nat.le_refl _) h

/-- C07, the value: what coercion returns is what the specification prescribes. -/
theorem C07_coerced (s : Schema) (ty : Ty) (t : GType) (v : Json) (o : Out) (hs : SchemaOk s) (ht : Reachable ty.wrapping t)
    (h : coerceVariable s ty v = .ok o) : Coerced s true ty.definition t v o :=
  (sound hs _).1 ty t v o (Typed.of_reachable ht) h

/-- C07, conformance. MISSING: the field of a `@oneOf` input object may be null (`C07_oneOf_null_accepted`), unless the
given value has no null member. Every coerced value is a value of the type: no null where the type is non-null, lists of the
declared depth, declared enum values, declared input fields only, every required one, exactly one field for `@oneOf`. -/
theorem C07_conforms_partial (s : Schema) (ty : Ty) (t : GType) (v : Json) (o : Out) (hs : SchemaOk s)
    (ht : Reachable ty.wrapping t) (h : coerceVariable s ty v = .ok o) :
    Conforms s True ty.definition t o ∧ (NoNullMember v → Conforms s False ty.definition t o) :=
  ⟨(C07_coerced s ty t v o hs ht h).conforms hs (Or.inl trivial),
    fun hn => (C07_coerced s ty t v o hs ht h).conforms hs (Or.inr hn)⟩

/-- C07, no panic: at input types the `unreachable!` is not reached, the list wrapping never panics, and the model's
fuel suffices. -/
theorem C07_no_panic (s : Schema) (ty : Ty) (t : GType) (v : Json) (hs : SchemaOk s) (ht : Reachable ty.wrapping t)
    (hd : s ty.definition ≠ .output) :
    coerceVariable s ty v ≠ .error .unreachable ∧ coerceVariable s ty v ≠ .error .fuel :=
  ⟨(safe hs (Or.inl rfl) _).1 ty t v (Typed.of_reachable ht) hd (Nat.le_refl _),
    (safe hs (Or.inr rfl) _).1 ty t v (Typed.of_reachable ht) hd (Nat.le_refl _)⟩

/-- What is demanded of the value of one variable. -/
def Acceptable (s : Schema) (d : VarDef) (t : GType) (raw : List (Str × Json)) : Prop :=
  (∃ v, (d.name, v) ∈ raw ∧ (∃ o, Coerced s true d.ty.definition t v o) ∧ (d.oneOfUsage = true → v.isNull = false)) ∨
  (d.name ∉ keys raw ∧ (d.default.isSome = true ∨ (t.required = false ∧ d.oneOfUsage = false)))

/-- C07, requests: a request is accepted exactly if every variable is given a coercible value (not null if it is used in a
`@oneOf` input object), or is absent and has a default, or is absent and nullable. -/
theorem C07_request_accepted_iff (s : Schema) (defs : List VarDef) (ts : VarDef → GType) (raw : List (Str × Json))
    (hs : SchemaOk s) (hn : (defs.map (·.name)).Nodup) (hr : (keys raw).Nodup) (hj : ∀ p ∈ raw, JsonOk p.2)
    (ht : ∀ d ∈ defs, Reachable d.ty.wrapping (ts d)) :
    (∃ vals, bindVariables s defs raw = some vals) ↔ ∀ d ∈ defs, Acceptable s d (ts d) raw := by
  have key : ∀ d ∈ defs, (bindVariable s d (given raw d.name)).1 = 0 ↔ Acceptable s d (ts d) raw := by
    intro d hd
    have hreq : d.ty.wrapping.isNonNull = (ts d).required := (Typed.of_reachable (ht d hd)).isNonNull
    cases hg : given raw d.name with
    | some v =>
      have hm := given_some hg
      have hkey : d.name ∈ keys raw := List.mem_map.2 ⟨_, hm, rfl⟩
      have hacc := C07_accepted_iff s d.ty (ts d) v hs (ht d hd) (hj _ hm)
      unfold bindVariable
      simp only
      constructor
      · intro h
        refine Or.inl ⟨v, hm, ?_, ?_⟩
        · cases hc : coerceVariable s d.ty v with
          | ok o => exact hacc.1 ⟨o, hc⟩
          | error e => rw [hc] at h; simp at h
        · intro ho
          cases hnull : v.isNull with
          | false => rfl
          | true =>
            rw [ho, hnull] at h
            cases hc : coerceVariable s d.ty v with
            | ok o => rw [hc] at h; simp at h
            | error e => rw [hc] at h; simp at h
      · intro h
        rcases h with ⟨v', hm', hc, ho⟩ | ⟨h, _⟩
        · have e : v' = v := by
            have := given_of_mem hr hm'
            rw [hg] at this
            exact (Option.some.inj this).symm
          subst e
          obtain ⟨o, hc⟩ := hacc.2 hc
          rw [hc]
          simp only
          split
          · rename_i hh
            rw [Bool.and_eq_true] at hh
            rw [ho hh.1] at hh
            simp at hh
          · rfl
        · exact absurd hkey h
    | none =>
      have hk := given_none.1 hg
      unfold bindVariable
      simp only
      rw [hreq]
      constructor
      · intro h
        refine Or.inr ⟨hk, ?_⟩
        cases hd' : d.default with
        | some id => exact Or.inl rfl
        | none =>
          rw [hd'] at h
          simp only at h
          split at h
          · simp at h
          · split at h
            · simp at h
            · rename_i h1 h2
              exact Or.inr ⟨by simpa using h1, by simpa using h2⟩
      · rintro (⟨v, hm, _⟩ | ⟨_, h⟩)
        · exact absurd (List.mem_map.2 ⟨_, hm, rfl⟩) hk
        · cases hd' : d.default with
          | some id => rfl
          | none =>
            rw [hd'] at h
            rcases h with h | ⟨h1, h2⟩
            · cases h
            · simp [h1, h2]
  constructor
  · rintro ⟨vals, h⟩ d hd
    exact (key d hd).1 (((bindVariables_some s defs raw hn vals).1 h).1 d hd)
  · intro h
    exact ⟨_, (bindVariables_some s defs raw hn _).2 ⟨fun d hd => (key d hd).2 (h d hd), rfl⟩⟩

/-- C07, the values of an accepted request: one per variable, in order; a given value is the coerced one, an
absent one has its default or, if it has none, is undefined and nullable. -/
theorem C07_request_values (s : Schema) (defs : List VarDef) (ts : VarDef → GType) (raw : List (Str × Json)) (vals : List VarValue)
    (hs : SchemaOk s) (hn : (defs.map (·.name)).Nodup) (ht : ∀ d ∈ defs, Reachable d.ty.wrapping (ts d))
    (h : bindVariables s defs raw = some vals) :
    vals.length = defs.length ∧ ∀ (i : Nat) d, defs[i]? = some d →
      (∃ v o, (d.name, v) ∈ raw ∧ vals[i]? = some (.provided o) ∧ Coerced s true d.ty.definition (ts d) v o) ∨
      (d.name ∉ keys raw ∧ ∃ id, d.default = some id ∧ vals[i]? = some (.default id)) ∨
      (d.name ∉ keys raw ∧ d.default = none ∧ (ts d).required = false ∧ vals[i]? = some .undefined) := by
  obtain ⟨h1, h2⟩ := (bindVariables_some s defs raw hn vals).1 h
  subst h2
  refine ⟨List.length_map _, fun i d hi => ?_⟩
  have hd : d ∈ defs := List.mem_of_getElem? hi
  have hz := h1 d hd
  have hreq : d.ty.wrapping.isNonNull = (ts d).required := (Typed.of_reachable (ht d hd)).isNonNull
  rw [List.getElem?_map, hi, Option.map_some]
  cases hg : given raw d.name with
  | some v =>
    rw [hg] at hz
    unfold bindVariable at hz ⊢
    simp only at hz ⊢
    cases hc : coerceVariable s d.ty v with
    | ok o => exact Or.inl ⟨v, o, given_some hg, rfl, C07_coerced s d.ty _ v o hs (ht d hd) hc⟩
    | error e => rw [hc] at hz; simp at hz
  | none =>
    have hk := given_none.1 hg
    rw [hg] at hz
    unfold bindVariable at hz ⊢
    simp only at hz ⊢
    cases hd' : d.default with
    | some id => exact Or.inr (Or.inl ⟨hk, id, rfl, rfl⟩)
    | none =>
      rw [hd'] at hz
      simp only at hz ⊢
      rw [hreq] at hz ⊢
      cases hr : (ts d).required with
      | true => rw [hr] at hz; simp at hz
      | false =>
        refine Or.inr (Or.inr ⟨hk, by simp, by simp, ?_⟩)
        cases d.oneOfUsage <;> rfl

/-- C07, the declared type. MISSING: lists with a non-null default, for which the code adds a list level
(`C07_list_default_adds_a_level`). Otherwise every value of the type the code gives to a variable is a value of the declared
type. -/
theorem C07_declared_type_partial (s : Schema) (declared ty : Ty) (t t' : GType) (nonNullDefault : Bool) (nul : Prop)
    (ht : Reachable declared.wrapping t) (ht' : Reachable ty.wrapping t')
    (h : variableType declared nonNullDefault = some ty) (hl : t.isList = false ∨ nonNullDefault = false) :
    ∀ o, Conforms s nul ty.definition t' o → Conforms s nul declared.definition t o := by
  intro o ho
  unfold variableType at h
  cases nonNullDefault with
  | false =>
    cases h
    have := (Typed.of_reachable ht).unique (Typed.of_reachable ht')
    subst this
    exact ho
  | true =>
    have hl' : t.isList = false := by
      rcases hl with h | h
      · exact h
      · cases h
    rw [if_pos rfl, (Typed.of_reachable ht).isList, hl'] at h
    cases h
    have h2 : Typed (Wrapping.new.nonNull) (.nonNull .named) := ⟨true, [], rep_nonNull_named rep_new, rfl⟩
    have := h2.unique (Typed.of_reachable ht')
    subst this
    have hin : Conforms s nul declared.definition .named o ∧ o ≠ .null := by
      generalize hx : GType.nonNull .named = x at ho
      cases ho with
      | nonNull a b => cases hx; exact ⟨b, a⟩
      | null a => subst hx; cases a
      | _ => cases hx
    rcases (Typed.of_reachable ht).cases with ⟨_, ⟨rfl, _⟩ | ⟨rfl, _⟩⟩ | ⟨u, w', _, ⟨rfl, _⟩ | ⟨rfl, _⟩⟩
    · exact hin.1
    · exact .nonNull hin.2 hin.1
    · cases hl'
    · cases hl'

/-! A concrete case: `input Range { min: Int! max: Int = ... step: [Unit] }` and `enum Unit { CM }`. -/

def wNamed : Wrapping := .new
def wRequired : Wrapping := Wrapping.new.nonNull
def wList : Wrapping := ⟨0b0000100000000000#16⟩

theorem reach_named : Reachable wNamed .named := ⟨[], rfl, rfl⟩
theorem reach_required : Reachable wRequired (.nonNull .named) := ⟨[.nonNull], rfl, rfl⟩
theorem reach_list : Reachable wList (.list .named) := ⟨[.list], by decide, rfl⟩

def fMin : InputField := ⟨0, ['m', 'i', 'n'], ⟨0, wRequired⟩, none, false⟩
def fMax : InputField := ⟨1, ['m', 'a', 'x'], ⟨0, wNamed⟩, some 7, false⟩
def fStep : InputField := ⟨2, ['s', 't', 'e', 'p'], ⟨1, wList⟩, none, false⟩
def eCm : EnumVal := ⟨5, ['C', 'M'], false⟩
def fBy : InputField := ⟨3, ['b', 'y'], ⟨0, wNamed⟩, none, false⟩

/-- 0 is `Int`, 1 `Unit`, 2 `Range`, 3 an input object with `@oneOf`. -/
def caseSchema : Schema
  | 0 => .scalar .int
  | 1 => .enum [eCm]
  | 2 => .inputObject false [fMin, fMax, fStep]
  | 3 => .inputObject true [fBy]
  | _ => .scalar .unknown

theorem caseSchema_ok : SchemaOk caseSchema := by
  refine ⟨?_, ?_, ?_, ?_, ?_⟩
  · intro d o fields h f hf
    match d, h with
    | 2, h =>
      cases h
      simp at hf
      rcases hf with rfl | rfl | rfl
      · exact ⟨_, reach_required⟩
      · exact ⟨_, reach_named⟩
      · exact ⟨_, reach_list⟩
    | 3, h =>
      cases h
      simp at hf
      subst hf
      exact ⟨_, reach_named⟩
    | 0, h => cases h
    | 1, h => cases h
    | n + 4, h => cases h
  · intro d o fields h
    match d, h with
    | 2, h => cases h; decide
    | 3, h => cases h; decide
    | 0, h => cases h
    | 1, h => cases h
    | n + 4, h => cases h
  · intro d o fields h
    match d, h with
    | 2, h => cases h; decide
    | 3, h => cases h; decide
    | 0, h => cases h
    | 1, h => cases h
    | n + 4, h => cases h
  · intro d vs h
    match d, h with
    | 1, h => cases h; decide
    | 0, h => cases h
    | 2, h => cases h
    | 3, h => cases h
    | n + 4, h => cases h
  · intro d o fields h f hf
    match d, h with
    | 2, h =>
      cases h
      simp at hf
      rcases hf with rfl | rfl | rfl <;> intro h <;> cases h
    | 3, h =>
      cases h
      simp at hf
      subst hf
      intro h
      cases h
    | 0, h => cases h
    | 1, h => cases h
    | n + 4, h => cases h

/-- `{ "step": "CM", "min": 3 }` for `[Range]`. -/
def caseValue : Json := .obj [(fStep.name, .str eCm.name), (fMin.name, .num (.pos 3))]

example : coerceVariable caseSchema ⟨2, wList⟩ caseValue =
    .ok (.list [.object [(0, .int 3), (1, .default 7), (2, .list [.enumValue 5])]]) := rfl

example : coerceVariable caseSchema ⟨2, wList⟩ (.obj [(fStep.name, .str eCm.name)]) = .error .unexpectedNull := rfl

/-! ### C08 -/

/-- C08, the exact rule of the code for numbers at a variable of type `Int` or `Int!`: accepted are the whole numbers from
`-2^31` to `2^31 - 1`, except `2147483647.0`; and those below `-2^31` written with a fraction or an exponent, which become
`-2^31`. -/
theorem C08_int_exact (s : Schema) (d : Nat) (w : Wrapping) (n : Num) (o : Out) (hd : s d = .scalar .int)
    (hw : w = wNamed ∨ w = wRequired) : coerceVariable s ⟨d, w⟩ (.num n) = .ok o ↔
      (∃ i : Int, n.value = (i : Rat) ∧ -2147483648 ≤ i ∧ i ≤ 2147483647 ∧ n ≠ .float 2147483647 ∧ o = .int i) ∨
      (∃ i : Int, n = .float (i : Rat) ∧ i < -2147483648 ∧ o = .int (-2147483648)) := by
  have e : coerceVariable s ⟨d, w⟩ (.num n) = coerceScalar 1 .int (.num n) := by
    rcases hw with rfl | rfl
    · have h1 : wNamed.isList = false := rfl
      have h2 : wNamed.popOutermost = some (none, wNamed) := rfl
      simp [coerceVariable, fuelFor, height, coerceInput, coerceType, coerceNamed, h1, h2, hd, Json.isNull]
    · have h1 : wRequired.isList = false := rfl
      have h2 : wRequired.popOutermost = some (none, wRequired) := rfl
      simp [coerceVariable, fuelFor, height, coerceInput, coerceType, coerceNamed, h1, h2, hd, Json.isNull]
  rw [e, coerceInt_iff]
  constructor
  · intro h
    cases h with
    | int _ i h1 h2 h3 h4 => exact Or.inl ⟨i, h1, h2, h3, h4, rfl⟩
    | intClamped q i h1 h2 => exact Or.inr ⟨i, by rw [h1], h2, rfl⟩
  · rintro (⟨i, h1, h2, h3, h4, rfl⟩ | ⟨i, rfl, h2, rfl⟩)
    · exact .int _ i h1 h2 h3 h4
    · exact .intClamped _ i rfl h2

/-- C08. MISSING: numbers written with a fraction or an exponent that are below `-2^31` or equal to `2^31 - 1`, for which the
claim is false (`C08_max_as_float_rejected`, `C08_below_min_accepted`). For all other numbers: accepted iff whole and in
`[-2^31, 2^31 - 1]`, and the coerced value is the number. -/
theorem C08_int_partial (s : Schema) (d : Nat) (w : Wrapping) (n : Num) (o : Out) (hd : s d = .scalar .int)
    (hw : w = wNamed ∨ w = wRequired) (hn : ∀ q, n = .float q → ((-2147483648 : Int) : Rat) ≤ q ∧ q ≠ ((2147483647 : Int) : Rat)) :
    coerceVariable s ⟨d, w⟩ (.num n) = .ok o ↔
      ∃ i : Int, n.value = (i : Rat) ∧ -2147483648 ≤ i ∧ i ≤ 2147483647 ∧ o = .int i := by
  rw [C08_int_exact s d w n o hd hw]
  constructor
  · rintro (⟨i, h1, h2, h3, _, h5⟩ | ⟨i, h1, h2, _⟩)
    · exact ⟨i, h1, h2, h3, h5⟩
    · have := Rat.intCast_le_intCast.1 (hn _ h1).1
      omega
  · rintro ⟨i, h1, h2, h3, h4⟩
    exact Or.inl ⟨i, h1, h2, h3, fun e => (hn _ e).2 rfl, h4⟩

example : (∀ q, Num.float 5 = .float q → ((-2147483648 : Int) : Rat) ≤ q ∧ q ≠ ((2147483647 : Int) : Rat)) ∧
    coerceVariable caseSchema ⟨0, wRequired⟩ (.num (.float 5)) = .ok (.int 5) ∧
    coerceVariable caseSchema ⟨0, wRequired⟩ (.num (.float ⟨5, 2, by decide, by decide⟩)) = .error .scalarValue := by
  refine ⟨?_, ?_, ?_⟩
  · intro q h
    injection h with h
    subst h
    decide +kernel
  · rfl
  · rfl

/-- C08 is false: `2147483647.0` is the largest 32-bit integer and is rejected. -/
theorem C08_max_as_float_rejected : coerceVariable caseSchema ⟨0, wRequired⟩ (.num (.float 2147483647)) = .error .scalarValue := rfl

/-- C08 is false: `-3000000000.0` is no 32-bit integer, and is accepted as another number. -/
theorem C08_below_min_accepted :
    coerceVariable caseSchema ⟨0, wRequired⟩ (.num (.float (-3000000000))) = .ok (.int (-2147483648)) := rfl

/-- Next to C08: integers below `2^53` keep their value in `Float` and custom scalar variables ... -/
theorem C08_float_of_small_integer (n : Nat) (h : n < 2 ^ 53) : (Num.pos n).asF64 = (Num.pos n).value := by
  unfold Num.asF64 Num.value natToF64
  simp only
  have : Nat.log2 n < 53 := by
    by_cases h0 : n = 0
    · subst h0; decide
    · exact (Nat.log2_lt h0).2 h
  rw [if_pos this]

/-- ... but larger ones do not, also for custom scalars such as `BigInt`. -/
theorem C08_custom_scalar_rounds :
    coerceVariable caseSchema ⟨9, wRequired⟩ (.num (.pos 9007199254740993)) = .ok (.float 9007199254740992) := rfl

/-! ### Where C07 fails -/

/-- C07 is false for `@oneOf`: `{ "by": null }` is accepted, and the value does not conform. -/
theorem C07_oneOf_null_accepted :
    coerceVariable caseSchema ⟨3, wRequired⟩ (.obj [(fBy.name, .null)]) = .ok (.object [(3, .null)]) ∧
    ¬ Conforms caseSchema False 3 (.nonNull .named) (.object [(3, .null)]) := by
  refine ⟨rfl, fun h => ?_⟩
  generalize ht : GType.nonNull .named = t at h
  generalize ho : Out.object [(3, .null)] = o at h
  generalize hd : 3 = d at h
  cases h with
  | nonNull _ h2 =>
    cases ht
    subst hd
    subst ho
    cases h2 with
    | custom h _ => cases h
    | object R hR hs _ _ _ hone =>
      cases hs
      obtain ⟨p, hp, h⟩ := hone rfl
      cases hp
      rcases h with h | h
      · exact h
      · exact h rfl
  | null h => subst ht; cases h
  | _ => cases ht

/-- C07 is false for list variables with a default: `$x: [Int] = []` gets the type `[[Int]]!`, so that `[1]` is rejected and
`[[1]]` accepted, which is no value of the declared type. -/
theorem C07_list_default_adds_a_level : ∃ ty, variableType ⟨0, wList⟩ true = some ty ∧
    Reachable ty.wrapping (.nonNull (.list (.list .named))) ∧
    coerceVariable caseSchema ty (.arr [.num (.pos 1)]) = .error .missingList ∧
    coerceVariable caseSchema ty (.arr [.arr [.num (.pos 1)]]) = .ok (.list [.list [.int 1]]) ∧
    ¬ Conforms caseSchema True 0 (.list .named) (.list [.list [.int 1]]) := by
  refine ⟨⟨0, ⟨0b0001000000000010#16⟩⟩, rfl, ⟨[.list, .listNonNull], by decide, rfl⟩, rfl, rfl, fun h => ?_⟩
  generalize ht : GType.list .named = t at h
  generalize ho : Out.list [.list [.int 1]] = o at h
  generalize hd : 0 = d at h
  cases h with
  | list h =>
    cases ht
    cases ho
    subst hd
    have := h _ List.mem_cons_self
    generalize hx : Out.list [.int 1] = x at this
    generalize hu : GType.named = u at this
    cases this with
    | custom h _ => cases h
    | list => cases hu
    | nonNull => cases hu
    | _ => cases hx
  | null h => cases ho
  | _ => cases ht

/-- C07 is not enforced for defaults: an absent variable with a default is accepted in a `@oneOf` input object whatever the
default is, in particular for `$x: Int = null`. -/
theorem C07_oneOf_default_unchecked (s : Schema) (name : Str) (ty : Ty) (id : Nat) :
    bindVariables s [⟨name, ty, some id, true⟩] [] = some [.default id] := rfl

/-! ### C09 -/

/-- C09, the check of variable usages: a variable of one type may be used at another exactly if both are over the same
definition and every value of the variable's type is admitted at the position. -/
theorem C09_usage_iff (ty usedAs : Ty) (t u : GType) (ht : Reachable ty.wrapping t) (hu : Reachable usedAs.wrapping u) :
    areTypesCompatible ty usedAs = true ↔
      ty.definition = usedAs.definition ∧ ∀ v, t.Admits v → AdmittedAt u v := by
  unfold areTypesCompatible
  rw [Bool.and_eq_true, decide_eq_true_eq, Bool.or_eq_true, C02_lenient_iff_value_inclusion _ _ _ _ hu ht]
  have h1 : ty.wrapping.isList = t.isList := (Typed.of_reachable ht).isList
  have h2 : usedAs.wrapping.isNonNull = u.required := (Typed.of_reachable hu).isNonNull
  have h3 : ty.wrapping.isNonNull = t.required := (Typed.of_reachable ht).isNonNull
  unfold Wrapping.isNullable
  rw [h1, h2, h3]
  refine and_congr_right fun _ => ?_
  have hshape : t.isList = false → t = .named ∨ t = .nonNull .named := by
    intro hl
    rcases (Typed.of_reachable ht).cases with ⟨_, ⟨rfl, _⟩ | ⟨rfl, _⟩⟩ | ⟨x, w', _, ⟨rfl, _⟩ | ⟨rfl, _⟩⟩
    · exact Or.inl rfl
    · exact Or.inr rfl
    · cases hl
    · cases hl
  have hleaf : ∀ n, AdmittedAt u (.leaf n) := by
    intro n
    rcases (Typed.of_reachable hu).cases with ⟨_, ⟨rfl, _⟩ | ⟨rfl, _⟩⟩ | ⟨x, w', _, ⟨rfl, _⟩ | ⟨rfl, _⟩⟩
    · exact Or.inl (Or.inr ⟨n, rfl⟩)
    · exact Or.inl ⟨fun e => (by cases e), Or.inr ⟨n, rfl⟩⟩
    · exact Or.inr ⟨rfl, n, rfl⟩
    · exact Or.inr ⟨rfl, n, rfl⟩
  have hnull : AdmittedAt u .null ↔ u.required = false := by
    unfold AdmittedAt
    rw [admits_null_iff]
    constructor
    · rintro (h | ⟨_, n, h⟩)
      · exact h
      · cases h
    · exact Or.inl
  constructor
  · rintro (h | h) v hv
    · exact Or.inl (h v hv)
    · simp only [Bool.and_eq_true, Bool.not_eq_true', Bool.or_eq_true] at h
      obtain ⟨hl, hn⟩ := h
      rcases hshape hl with rfl | rfl
      · rcases hv with rfl | ⟨n, rfl⟩
        · rcases hn with hn | hn
          · exact hnull.2 hn
          · cases hn
        · exact hleaf n
      · obtain ⟨hv1, rfl | ⟨n, rfl⟩⟩ := hv
        · exact absurd rfl hv1
        · exact hleaf n
  · intro h
    cases hl : t.isList with
    | false =>
      right
      simp only [Bool.not_false, Bool.true_and, Bool.or_eq_true, Bool.not_eq_true']
      cases hr : t.required with
      | true => exact Or.inr rfl
      | false => exact Or.inl (hnull.1 (h .null ((admits_null_iff t).2 hr)))
    | true =>
      left
      intro v hv
      rcases h v hv with h | ⟨_, n, rfl⟩
      · exact h
      · rcases (Typed.of_reachable ht).cases with ⟨_, ⟨rfl, _⟩ | ⟨rfl, _⟩⟩ | ⟨x, w', _, ⟨rfl, _⟩ | ⟨rfl, _⟩⟩
        · cases hl
        · cases hl
        · rcases hv with hv | ⟨_, hv, _⟩ <;> cases hv
        · rcases hv.2 with hv | ⟨_, hv, _⟩ <;> cases hv

/-- C09 on coerced values: every value a variable may hold after coercion at its type conforms to the type of a position at
which the variable is accepted, possibly as the bare item of a list. -/
theorem C09_usage_sound (s : Schema) (nul : Prop) (ty usedAs : Ty) (t u : GType) (ht : Reachable ty.wrapping t)
    (hu : Reachable usedAs.wrapping u) (h : areTypesCompatible ty usedAs = true) :
    ∀ o, Conforms s nul ty.definition t o → Conforms s nul usedAs.definition u o ∨
      (u.isList = true ∧ o ≠ .null ∧ Conforms s nul usedAs.definition .named o) := by
  intro o ho
  unfold areTypesCompatible at h
  rw [Bool.and_eq_true, decide_eq_true_eq, Bool.or_eq_true] at h
  obtain ⟨hd, h⟩ := h
  rw [← hd]
  rcases h with h | h
  · left
    have hincl := (C02_lenient_iff_value_inclusion _ _ _ _ hu ht).1 h
    obtain ⟨i, ls, h1, rfl⟩ := reachable_rep hu
    obtain ⟨i', ls', h1', rfl⟩ := reachable_rep ht
    exact lenient_conforms ((lenientAbs_iff i i' ls ls').2 hincl) o ho
  · have h1 : ty.wrapping.isList = t.isList := (Typed.of_reachable ht).isList
    have h2 : usedAs.wrapping.isNonNull = u.required := (Typed.of_reachable hu).isNonNull
    have h3 : ty.wrapping.isNonNull = t.required := (Typed.of_reachable ht).isNonNull
    unfold Wrapping.isNullable at h
    rw [h1, h2, h3] at h
    simp only [Bool.and_eq_true, Bool.not_eq_true', Bool.or_eq_true] at h
    obtain ⟨hl, hn⟩ := h
    have hin : Conforms s nul ty.definition .named o ∧ (t.required = true → o ≠ .null) := by
      rcases (Typed.of_reachable ht).cases with ⟨_, ⟨rfl, _⟩ | ⟨rfl, _⟩⟩ | ⟨x, w', _, ⟨rfl, _⟩ | ⟨rfl, _⟩⟩
      · exact ⟨ho, fun h => by cases h⟩
      · generalize hx : GType.nonNull .named = x at ho
        cases ho with
        | nonNull a b => cases hx; exact ⟨b, fun _ => a⟩
        | null a => subst hx; cases a
        | _ => cases hx
      · cases hl
      · cases hl
    by_cases hnull : o = .null
    · subst hnull
      left
      rcases hn with hn | hn
      · exact .null hn
      · exact absurd rfl (hin.2 hn)
    · rcases (Typed.of_reachable hu).cases with ⟨_, ⟨rfl, _⟩ | ⟨rfl, _⟩⟩ | ⟨x, w', _, ⟨rfl, _⟩ | ⟨rfl, _⟩⟩
      · exact Or.inl hin.1
      · exact Or.inl (.nonNull hnull hin.1)
      · exact Or.inr ⟨rfl, hnull, hin.1⟩
      · exact Or.inr ⟨rfl, hnull, hin.1⟩

/-- `Int!` may be used for `[Int]`, `Int` for `Int!` may not. -/
example : areTypesCompatible ⟨0, wRequired⟩ ⟨0, wList⟩ = true ∧ areTypesCompatible ⟨0, wNamed⟩ ⟨0, wRequired⟩ = false ∧
    areTypesCompatible ⟨0, wList⟩ ⟨0, wNamed⟩ = false := by decide

end Verif.Coercion
