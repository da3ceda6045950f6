import Verif.Hidden.Lemmas
import Verif.Hidden.Witness

/-!
# C70: what is hidden with an inaccessible element
-/

namespace Verif.Hidden

/-- Exactly these elements are hidden: those that types of input values and required input values give, then the enums
and input objects left empty, then what fields and their types give. -/
theorem C70_exact {S : Schema} (w : WF S) (base : Marks) (s : Site) : finalize S base s = true ↔ Staged S base s :=
  finalize_iff w base s

/-- What is marked stays hidden. -/
theorem C70_kept {S : Schema} (w : WF S) (base : Marks) (s : Site) (h : base s = true) : finalize S base s = true :=
  (finalize_iff w base s).2 (.input (.base h))

theorem inputHidden_hidden {S : Schema} {base : Marks} {s : Site} (h : InputHidden S base s) : Hidden S base s := by
  induction h with
  | base h => exact .base h
  | internal hv hi => exact .internal hv hi
  | valueType hv _ ih => exact .valueType hv ih
  | required hv hr hi _ ih => exact .required hv hr hi ih

theorem staged_hidden {S : Schema} {base : Marks} {s : Site} (h : Staged S base s) : Hidden S base s := by
  induction h with
  | input h => exact inputHidden_hidden h
  | emptyEnum hn h => exact .empty (.enum hn) fun k hk => inputHidden_hidden (h k hk)
  | emptyInput hn h => exact .empty (.input hn) fun k hk => inputHidden_hidden (h k hk)
  | fieldType hf _ ih => exact .fieldType hf ih
  | emptyObject hn _ ih => exact .empty (.object hn) ih
  | emptyInterface hn _ ih => exact .empty (.interface hn) ih
  | emptyUnion hn _ ih => exact .empty (.union hn) ih

/-- Nothing is hidden without need. -/
theorem C70_only {S : Schema} (w : WF S) (base : Marks) (s : Site) (h : finalize S base s = true) : Hidden S base s :=
  staged_hidden ((finalize_iff w base s).1 h)

/-- All that has to be hidden is hidden, if no enum and no input object is left empty that is not hidden anyway. What is
missing is the effect of such an enum or input object on the arguments and input fields of its type. -/
theorem C70_hidden_partial {S : Schema} (w : WF S) (base : Marks)
    (he : ∀ n, n < S.enums.length → (∀ k ∈ S.kids (.enum n), InputHidden S base k) → InputHidden S base (.enum n))
    (hi : ∀ n, n < S.inputs.length → (∀ k ∈ S.kids (.input n), InputHidden S base k) → InputHidden S base (.input n)) (s : Site) :
    finalize S base s = true ↔ Hidden S base s := by
  refine ⟨C70_only w base s, fun h => (finalize_iff w base s).2 ?_⟩
  have hval : ∀ n, Staged S base (.enum n) → InputHidden S base (.enum n) := by
    intro n h
    cases h with
    | input h => exact h
    | emptyEnum hn h => exact he _ hn h
  have hinp : ∀ n, Staged S base (.input n) → InputHidden S base (.input n) := by
    intro n h
    cases h with
    | input h => exact h
    | emptyInput hn h => exact hi _ hn h
  induction h with
  | base h => exact .input (.base h)
  | internal hv hi => exact .input (.internal hv hi)
  | valueType hv _ ih =>
    refine .input (.valueType hv ?_)
    rcases w.valueTy _ _ hv with ⟨n, e⟩ | ⟨n, e⟩ | ⟨n, _, e⟩ <;> rw [e] at ih ⊢
    · cases ih with
      | input h => exact h
    · exact hval n ih
    · exact hinp n ih
  | required hv hr hi _ ih => exact .input (.required hv hr hi (staged_value w ih))
  | fieldType hf _ ih => exact .fieldType hf ih
  | empty hc _ ih =>
    cases hc with
    | object hn => exact .emptyObject hn ih
    | interface hn => exact .emptyInterface hn ih
    | union hn => exact .emptyUnion hn ih
    | enum hn =>
      refine .emptyEnum hn fun k hk => ?_
      have := ih k hk
      obtain ⟨i, rfl⟩ := kids_enum hk
      cases this with
      | input h => exact h
    | input hn =>
      refine .emptyInput hn fun k hk => ?_
      have := ih k hk
      obtain ⟨i, rfl⟩ := kids_input hk
      exact staged_value w this

/-- A field that is shown has a type that is shown. -/
theorem C70_fields {S : Schema} (w : WF S) (base : Marks) {ix : Nat} {f : FieldDef} (hf : S.fields[ix]? = some f)
    (h : finalize S base (.field ix) = false) : finalize S base f.ty = false := by
  cases ht : finalize S base f.ty with
  | false => rfl
  | true =>
    have := (finalize_iff w base _).2 (.fieldType hf ((finalize_iff w base _).1 ht))
    rw [h] at this; cases this

/-- A field or input object that is shown has all its required arguments or fields shown, except internal ones. -/
theorem C70_required {S : Schema} (w : WF S) (base : Marks) {ix : Nat} {v : ValueDef} (hv : S.values[ix]? = some v)
    (hr : v.required = true) (hi : v.internal = false) (h : finalize S base v.parent = false) :
    finalize S base (.value ix) = false := by
  cases ht : finalize S base (.value ix) with
  | false => rfl
  | true =>
    have := (finalize_iff w base _).2 (.input (.required hv hr hi (staged_value w ((finalize_iff w base _).1 ht))))
    rw [h] at this; cases this

/-- Internal arguments are hidden. -/
theorem C70_internal {S : Schema} (w : WF S) (base : Marks) {ix : Nat} {v : ValueDef} (hv : S.values[ix]? = some v)
    (hi : v.internal = true) : finalize S base (.value ix) = true :=
  (finalize_iff w base _).2 (.input (.internal hv hi))

/-- A type that is shown has an element that is shown. -/
theorem C70_nonempty {S : Schema} (w : WF S) (base : Marks) {s : Site} (hc : Container S s) (h : finalize S base s = false) :
    ∃ k ∈ S.kids s, finalize S base k = false := by
  refine Classical.byContradiction fun hno => ?_
  have hall : ∀ k ∈ S.kids s, Staged S base k := by
    intro k hk
    refine (finalize_iff w base k).1 ?_
    cases hf : finalize S base k with
    | true => rfl
    | false => exact absurd ⟨k, hk, hf⟩ hno
  have : Staged S base s := by
    cases hc with
    | object hn => exact .emptyObject hn hall
    | interface hn => exact .emptyInterface hn hall
    | union hn => exact .emptyUnion hn hall
    | enum hn =>
      refine .emptyEnum hn fun k hk => ?_
      have := hall k hk
      obtain ⟨i, rfl⟩ := kids_enum hk
      cases this with
      | input h => exact h
    | input hn =>
      refine .emptyInput hn fun k hk => ?_
      have := hall k hk
      obtain ⟨i, rfl⟩ := kids_input hk
      exact staged_value w this
  rw [(finalize_iff w base s).2 this] at h
  cases h

/-- An argument or input field that is shown has a type that is shown, or the type is an enum or input object all elements
of which are hidden. -/
theorem C70_values_partial {S : Schema} (w : WF S) (base : Marks) {ix : Nat} {v : ValueDef} (hv : S.values[ix]? = some v)
    (h : finalize S base (.value ix) = false) : finalize S base v.ty = false ∨
      (((∃ n, v.ty = .enum n) ∨ ∃ n, v.ty = .input n) ∧ base v.ty = false ∧ ∀ k ∈ S.kids v.ty, finalize S base k = true) := by
  cases ht : finalize S base v.ty with
  | false => exact .inl rfl
  | true =>
    refine .inr ?_
    have hn : ¬ InputHidden S base v.ty := by
      intro hi
      rw [(finalize_iff w base _).2 (.input (.valueType hv hi))] at h; cases h
    have hb : base v.ty = false := by
      cases hb : base v.ty with
      | false => rfl
      | true => exact absurd (.base hb) hn
    have hs := (finalize_iff w base _).1 ht
    rcases w.valueTy _ _ hv with ⟨n, e⟩ | ⟨n, e⟩ | ⟨n, _, e⟩ <;> rw [e] at hs hn hb ⊢
    · cases hs with
      | input h => exact absurd h hn
    · cases hs with
      | input h => exact absurd h hn
      | emptyEnum hl hk => exact ⟨.inl ⟨n, rfl⟩, hb, fun k hkk => (finalize_iff w base k).2 (.input (hk k hkk))⟩
    · cases hs with
      | input h => exact absurd h hn
      | emptyInput hl hk => exact ⟨.inr ⟨n, rfl⟩, hb, fun k hkk => (finalize_iff w base k).2 (.input (hk k hkk))⟩

/-- An enum all values of which are inaccessible is hidden, a required argument of this type and its field are not. -/
theorem C70_enum_false : ∃ (S : Schema) (base : Marks), WF S ∧ finalize S base (.enum 0) = true ∧
    S.values[0]? = some ⟨.enum 0, true, false, .field 0⟩ ∧ Hidden S base (.value 0) ∧ finalize S base (.value 0) = false ∧
    Hidden S base (.field 0) ∧ finalize S base (.field 0) = false := by
  have h0 : Hidden sEnum mEnum (.enum 0) := .empty (.enum (by decide)) (by
    intro k hk
    have : k = .enumValue 0 := by simpa [Schema.kids, sEnum] using hk
    subst this
    exact .base (by decide))
  have h1 : Hidden sEnum mEnum (.value 0) := .valueType (v := ⟨.enum 0, true, false, .field 0⟩) rfl h0
  exact ⟨sEnum, mEnum, wf_of_check (by decide +kernel), by decide +kernel, rfl, h1, by decide +kernel,
    .required (v := ⟨.enum 0, true, false, .field 0⟩) rfl rfl rfl h1, by decide +kernel⟩

/-- The same for an input object all fields of which are inaccessible. -/
theorem C70_input_false : ∃ (S : Schema) (base : Marks), WF S ∧ finalize S base (.input 0) = true ∧
    S.values[0]? = some ⟨.input 0, true, false, .field 0⟩ ∧ Hidden S base (.value 0) ∧ finalize S base (.value 0) = false ∧
    Hidden S base (.field 0) ∧ finalize S base (.field 0) = false := by
  have h0 : Hidden sInput mInput (.input 0) := .empty (.input (by decide)) (by
    intro k hk
    have : k = .value 1 := by simpa [Schema.kids, sInput] using hk
    subst this
    exact .base (by decide))
  have h1 : Hidden sInput mInput (.value 0) := .valueType (v := ⟨.input 0, true, false, .field 0⟩) rfl h0
  exact ⟨sInput, mInput, wf_of_check (by decide +kernel), by decide +kernel, rfl, h1, by decide +kernel,
    .required (v := ⟨.input 0, true, false, .field 0⟩) rfl rfl rfl h1, by decide +kernel⟩

/-- Doing it again, as a contract that changes nothing does, hides more. -/
theorem C70_again_false : ∃ (S : Schema) (base : Marks) (s : Site), WF S ∧ finalize S base s = false ∧
    finalize S (finalize S base) s = true :=
  ⟨sEnum, mEnum, .field 0, wf_of_check (by decide +kernel), by decide +kernel, by decide +kernel⟩

/-- Doing it again changes nothing if all that has to be hidden is hidden. -/
theorem C70_again_partial {S : Schema} (w : WF S) (base : Marks) (h : ∀ s, Hidden S base s → finalize S base s = true) (s : Site) :
    finalize S (finalize S base) s = finalize S base s := by
  rw [Bool.eq_iff_iff]
  refine ⟨fun hs => h s ?_, C70_kept w _ s⟩
  have hh := C70_only w _ s hs
  clear hs
  induction hh with
  | base hb => exact C70_only w base _ hb
  | internal hv hi => exact .internal hv hi
  | valueType hv _ ih => exact .valueType hv ih
  | required hv hr hi _ ih => exact .required hv hr hi ih
  | fieldType hf _ ih => exact .fieldType hf ih
  | empty hc _ ih => exact .empty hc ih

/-- The flags of unions and interfaces tell whether a member or implementor is hidden. -/
theorem C70_flags (S : Schema) (m : Marks) : (∀ (u : Nat) (l : List Nat), S.unions[u]? = some l →
      (unionFlag S m u = true ↔ ∃ o ∈ l, m (.object o) = true)) ∧
    (∀ (i : Nat) (d : InterfaceDef), S.interfaces[i]? = some d →
      (interfaceFlag S m i = true ↔ ∃ o ∈ d.possible, m (.object o) = true)) := by
  constructor
  · intro u l hl
    simp [unionFlag, Schema.kids, hl]
  · intro i d hd
    simp [interfaceFlag, hd]

/-- A chain of types is hidden with its last field, and a field with a required input field two levels down. -/
theorem C70_witness : WF sChain ∧
    (∀ n, n < sChain.enums.length → (∀ k ∈ sChain.kids (.enum n), InputHidden sChain mChain k) →
      InputHidden sChain mChain (.enum n)) ∧
    (∀ n, n < sChain.inputs.length → (∀ k ∈ sChain.kids (.input n), InputHidden sChain mChain k) →
      InputHidden sChain mChain (.input n)) ∧
    [Site.object 3, .field 5, .object 2, .field 4, .object 1, .field 0, .union 0, .field 1, .interface 0, .field 7,
      .input 1, .value 1, .input 0, .value 0, .field 3].all (finalize sChain mChain) = true ∧
    finalize sChain mChain (.field 2) = false ∧ finalize sChain mChain (.object 0) = false :=
  ⟨wf_of_check (by decide +kernel), by intro n hn; simp [sChain] at hn, (by
    intro n hn _
    refine (markInputs_iff (wf_of_check (by decide +kernel)) mChain _).1 ?_
    have : n = 0 ∨ n = 1 := by simp [sChain] at hn; omega
    rcases this with rfl | rfl <;> decide +kernel), by decide +kernel, by decide +kernel, by decide +kernel⟩

end Verif.Hidden
