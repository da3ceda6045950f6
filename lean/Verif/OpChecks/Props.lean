import Verif.OpChecks.UsageProps
import Verif.OpChecks.RulesLemmas
/-!
# Properties C31 and C55: operation checks

The theorems are about the whole path: two schema documents, the recorded operations with the uses they
make (`Spec.lean`), the aggregated usage, and the rule for one change.
-/
namespace Verif.OpChecks
open Verif.CheckTypes Verif.Common

/-- The check of `tgt` against `src` with the aggregated usage. -/
def params (src tgt : SDoc) (u : Usage) : Params := ⟨Schema.ofDoc src, Schema.ofDoc tgt, u.provider⟩

/-- `t` is reachable from `root` through the types of fields. -/
inductive Reach (d : SDoc) : Name → Name → Prop
  | refl (t) : Reach d t t
  | step {root t f fd} : d.fieldDef root f = some fd → Reach d fd.base t → Reach d root t

/-- Some operation provides an argument (of an object type) whose type reaches `t`. -/
def InputUsed (d : SDoc) (ops : Recorded) (t : Name) : Prop :=
  ∃ ty f a ad, d.isObject ty = true ∧ d.argDef ty f a = some ad ∧ used ops (· == .arg ty f a) = true ∧
    Reach d ad.base t

/-- `ty` is an input object. -/
def SDoc.isInput (d : SDoc) (ty : Name) : Prop := ∃ t ∈ d.types, t.kind = .inputObject ∧ t.name = ty

/-- Every value of the first type is a value of the second. -/
def Within (a b : AType) : Prop := ∀ v, a.toGType.Admits v → b.toGType.Admits v

section
variable {src tgt : SDoc} {ops : Recorded} {u : Usage}

theorem fieldIsUsed_eq (hs : src.Valid) (hok : RecordedOk src ops) (hr : Result src ops u) {ty f : Name}
    (hdef : (src.fieldDef ty f).isSome) :
    (params src tgt u).fieldIsUsed ty f = used ops (· == .field ty f) := by
  have h := C32_field_counts_partial hs hok hr hdef
  unfold fieldCount at h
  unfold Params.fieldIsUsed params Usage.provider
  simp only
  cases hf : (Schema.ofDoc src).findField ty f with
  | none =>
    rw [hf] at h
    cases hu : used ops (· == .field ty f) with
    | false => rfl
    | true => rw [hu] at h; cases h
  | some i =>
    rw [hf, Option.bind_some] at h
    simp only [h]
    cases used ops (· == .field ty f) <;> rfl

theorem argumentIsUsed_eq (hs : src.Valid) (hok : RecordedOk src ops) (hr : Result src ops u) {ty f a : Name}
    (hdef : (src.argDef ty f a).isSome) :
    (params src tgt u).argumentIsUsed ty f a = (src.isObject ty && used ops (· == .arg ty f a)) := by
  have h := C32_argument_counts_partial hs hok hr hdef
  unfold argCount at h
  unfold Params.argumentIsUsed params Usage.provider
  simp only
  cases hf : (Schema.ofDoc src).findArgument (ty, f, a) with
  | none =>
    rw [hf] at h
    cases hu : (src.isObject ty && used ops (· == .arg ty f a)) with
    | false => rfl
    | true => rw [hu] at h; cases h
  | some i =>
    rw [hf, Option.bind_some] at h
    simp only [h]
    cases (src.isObject ty && used ops (· == .arg ty f a)) <;> rfl

theorem argIds_range (hs : src.Valid) (hok : RecordedOk src ops) (hr : Result src ops u) :
    ∀ i ∈ u.provider.argIds, i < (Schema.ofDoc src).args.length := by
  obtain ⟨pl, _, h2, rfl⟩ := result_spec hs hok hr
  intro i hi
  unfold Usage.provider at hi
  simp only at hi
  rw [(runAll_proj _ _).2.1] at hi
  rcases ((keys_multi _ _ (by decide)).2 i).1 hi with h | ⟨e, he, hx⟩
  · cases h
  · rw [List.map_map] at he
    obtain ⟨p, hp, rfl⟩ := List.mem_map.1 he
    exact (h2 p hp).2.argRange i hx

theorem argIds_mem (hs : src.Valid) (hok : RecordedOk src ops) (hr : Result src ops u) {i : Nat} {a : Arg}
    (hi : (Schema.ofDoc src).args[i]? = some a) :
    i ∈ u.provider.argIds ↔ used ops (· == .arg a.ty a.field a.name) = true := by
  obtain ⟨pl, h1, h2, rfl⟩ := result_spec hs hok hr
  unfold Usage.provider
  simp only
  rw [(runAll_proj _ _).2.1, (keys_multi _ _ (by decide)).2 i, (total_pl h1 _).2]
  simp only [Bool.not_eq_true', ← Bool.not_eq_true, List.all_eq_true, decide_eq_true_eq]
  have hm : ∀ e ∈ pl, i ∈ argsOf e.2.1 ↔ e.2.2.countP (· == .arg a.ty a.field a.name) ≠ 0 := by
    intro e he
    have := (h2 e he).2.args i a hi
    rw [← List.count_pos_iff]
    unfold List.count at *
    omega
  constructor
  · rintro (h | ⟨e, he, hx⟩) hall
    · cases h
    · rw [List.map_map] at he
      obtain ⟨p, hp, rfl⟩ := List.mem_map.1 he
      exact (hm p hp).1 hx (hall p hp)
  · intro hall
    right
    obtain ⟨e, he⟩ := Classical.not_forall.1 hall
    obtain ⟨hp, hne⟩ := Classical.not_imp.1 he
    exact ⟨(e.1, argsOf e.2.1), by rw [List.map_map]; exact List.mem_map_of_mem hp, (hm e hp).2 hne⟩

theorem reach_iff (hs : src.Valid) {a t : Name} : ReachS (Schema.ofDoc src) a t ↔ Reach src a t := by
  constructor
  · intro h
    induction h with
    | refl t => exact .refl t
    | step hf _ ih =>
      obtain ⟨hm, rfl⟩ := iterFields_mem.1 hf
      obtain ⟨fd, h1, h2⟩ := (field_mem_iff hs).1 hm
      rw [h2] at ih
      exact .step h1 ih
  · intro h
    induction h with
    | refl t => exact .refl t
    | @step root t f fd hf _ ih =>
      obtain ⟨_, _, _, hn⟩ := fieldDef_some hf
      have hmem : fieldEntry root fd ∈ (Schema.ofDoc src).fields :=
        (field_mem_iff hs).2 ⟨fd, by simpa [fieldEntry, hn] using hf, rfl⟩
      exact .step (f := fieldEntry root fd) (iterFields_mem.2 ⟨hmem, rfl⟩) ih

/-! ## C55: changes of fields, enums, unions and input objects -/

/-- C55. The used input types are found completely and exactly, and the search always ends. -/
theorem C55_used_input_types (hs : src.Valid) (hok : RecordedOk src ops) (hr : Result src ops u) :
    ∃ R, findUsedInputTypes (params src tgt u) = some R ∧ ∀ t, t ∈ R ↔ InputUsed src ops t := by
  obtain ⟨R, h1, h2⟩ := usedInput_spec (d := src) (usage := u.provider) (target := Schema.ofDoc tgt) rfl
    (argIds_range hs hok hr)
  refine ⟨R, h1, fun t => (h2 t).trans ?_⟩
  constructor
  · rintro ⟨i, hi, a, ha, hreach⟩
    have hu := (argIds_mem hs hok hr ha).1 hi
    obtain ⟨ho, ad, had, he⟩ := (arg_mem_iff hs).1 (List.mem_of_getElem? ha)
    refine ⟨a.ty, a.field, a.name, ad, ho, had, hu, ?_⟩
    rw [he] at hreach
    exact (reach_iff hs).1 hreach
  · rintro ⟨ty, f, x, ad, ho, had, hu, hreach⟩
    obtain ⟨i, hi, ha⟩ := findArgument_def hs had ho
    obtain ⟨_, _, _, hn⟩ := argDef_some had
    refine ⟨i, ?_, _, ha, (reach_iff hs).2 hreach⟩
    rw [argIds_mem hs hok hr ha]
    simpa [argEntry, hn] using hu

theorem mem_inputObjects {d : SDoc} {ty : Name} : ty ∈ (Schema.ofDoc d).inputObjects ↔ d.isInput ty := by
  unfold Schema.ofDoc SDoc.isInput
  simp only [List.mem_flatMap]
  constructor
  · rintro ⟨t, ht, h⟩
    refine ⟨t, ht, ?_⟩
    unfold typeInput at h
    cases hk : t.kind <;> rw [hk] at h <;> simp at h
    exact ⟨rfl, h.symm⟩
  · rintro ⟨t, ht, hk, rfl⟩
    exact ⟨t, ht, by simp [typeInput, hk]⟩

/-- C55. Removing an output field is an error exactly if an operation selects it. -/
theorem C55_remove_output_field (hs : src.Valid) (hok : RecordedOk src ops) (hr : Result src ops u) {ty f : Name}
    (hin : ¬ src.isInput ty) (hdef : (src.fieldDef ty f).isSome) :
    removeField (params src tgt u) ty f =
      some (if used ops (· == .field ty f) then some .error else none) := by
  have h1 : ty ∉ (params src tgt u).source.inputObjects := fun h => hin (mem_inputObjects.1 h)
  unfold removeField
  rw [if_neg h1, fieldIsUsed_eq hs hok hr hdef]
  cases used ops (· == .field ty f) <;> rfl

/-- C55. Removing an input field is reported exactly if its input object is used: as an error if the field
is required, as a warning otherwise. -/
theorem C55_remove_input_field (hs : src.Valid) (hok : RecordedOk src ops) (hr : Result src ops u) {ty f : Name}
    (hin : src.isInput ty) {fd : FieldDef} (hdef : src.fieldDef ty f = some fd) :
    (InputUsed src ops ty → removeField (params src tgt u) ty f =
      some (some (if fd.ty.toGType.required then .error else .warning))) ∧
    (¬ InputUsed src ops ty → removeField (params src tgt u) ty f = some none) := by
  have h1 : ty ∈ (params src tgt u).source.inputObjects := mem_inputObjects.2 hin
  obtain ⟨R, hR, hmem⟩ := C55_used_input_types (tgt := tgt) hs hok hr
  obtain ⟨i, hi, hf⟩ := findField_def hs hdef
  constructor
  · intro hu
    unfold removeField
    rw [if_pos h1, hR]
    simp only
    rw [if_neg (by simpa using (hmem ty).2 hu)]
    show (match (Schema.ofDoc src).findField ty f with | none => _ | some id => _) = _
    rw [hi]
    simp only
    show (match (Schema.ofDoc src).fields[i]? with | none => _ | some f => _) = _
    rw [hf]
    simp only [Field.isRequired, fieldEntry, C04_required]
  · intro hu
    unfold removeField
    rw [if_pos h1, hR]
    simp only
    rw [if_pos fun h => hu ((hmem ty).1 h)]

/-- C55. Adding a required field is an error exactly if its type is a used input type; adding another field
is never reported. (Whether the new field has a default does not matter to the rule.) -/
theorem C55_add_field (hs : src.Valid) (ht : tgt.Valid) (hok : RecordedOk src ops) (hr : Result src ops u)
    {ty f : Name} {fd : FieldDef} (hdef : tgt.fieldDef ty f = some fd) :
    (fd.ty.toGType.required = true ∧ InputUsed src ops ty →
      addField (params src tgt u) ty f = some (some .error)) ∧
    (¬ (fd.ty.toGType.required = true ∧ InputUsed src ops ty) → addField (params src tgt u) ty f = some none) := by
  obtain ⟨R, hR, hmem⟩ := C55_used_input_types (tgt := tgt) hs hok hr
  obtain ⟨i, hi, hf⟩ := findField_def ht hdef
  have he : addField (params src tgt u) ty f =
      if !fd.ty.toGType.required then some none else some (if ty ∈ R then some .error else none) := by
    unfold addField
    show (match (Schema.ofDoc tgt).findField ty f with | none => _ | some id => _) = _
    rw [hi]
    simp only
    show (match (Schema.ofDoc tgt).fields[i]? with | none => _ | some f => _) = _
    rw [hf]
    simp only [Field.isRequired, fieldEntry, C04_required, hR]
  rw [he]
  cases hq : fd.ty.toGType.required with
  | false => simp
  | true =>
    by_cases hm : ty ∈ R
    · have := (hmem ty).1 hm
      simp [hm, this]
    · have : ¬ InputUsed src ops ty := fun h => hm ((hmem ty).2 h)
      simp [hm, this]

theorem compare_cases {a b : AType} (ha : a.toGType.depth ≤ 57) (hb : b.toGType.depth ≤ 57) :
    (Within a b ∧ Within b a ∧ (extractType a).compare (extractType b) = .noChange) ∨
    (Within a b ∧ ¬ Within b a ∧ (extractType a).compare (extractType b) = .removedNonNull) ∨
    (¬ Within a b ∧ Within b a ∧ (extractType a).compare (extractType b) = .addedNonNull) ∨
    (¬ Within a b ∧ ¬ Within b a ∧ (extractType a).compare (extractType b) = .notCompatible) := by
  obtain ⟨h1, h2, h3, h4⟩ := C04_compare_value_sets_partial a b ha hb
  cases hc : (extractType a).compare (extractType b) with
  | noChange => exact Or.inl ⟨(h1.1 hc).1, (h1.1 hc).2, rfl⟩
  | removedNonNull => exact Or.inr (Or.inl ⟨(h2.1 hc).1, (h2.1 hc).2, rfl⟩)
  | addedNonNull => exact Or.inr (Or.inr (Or.inl ⟨(h3.1 hc).1, (h3.1 hc).2, rfl⟩))
  | notCompatible => exact Or.inr (Or.inr (Or.inr ⟨(h4.1 hc).1, (h4.1 hc).2, rfl⟩))

theorem changeFieldType_eq (hs : src.Valid) (ht : tgt.Valid) {ty f : Name} {a b : FieldDef}
    (ha : src.fieldDef ty f = some a) (hb : tgt.fieldDef ty f = some b) :
    changeFieldType (params src tgt u) ty f =
      if ty ∈ (Schema.ofDoc src).inputObjects then
        match findUsedInputTypes (params src tgt u) with
        | none => none
        | some used => some (if ty ∈ used then changedField (fieldEntry ty a) (fieldEntry ty b) true else none)
      else some (if (params src tgt u).fieldIsUsed ty f then changedField (fieldEntry ty a) (fieldEntry ty b) false
        else none) := by
  obtain ⟨i, hi, hfi⟩ := findField_def hs ha
  obtain ⟨j, hj, hfj⟩ := findField_def ht hb
  have e1 : (params src tgt u).source = Schema.ofDoc src := rfl
  have e2 : (params src tgt u).target = Schema.ofDoc tgt := rfl
  unfold changeFieldType
  rw [e1, e2, hi, hj]
  simp only
  rw [hfi, hfj]
  rfl

/-- C55. Changing the type of an output field is an error exactly if an operation selects the field and the
new type is another one or may give a value the old one did not (types of at most 57 list levels). -/
theorem C55_change_output_field_partial (hs : src.Valid) (ht : tgt.Valid) (hok : RecordedOk src ops)
    (hr : Result src ops u) {ty f : Name} (hin : ¬ src.isInput ty) {a b : FieldDef}
    (ha : src.fieldDef ty f = some a) (hb : tgt.fieldDef ty f = some b)
    (hda : a.ty.toGType.depth ≤ 57) (hdb : b.ty.toGType.depth ≤ 57) :
    (used ops (· == .field ty f) = true ∧ (a.base ≠ b.base ∨ ¬ Within b.ty a.ty) →
      changeFieldType (params src tgt u) ty f = some (some .error)) ∧
    (¬ (used ops (· == .field ty f) = true ∧ (a.base ≠ b.base ∨ ¬ Within b.ty a.ty)) →
      changeFieldType (params src tgt u) ty f = some none) := by
  have h1 : ty ∉ (Schema.ofDoc src).inputObjects := fun h => hin (mem_inputObjects.1 h)
  rw [changeFieldType_eq hs ht ha hb, if_neg h1, fieldIsUsed_eq hs hok hr (by rw [ha]; rfl)]
  unfold changedField fieldEntry
  cases used ops (· == .field ty f) with
  | false => simp
  | true =>
    by_cases he : a.base = b.base
    · rcases compare_cases hda hdb with ⟨p, q, hc⟩ | ⟨p, q, hc⟩ | ⟨p, q, hc⟩ | ⟨p, q, hc⟩ <;>
        simp [he, hc, p, q]
    · simp [he]

/-- C55. Changing the type of a field of a used input object is reported exactly if the new type is another
one or rejects a value of the old one: as a warning if the new type only rejects values, as an error
otherwise (types of at most 57 list levels). -/
theorem C55_change_input_field_partial (hs : src.Valid) (ht : tgt.Valid) (hok : RecordedOk src ops)
    (hr : Result src ops u) {ty f : Name} (hin : src.isInput ty) {a b : FieldDef}
    (ha : src.fieldDef ty f = some a) (hb : tgt.fieldDef ty f = some b)
    (hda : a.ty.toGType.depth ≤ 57) (hdb : b.ty.toGType.depth ≤ 57) :
    (InputUsed src ops ty ∧ (a.base ≠ b.base ∨ ¬ Within a.ty b.ty ∧ ¬ Within b.ty a.ty) →
      changeFieldType (params src tgt u) ty f = some (some .error)) ∧
    (InputUsed src ops ty ∧ a.base = b.base ∧ ¬ Within a.ty b.ty ∧ Within b.ty a.ty →
      changeFieldType (params src tgt u) ty f = some (some .warning)) ∧
    (¬ InputUsed src ops ty ∨ a.base = b.base ∧ Within a.ty b.ty →
      changeFieldType (params src tgt u) ty f = some none) := by
  have h1 : ty ∈ (Schema.ofDoc src).inputObjects := mem_inputObjects.2 hin
  obtain ⟨R, hR, hmem⟩ := C55_used_input_types (tgt := tgt) hs hok hr
  rw [changeFieldType_eq hs ht ha hb, if_pos h1, hR]
  simp only
  unfold changedField fieldEntry
  by_cases hm : ty ∈ R
  · have hu := (hmem ty).1 hm
    by_cases he : a.base = b.base
    · rcases compare_cases hda hdb with ⟨p, q, hc⟩ | ⟨p, q, hc⟩ | ⟨p, q, hc⟩ | ⟨p, q, hc⟩ <;>
        simp [he, hc, p, q, hm, hu]
    · simp [he, hm, hu]
  · have hu : ¬ InputUsed src ops ty := fun h => hm ((hmem ty).2 h)
    simp [hm, hu]

/-- C55. Removing an enum value is an error exactly if the value is written for an argument of an object
type or is the default of a variable. MISSING: values inside lists and values of arguments of interface
fields (`C55_enum_in_list_missed`). -/
theorem C55_remove_enum_value_partial (hs : src.Valid) (hok : RecordedOk src ops) (hr : Result src ops u)
    (e v : Name) : removeEnumValue (params src tgt u) e v =
      some (if used ops (countsEnum src (e, v)) then some .error else none) := by
  have := C32_enum_counts_partial hs hok hr e v
  unfold removeEnumValue params Usage.provider
  simp only [this]
  cases used ops (countsEnum src (e, v)) <;> rfl

/-- C55. Removing an interface implementation or a union member is an error exactly if an operation has an
inline fragment on it. MISSING: named fragments (`C55_named_fragment_missed`). -/
theorem C55_remove_member_partial (hs : src.Valid) (hok : RecordedOk src ops) (hr : Result src ops u)
    (abstract member : Name) :
    removeUnionMember (params src tgt u) abstract member =
      some (if used ops (· == .inlineOn abstract member) then some .error else none) ∧
    removeInterfaceImplementation (params src tgt u) member abstract =
      some (if used ops (· == .inlineOn abstract member) then some .error else none) := by
  have := C32_condition_counts_partial hs hok hr abstract member
  unfold removeUnionMember removeInterfaceImplementation params Usage.provider
  simp only [this]
  cases used ops (· == .inlineOn abstract member) <;> exact ⟨rfl, rfl⟩

/-- `ty` implements `i`. -/
def SDoc.implements (d : SDoc) (ty i : Name) : Prop :=
  ∃ t ∈ d.types, t.name = ty ∧ (t.kind = .object ∨ t.kind = .interface) ∧ i ∈ t.implements

theorem mem_impls {d : SDoc} {ty i : Name} : (ty, i) ∈ (Schema.ofDoc d).impls ↔ d.implements ty i := by
  unfold Schema.ofDoc SDoc.implements
  simp only [(sortBy_perm _ _).mem_iff, List.mem_flatMap]
  constructor
  · rintro ⟨t, ht, h⟩
    refine ⟨t, ht, ?_⟩
    unfold typeImpls at h
    cases hk : t.kind <;> rw [hk] at h <;> simp at h <;> simp [h]
  · rintro ⟨t, ht, rfl, hk, hi⟩
    refine ⟨t, ht, ?_⟩
    unfold typeImpls
    rcases hk with hk | hk <;> simp [hk, hi]

/-- C55. Removing an object type is an error exactly if an operation has an inline fragment on it where one
of its interfaces is expected, or it is a root type and one of its fields is selected. -/
theorem C55_remove_object_type (hs : src.Valid) (hok : RecordedOk src ops) (hr : Result src ops u) (ty : Name) :
    let breaks := (∃ i, src.implements ty i ∧ used ops (· == .inlineOn i ty) = true) ∨
      ((ty = src.query ∨ ty = src.mutation ∨ ty = src.subscription) ∧
        ∃ f, (src.fieldDef ty f).isSome ∧ used ops (· == .field ty f) = true)
    (breaks → removeObjectType (params src tgt u) ty = some (some .error)) ∧
    (¬ breaks → removeObjectType (params src tgt u) ty = some none) := by
  intro breaks
  have e1 : (params src tgt u).source = Schema.ofDoc src := rfl
  have a1 : (((params src tgt u).source.iterInterfaceImplementations ty).any
      fun i => (params src tgt u).usage.condUsed (i, ty)) = true ↔
      ∃ i, src.implements ty i ∧ used ops (· == .inlineOn i ty) = true := by
    rw [List.any_eq_true]
    constructor
    · rintro ⟨i, hi, hc⟩
      refine ⟨i, mem_impls.1 (iterImpls_mem.1 hi), ?_⟩
      have := C32_condition_counts_partial hs hok hr i ty
      unfold params Usage.provider at hc
      simp only [this] at hc
      cases hu : used ops (· == .inlineOn i ty)
      · rw [hu] at hc; cases hc
      · rfl
    · rintro ⟨i, hi, hu⟩
      refine ⟨i, iterImpls_mem.2 (mem_impls.2 hi), ?_⟩
      have := C32_condition_counts_partial hs hok hr i ty
      unfold params Usage.provider
      simp only [this, hu]
      rfl
  have a2 : (((params src tgt u).source.iterFields ty).any
      fun f => (params src tgt u).fieldIsUsed ty f.name) = true ↔
      ∃ f, (src.fieldDef ty f).isSome ∧ used ops (· == .field ty f) = true := by
    rw [List.any_eq_true]
    constructor
    · rintro ⟨f, hf, hc⟩
      obtain ⟨hm, rfl⟩ := iterFields_mem.1 hf
      obtain ⟨fd, h1, h2⟩ := (field_mem_iff hs).1 hm
      have hd : (src.fieldDef f.ty f.name).isSome := by rw [h1]; rfl
      rw [fieldIsUsed_eq hs hok hr hd] at hc
      exact ⟨f.name, hd, hc⟩
    · rintro ⟨f, hd, hu⟩
      obtain ⟨fd, hfd⟩ := Option.isSome_iff_exists.1 hd
      obtain ⟨i, hi, he⟩ := findField_def hs hfd
      obtain ⟨_, _, _, hn⟩ := fieldDef_some hfd
      refine ⟨fieldEntry ty fd, iterFields_mem.2 ⟨List.mem_of_getElem? he, rfl⟩, ?_⟩
      show (params src tgt u).fieldIsUsed ty fd.name = true
      rw [hn, fieldIsUsed_eq hs hok hr hd]
      exact hu
  unfold removeObjectType
  by_cases c1 : (((params src tgt u).source.iterInterfaceImplementations ty).any
      fun i => (params src tgt u).usage.condUsed (i, ty)) = true
  · rw [if_pos c1]
    exact ⟨fun _ => rfl, fun h => absurd (Or.inl (a1.1 c1)) h⟩
  · rw [if_neg c1]
    have n1 : ¬ ∃ i, src.implements ty i ∧ used ops (· == .inlineOn i ty) = true := fun h => c1 (a1.2 h)
    by_cases c2 : ty ≠ (params src tgt u).source.query ∧ ty ≠ (params src tgt u).source.mutation ∧
        ty ≠ (params src tgt u).source.subscription
    · rw [if_pos c2]
      refine ⟨?_, fun _ => rfl⟩
      rintro (h | ⟨h | h | h, _⟩)
      · exact absurd h n1
      · exact absurd h c2.1
      · exact absurd h c2.2.1
      · exact absurd h c2.2.2
    · rw [if_neg c2]
      have hroot : ty = src.query ∨ ty = src.mutation ∨ ty = src.subscription := by
        by_cases x : ty = src.query
        · exact Or.inl x
        · by_cases y : ty = src.mutation
          · exact Or.inr (Or.inl y)
          · exact Or.inr (Or.inr (Classical.byContradiction fun z => c2 ⟨x, y, z⟩))
      by_cases c3 : (((params src tgt u).source.iterFields ty).any
          fun f => (params src tgt u).fieldIsUsed ty f.name) = true
      · rw [if_pos c3]
        exact ⟨fun _ => rfl, fun h => absurd (Or.inr ⟨hroot, a2.1 c3⟩) h⟩
      · rw [if_neg c3]
        refine ⟨?_, fun _ => rfl⟩
        rintro (h | ⟨_, h⟩)
        · exact absurd h n1
        · exact absurd (a2.2 h) c3

/-! ## C31: changes of arguments -/

/-- C31. Removing an argument of an object type is an error exactly if an operation provides it. MISSING for
the full property: arguments of interface fields (`C31_interface_argument_missed`). -/
theorem C31_remove_argument_partial (hs : src.Valid) (hok : RecordedOk src ops) (hr : Result src ops u)
    {ty f a : Name} (hdef : (src.argDef ty f a).isSome) (ho : src.isObject ty = true) :
    removeFieldArgument (params src tgt u) ty f a =
      some (if used ops (· == .arg ty f a) then some .error else none) := by
  unfold removeFieldArgument
  rw [argumentIsUsed_eq hs hok hr hdef, ho, Bool.true_and]

/-- C31. Adding an argument to an object type is an error exactly if an operation selects the field and the
argument is required without a default. MISSING: interface fields, for which the rule panics
(`C31_interface_argument_panics`). -/
theorem C31_add_argument_partial (hs : src.Valid) (ht : tgt.Valid) (hok : RecordedOk src ops) (hr : Result src ops u)
    {ty f a : Name} {ad : ArgDef} (hf : (src.fieldDef ty f).isSome) (hdef : tgt.argDef ty f a = some ad)
    (ho : tgt.isObject ty = true) :
    addFieldArgument (params src tgt u) ty f a =
      some (if used ops (· == .field ty f) ∧ ad.ty.toGType.required = true ∧ ad.hasDefault = false then some .error
        else none) := by
  obtain ⟨i, hi, hai⟩ := findArgument_def ht hdef ho
  have e2 : (params src tgt u).target = Schema.ofDoc tgt := rfl
  unfold addFieldArgument
  rw [fieldIsUsed_eq hs hok hr hf, e2, hi]
  simp only
  rw [hai]
  simp only [Arg.isRequiredWithoutDefault, Arg.isRequired, argEntry, C04_required]
  cases used ops (· == .field ty f) <;> cases ad.ty.toGType.required <;> cases ad.hasDefault <;> rfl

/-- C31. Removing the default of an argument is an error exactly if an operation leaves the argument out.
MISSING: fields whose arguments are hidden (`C32_left_out_hidden`). -/
theorem C31_remove_default_partial (hs : src.Valid) (hok : RecordedOk src ops) (hr : Result src ops u)
    {ty f a : Name} (hdef : (src.argDef ty f a).isSome) (ho : src.isObject ty = true)
    (hu : Unhidden (Schema.ofDoc src) ty f) :
    removeFieldArgumentDefault (params src tgt u) ty f a =
      some (if used ops (· == .leftOut ty f a) then some .error else none) := by
  have h := C32_left_out_partial hs hok hr hdef ho hu
  obtain ⟨ad, had⟩ := Option.isSome_iff_exists.1 hdef
  obtain ⟨i, hi, _⟩ := findArgument_def hs had ho
  unfold leftOutCount at h
  rw [hi, Option.bind_some] at h
  unfold removeFieldArgumentDefault Params.argumentIsLeftOut params Usage.provider
  simp only [hi, h]
  cases used ops (· == .leftOut ty f a) <;> rfl

/-- C31. When the argument has the same position in the tables of the two schemas, a change of its type is
an error exactly if an operation selects the field and: it provides the argument and the new type is
another one or neither type includes the other; or the new type rejects null where the old one did
not, and there is no default. It never panics.
MISSING: arguments at other positions, which are compared with an unrelated argument
(`C31_other_position_missed`, `C31_other_position_spurious`) or panic (`C31_other_position_panics`);
an argument that becomes required while its type also changes (`C31_required_and_changed_missed`);
inner nulls rejected by a type with a default (`C31_inner_null_missed`). -/
theorem C31_change_type_partial (hs : src.Valid) (ht : tgt.Valid) (hok : RecordedOk src ops) (hr : Result src ops u)
    {ty f x : Name} {a b : ArgDef} (ha : src.argDef ty f x = some a) (hb : tgt.argDef ty f x = some b)
    (hos : src.isObject ty = true) (hot : tgt.isObject ty = true)
    (hda : a.ty.toGType.depth ≤ 57) (hdb : b.ty.toGType.depth ≤ 57)
    (hpos : (Schema.ofDoc src).findArgument (ty, f, x) = (Schema.ofDoc tgt).findArgument (ty, f, x)) :
    let breaks := used ops (· == .field ty f) = true ∧
      ((a.base ≠ b.base ∨ (Within a.ty b.ty ↔ Within b.ty a.ty)) ∧ used ops (· == .arg ty f x) = true ∨
        a.base = b.base ∧ ¬ Within a.ty b.ty ∧ Within b.ty a.ty ∧ b.hasDefault = false)
    (breaks → changeFieldArgumentType (params src tgt u) ty f x = some (some .error)) ∧
    (¬ breaks → changeFieldArgumentType (params src tgt u) ty f x = some none) := by
  intro breaks
  have hf : (src.fieldDef ty f).isSome := by
    obtain ⟨fd, h, _⟩ := argDef_some ha
    rw [h]; rfl
  obtain ⟨i, hi, hai⟩ := findArgument_def hs ha hos
  obtain ⟨j, hj, haj⟩ := findArgument_def ht hb hot
  rw [hi, hj] at hpos
  cases hpos
  have e1 : (params src tgt u).source = Schema.ofDoc src := rfl
  have e2 : (params src tgt u).target = Schema.ofDoc tgt := rfl
  have he : changeFieldArgumentType (params src tgt u) ty f x =
      if !used ops (· == .field ty f) then some none
      else if a.base ≠ b.base then some (if used ops (· == .arg ty f x) then some .error else none)
      else match (extractType a.ty).compare (extractType b.ty) with
        | .removedNonNull => some none
        | .addedNonNull => some (if b.hasDefault then none else some .error)
        | .noChange | .notCompatible => some (if used ops (· == .arg ty f x) then some .error else none) := by
    unfold changeFieldArgumentType changedArg
    rw [fieldIsUsed_eq hs hok hr hf, argumentIsUsed_eq hs hok hr (by rw [ha]; rfl), hos, e1, e2, hi]
    simp only [hai, haj, Bool.true_and]
    rfl
  rw [he]
  show (breaks → _) ∧ (¬ breaks → _)
  cases hu : used ops (· == .field ty f) with
  | false => simp [breaks, hu]
  | true =>
    by_cases hbase : a.base = b.base
    · rcases compare_cases hda hdb with ⟨p, q, hc⟩ | ⟨p, q, hc⟩ | ⟨p, q, hc⟩ | ⟨p, q, hc⟩ <;>
        cases hua : used ops (· == .arg ty f x) <;> cases hd : b.hasDefault <;>
        simp [breaks, hu, hua, hbase, hc, p, q, hd]
    · cases hua : used ops (· == .arg ty f x) <;> simp [breaks, hu, hua, hbase]

/-- The arguments of object types. -/
def SDoc.hasArg (d : SDoc) (ty f a : Name) : Prop := d.isObject ty = true ∧ (d.argDef ty f a).isSome

theorem mem_keys {d : SDoc} (hv : d.Valid) {k : Name × Name × Name} :
    k ∈ (Schema.ofDoc d).args.map Arg.key ↔ d.hasArg k.1 k.2.1 k.2.2 := by
  rw [List.mem_map]
  constructor
  · rintro ⟨a, ha, rfl⟩
    obtain ⟨h1, ad, h2, _⟩ := (arg_mem_iff hv).1 ha
    exact ⟨h1, by simp only [Arg.key]; rw [h2]; rfl⟩
  · rintro ⟨h1, h2⟩
    obtain ⟨ad, had⟩ := Option.isSome_iff_exists.1 h2
    obtain ⟨i, _, hi⟩ := findArgument_def hv had h1
    obtain ⟨_, _, _, hn⟩ := argDef_some had
    exact ⟨_, List.mem_of_getElem? hi, by simp [Arg.key, argEntry, hn]⟩

theorem cmp3_antisymm {a b : Name × Name × Name} (h1 : (cmp3 a b).isLE = true) (h2 : (cmp3 b a).isLE = true) :
    a = b := by
  rw [cmp3_le] at h1 h2
  obtain ⟨a1, a2, a3⟩ := a
  obtain ⟨b1, b2, b3⟩ := b
  simp only at h1 h2
  unfold Name at *
  have e1 : a1 = b1 := by omega
  have e2 : a2 = b2 := by omega
  have e3 : a3 = b3 := by omega
  rw [e1, e2, e3]

/-- Two schemas with the same arguments give each argument the same position. -/
theorem same_position (hs : src.Valid) (ht : tgt.Valid) (h : ∀ ty f a, src.hasArg ty f a ↔ tgt.hasArg ty f a)
    {k : Name × Name × Name} (hk : src.hasArg k.1 k.2.1 k.2.2) :
    (Schema.ofDoc src).findArgument k = (Schema.ofDoc tgt).findArgument k := by
  have hkeys : (Schema.ofDoc src).args.map Arg.key = (Schema.ofDoc tgt).args.map Arg.key := by
    refine List.Perm.eq_of_pairwise (le := fun a b => (cmp3 a b).isLE = true) ?_ ?_ ?_ ?_
    · intro a b _ _ h1 h2
      exact cmp3_antisymm h1 h2
    · rw [List.pairwise_map]; exact ofDoc_args_sorted src
    · rw [List.pairwise_map]; exact ofDoc_args_sorted tgt
    · rw [List.perm_ext_iff_of_nodup (List.pairwise_map.2 (args_nodup hs))
        (List.pairwise_map.2 (args_nodup ht))]
      intro k
      rw [mem_keys hs, mem_keys ht]
      exact h _ _ _
  obtain ⟨ad, had⟩ := Option.isSome_iff_exists.1 hk.2
  have hk' := (h _ _ _).1 hk
  obtain ⟨bd, hbd⟩ := Option.isSome_iff_exists.1 hk'.2
  obtain ⟨i, hi, _⟩ := findArgument_def hs had hk.1
  obtain ⟨j, hj, hbj⟩ := findArgument_def ht hbd hk'.1
  obtain ⟨a, h1, h2⟩ := findArgument_some hi
  obtain ⟨b, h3, h4⟩ := findArgument_some hj
  have hb' : ((Schema.ofDoc tgt).args.map Arg.key)[i]? = some k := by
    rw [← hkeys, List.getElem?_map, h1, Option.map_some, h2]
  rw [List.getElem?_map] at hb'
  obtain ⟨c, hc, hck⟩ := Option.map_eq_some_iff.1 hb'
  have : i = j := arg_index_inj ht hc h3 (by rw [hck, h4])
  subst this
  have e1 : (k.1, k.2.1, k.2.2) = k := rfl
  rw [e1] at hi hj
  rw [hi, hj]

/-- C31. In particular this holds when no argument was added or removed anywhere in the schema. -/
theorem C31_change_type_same_arguments_partial (hs : src.Valid) (ht : tgt.Valid) (hok : RecordedOk src ops)
    (hr : Result src ops u) (hsame : ∀ ty f a, src.hasArg ty f a ↔ tgt.hasArg ty f a)
    {ty f x : Name} {a b : ArgDef} (ha : src.argDef ty f x = some a) (hb : tgt.argDef ty f x = some b)
    (hos : src.isObject ty = true) (hda : a.ty.toGType.depth ≤ 57) (hdb : b.ty.toGType.depth ≤ 57)
    (huf : used ops (· == .field ty f) = true) :
    (a.base ≠ b.base ∧ used ops (· == .arg ty f x) = true ∨
      a.base = b.base ∧ ¬ Within a.ty b.ty ∧ ¬ Within b.ty a.ty ∧ used ops (· == .arg ty f x) = true ∨
      a.base = b.base ∧ ¬ Within a.ty b.ty ∧ Within b.ty a.ty ∧ b.hasDefault = false →
        changeFieldArgumentType (params src tgt u) ty f x = some (some .error)) ∧
    (a.base = b.base ∧ Within a.ty b.ty ∧ ¬ Within b.ty a.ty →
        changeFieldArgumentType (params src tgt u) ty f x = some none) := by
  have hk : src.hasArg ty f x := ⟨hos, by rw [ha]; rfl⟩
  have hk' := (hsame _ _ _).1 hk
  obtain ⟨h1, h2⟩ := C31_change_type_partial hs ht hok hr ha hb hos hk'.1 hda hdb
    (same_position (k := (ty, f, x)) hs ht hsame hk)
  constructor
  · rintro (⟨p, q⟩ | ⟨p, q, r, t⟩ | ⟨p, q, r, t⟩)
    · exact h1 ⟨huf, Or.inl ⟨Or.inl p, q⟩⟩
    · exact h1 ⟨huf, Or.inl ⟨Or.inr ⟨fun h => absurd h q, fun h => absurd h r⟩, t⟩⟩
    · exact h1 ⟨huf, Or.inr ⟨p, q, r, t⟩⟩
  · rintro ⟨p, q, r⟩
    refine h2 ?_
    rintro ⟨_, ⟨h | h, _⟩ | ⟨_, h, _⟩⟩
    · exact h p
    · exact r (h.1 q)
    · exact h q

/-- A change for which the check does not panic. -/
def Safe (src tgt : SDoc) : Change → Prop
  | .addFieldArgument ty f a => (src.fieldDef ty f).isSome → tgt.hasArg ty f a
  | .changeFieldArgumentType ty f a =>
      (Schema.ofDoc src).findArgument (ty, f, a) = (Schema.ofDoc tgt).findArgument (ty, f, a)
  | _ => True

/-- C31. The check never crashes on a diff whose added arguments are those of object types and whose changed
arguments keep their position. MISSING: the other diffs (`C31_interface_argument_panics`,
`C31_other_position_panics`). -/
theorem C31_no_panic_partial (hs : src.Valid) (ht : tgt.Valid) (hok : RecordedOk src ops) (hr : Result src ops u)
    (diff : List Change) (hsafe : ∀ c ∈ diff, Safe src tgt c) : check (params src tgt u) diff ≠ none := by
  obtain ⟨R, hR, _⟩ := C55_used_input_types (tgt := tgt) hs hok hr
  have e1 : (params src tgt u).source = Schema.ofDoc src := rfl
  have e2 : (params src tgt u).target = Schema.ofDoc tgt := rfl
  have one : ∀ c, Safe src tgt c → checkChange (params src tgt u) c ≠ none := by
    intro c hc
    cases c with
    | removeObjectType ty =>
      show removeObjectType _ _ ≠ none
      unfold removeObjectType
      split
      · simp
      · split
        · simp
        · split <;> simp
    | removeField ty f =>
      show removeField _ _ _ ≠ none
      unfold removeField
      rw [hR, e1]
      simp only
      split
      · split
        · simp
        · split
          · simp
          · rename_i hf
            obtain ⟨x, hx, _⟩ := findField_some hf
            rw [hx]
            simp
      · split <;> simp
    | addFieldArgument ty f a =>
      show addFieldArgument _ _ _ _ ≠ none
      unfold addFieldArgument
      split
      · simp
      · rename_i hu
        have hd : (src.fieldDef ty f).isSome := by
          cases hd : src.fieldDef ty f with
          | some _ => rfl
          | none =>
            unfold Params.fieldIsUsed at hu
            rw [e1, findField_undef hs hd] at hu
            simp at hu
        obtain ⟨h1, h2⟩ := hc hd
        obtain ⟨ad, had⟩ := Option.isSome_iff_exists.1 h2
        obtain ⟨i, hi, hai⟩ := findArgument_def ht had h1
        rw [e2, hi]
        simp only
        rw [hai]
        simp
    | addField ty f =>
      show addField _ _ _ ≠ none
      unfold addField
      rw [hR, e2]
      split
      · simp
      · rename_i hf
        obtain ⟨x, hx, _⟩ := findField_some hf
        rw [hx]
        simp only
        split <;> simp
    | changeFieldArgumentType ty f a =>
      show changeFieldArgumentType _ _ _ _ ≠ none
      unfold changeFieldArgumentType
      rw [e1, e2]
      split
      · simp
      · simp only
        cases hi : (Schema.ofDoc src).findArgument (ty, f, a) with
        | none => simp
        | some i =>
          have hj : (Schema.ofDoc tgt).findArgument (ty, f, a) = some i := by
            rw [← hi]; exact hc.symm
          obtain ⟨x, hx, _⟩ := findArgument_some hi
          obtain ⟨y, hy, _⟩ := findArgument_some hj
          simp only
          rw [hx, hy]
          simp only
          split
          · simp
          · split <;> simp
    | removeFieldArgument ty f a => simp [checkChange, removeFieldArgument]
    | changeFieldType ty f =>
      show changeFieldType _ _ _ ≠ none
      unfold changeFieldType
      rw [hR, e1, e2]
      cases hi : (Schema.ofDoc src).findField ty f with
      | none => simp
      | some i =>
        cases hj : (Schema.ofDoc tgt).findField ty f with
        | none => simp
        | some j =>
          obtain ⟨x, hx, _⟩ := findField_some hi
          obtain ⟨y, hy, _⟩ := findField_some hj
          simp only
          rw [hx, hy]
          simp only
          split <;> simp
    | removeInterfaceImplementation ty i => simp [checkChange, removeInterfaceImplementation]
    | removeUnionMember ty i => simp [checkChange, removeUnionMember]
    | removeEnumValue ty i => simp [checkChange, removeEnumValue]
    | removeFieldArgumentDefault ty f i => simp [checkChange, removeFieldArgumentDefault]
    | other => simp [checkChange]
  induction diff with
  | nil => simp [check]
  | cons c rest ih =>
    have h1 := one c (hsafe c List.mem_cons_self)
    have h2 := ih fun x hx => hsafe x (List.mem_cons_of_mem _ hx)
    unfold check
    cases hc : checkChange (params src tgt u) c with
    | none => exact absurd hc h1
    | some s =>
      simp only
      cases hr : check (params src tgt u) rest with
      | none => exact absurd hr h2
      | some out => simp

end

/-- C31. A diagnostic is about a change of the diff, in the order of the diff, with the severity its rule
gives, and no change that its rule reports is left out. -/
theorem C31_reports_only_changes {p : Params} {diff : List Change} {out : List (Change × Severity)}
    (h : check p diff = some out) :
    (out.map (·.1)).Sublist diff ∧
    ∀ c s, (c, s) ∈ out ↔ c ∈ diff ∧ checkChange p c = some (some s) := by
  induction diff generalizing out with
  | nil =>
    cases h
    exact ⟨List.Sublist.refl _, by simp⟩
  | cons c rest ih =>
    unfold check at h
    cases hc : checkChange p c with
    | none => rw [hc] at h; cases h
    | some sev =>
      rw [hc] at h
      simp only at h
      cases hr : check p rest with
      | none => rw [hr] at h; cases h
      | some o =>
        rw [hr] at h
        obtain ⟨h1, h2⟩ := ih hr
        cases sev with
        | none =>
          cases h
          refine ⟨h1.cons _, fun x s => ?_⟩
          rw [h2, List.mem_cons]
          constructor
          · rintro ⟨p, q⟩; exact ⟨Or.inr p, q⟩
          · rintro ⟨rfl | p, q⟩
            · rw [hc] at q; cases q
            · exact ⟨p, q⟩
        | some v =>
          cases h
          refine ⟨h1.cons₂ _, fun x s => ?_⟩
          rw [List.mem_cons, h2, List.mem_cons, Prod.mk.injEq]
          constructor
          · rintro (⟨rfl, rfl⟩ | ⟨p, q⟩)
            · exact ⟨Or.inl rfl, hc⟩
            · exact ⟨Or.inr p, q⟩
          · rintro ⟨rfl | p, q⟩
            · rw [hc] at q; cases q; exact Or.inl ⟨rfl, rfl⟩
            · exact Or.inr ⟨p, q⟩

/-- C55. Without recorded operations everything counts as used: every removed output field is an error, and
so is every removed argument of an object type and every removed enum value or member. -/
theorem C55_assume_all_used {src : SDoc} (hs : src.Valid) (tgt : Schema) :
    (∀ ty f, ¬ src.isInput ty → (src.fieldDef ty f).isSome →
      removeField ⟨Schema.ofDoc src, tgt, assumeAllUsed⟩ ty f = some (some .error)) ∧
    (∀ ty f a, src.isObject ty = true → (src.argDef ty f a).isSome →
      removeFieldArgument ⟨Schema.ofDoc src, tgt, assumeAllUsed⟩ ty f a = some (some .error)) ∧
    (∀ e v, removeEnumValue ⟨Schema.ofDoc src, tgt, assumeAllUsed⟩ e v = some (some .error)) ∧
    (∀ x m, removeUnionMember ⟨Schema.ofDoc src, tgt, assumeAllUsed⟩ x m = some (some .error)) ∧
    (∀ t, t ∈ (findUsedInputTypes ⟨Schema.ofDoc src, tgt, assumeAllUsed⟩).getD [] ↔ src.isInput t) := by
  refine ⟨?_, ?_, fun _ _ => rfl, fun _ _ => rfl, ?_⟩
  · intro ty f hin hdef
    obtain ⟨fd, hfd⟩ := Option.isSome_iff_exists.1 hdef
    obtain ⟨i, hi, _⟩ := findField_def hs hfd
    have h1 : ty ∉ (Schema.ofDoc src).inputObjects := fun h => hin (mem_inputObjects.1 h)
    unfold removeField Params.fieldIsUsed
    simp only [h1, if_false, hi, assumeAllUsed, if_true]
  · intro ty f a ho hdef
    obtain ⟨ad, had⟩ := Option.isSome_iff_exists.1 hdef
    obtain ⟨i, hi, _⟩ := findArgument_def hs had ho
    unfold removeFieldArgument Params.argumentIsUsed
    simp only [hi, assumeAllUsed, if_true]
  · intro t
    unfold findUsedInputTypes
    simp only [assumeAllUsed, if_true, Option.getD_some]
    exact mem_inputObjects

/-! ## What is missed -/

/-- `type Query { f0(args) }`. -/
def oneField (args : List ArgDef) : SDoc := ⟨[⟨0, .object, [], [⟨0, 9, .named true, args⟩]⟩], 0, 100, 101⟩

theorem oneField_valid {args : List ArgDef} (h : (args.map (·.name)).Nodup) : (oneField args).Valid := by
  refine ⟨by simp [oneField], by simp [oneField], ?_⟩
  intro t ht f hf
  simp only [oneField, List.mem_singleton] at ht
  subst ht
  rw [List.mem_singleton] at hf
  subst hf
  exact h

theorem oneField_def (args : List ArgDef) : (oneField args).fieldDef 0 0 = some ⟨0, 9, .named true, args⟩ := rfl

/-- `{ f0 }`. -/
def select : Doc := ⟨[], .query, [], .field 0 [] .nil .nil⟩

/-- `{ f0(a1: 3) }`. -/
def provide : Doc := ⟨[], .query, [], .field 0 [⟨1, .other⟩] .nil .nil⟩

theorem select_uses (args : List ArgDef) (h : args.all (fun a => !a.hasDefault) = true) :
    Uses (oneField args) select [.field 0 0] := by
  refine ⟨_, Expands.field (us := []) (vs := []) (oneField_def args) Expands.nil Expands.nil, ?_⟩
  have : leftOutUses 0 (⟨0, 9, .named true, args⟩ : FieldDef) [] = [] := by
    unfold leftOutUses
    rw [List.map_eq_nil_iff, List.filter_eq_nil_iff]
    intro a ha
    have := List.all_eq_true.1 h a ha
    simp at this
    simp [this]
  show _ = defaultUses [] ++ (.field 0 0 :: [] ++ [] ++ leftOutUses 0 (⟨0, 9, .named true, args⟩ : FieldDef) [] ++ [])
  rw [this]
  rfl

theorem provide_uses (a : ArgDef) (hn : a.name = 1) : Uses (oneField [a]) provide [.field 0 0, .arg 0 0 1] := by
  refine ⟨_, Expands.field (us := []) (vs := []) (oneField_def [a]) Expands.nil Expands.nil, ?_⟩
  have hroot : (oneField [a]).root .query = 0 := rfl
  simp [leftOutUses, argUses, hn, defaultUses, provide, hroot]

theorem required_not_within : ¬ Within (.named true) (.named false) := by
  intro h
  have := h Val.null (by simp [AType.toGType, GType.Admits])
  simp [AType.toGType, GType.Admits] at this

/-- C31 is false: the argument `a1: Int` becomes `a1: Int!`, the operation `{ f0 }` leaves it out, and nothing
is reported, because a new optional argument `a0: Int` before it is compared instead. -/
theorem C31_other_position_missed : ∃ (src tgt : SDoc) (ops : Recorded) (u : Usage) (a b : ArgDef), src.Valid ∧ tgt.Valid ∧
    RecordedOk src ops ∧ Result src ops u ∧ src.argDef 0 0 1 = some a ∧ tgt.argDef 0 0 1 = some b ∧
    used ops (· == .field 0 0) = true ∧ a.base = b.base ∧ ¬ Within a.ty b.ty ∧ Within b.ty a.ty ∧ b.hasDefault = false ∧
    changeFieldArgumentType (params src tgt u) 0 0 1 = some none :=
  ⟨oneField [⟨1, 8, .named true, false⟩], oneField [⟨0, 8, .named true, false⟩, ⟨1, 8, .named false, false⟩],
    [(1, select, [.field 0 0])], ⟨1, [(0, 1)], [], [], [], []⟩, ⟨1, 8, .named true, false⟩, ⟨1, 8, .named false, false⟩,
    oneField_valid (by decide), oneField_valid (by decide), recorded_one (by decide) (select_uses _ rfl) (by decide),
    result_of 5 (by decide +kernel), by decide +kernel, by decide +kernel, by decide, rfl, required_not_within,
    by intro v h; cases v <;> simp_all [AType.toGType, GType.Admits], rfl, by decide +kernel⟩

/-- C31 is false: relaxing `a1: Int!` to `a1: Int` is reported, because a new argument `a0: String` before it is
compared instead. -/
theorem C31_other_position_spurious : ∃ (src tgt : SDoc) (ops : Recorded) (u : Usage) (a b : ArgDef), src.Valid ∧ tgt.Valid ∧
    RecordedOk src ops ∧ Result src ops u ∧ src.argDef 0 0 1 = some a ∧ tgt.argDef 0 0 1 = some b ∧
    a.base = b.base ∧ Within a.ty b.ty ∧
    changeFieldArgumentType (params src tgt u) 0 0 1 = some (some .error) :=
  ⟨oneField [⟨1, 8, .named false, false⟩], oneField [⟨0, 7, .named true, false⟩, ⟨1, 8, .named true, false⟩],
    [(1, provide, [.field 0 0, .arg 0 0 1])], ⟨1, [(0, 1)], [(0, 1)], [], [], []⟩, ⟨1, 8, .named false, false⟩,
    ⟨1, 8, .named true, false⟩,
    oneField_valid (by decide), oneField_valid (by decide), recorded_one (by decide) (provide_uses _ rfl) (by decide),
    result_of 5 (by decide +kernel), by decide +kernel, by decide +kernel, rfl,
    by intro v h; cases v <;> simp_all [AType.toGType, GType.Admits], by decide +kernel⟩

/-- C31 is false: `f0(a0: Int, a1: Int)` becomes `f0(a1: Int!)`, and the check panics. -/
theorem C31_other_position_panics : ∃ (src tgt : SDoc) (ops : Recorded) (u : Usage), src.Valid ∧ tgt.Valid ∧
    RecordedOk src ops ∧ Result src ops u ∧
    check (params src tgt u) [.removeFieldArgument 0 0 0, .changeFieldArgumentType 0 0 1] = none :=
  ⟨oneField [⟨0, 8, .named true, false⟩, ⟨1, 8, .named true, false⟩], oneField [⟨1, 8, .named false, false⟩],
    [(1, select, [.field 0 0])], ⟨1, [(0, 1)], [], [], [], []⟩,
    oneField_valid (by decide), oneField_valid (by decide), recorded_one (by decide) (select_uses _ rfl) (by decide),
    result_of 5 (by decide +kernel), by decide +kernel⟩

/-- C31 is false: `a1: Int` becomes `a1: String!`, the operation `{ f0 }` leaves it out, and nothing is reported. -/
theorem C31_required_and_changed_missed : ∃ (src tgt : SDoc) (ops : Recorded) (u : Usage) (b : ArgDef), src.Valid ∧ tgt.Valid ∧
    RecordedOk src ops ∧ Result src ops u ∧ tgt.argDef 0 0 1 = some b ∧ b.ty.toGType.required = true ∧ b.hasDefault = false ∧
    used ops (· == .field 0 0) = true ∧ used ops (· == .arg 0 0 1) = false ∧
    changeFieldArgumentType (params src tgt u) 0 0 1 = some none :=
  ⟨oneField [⟨1, 8, .named true, false⟩], oneField [⟨1, 7, .named false, false⟩],
    [(1, select, [.field 0 0])], ⟨1, [(0, 1)], [], [], [], []⟩, ⟨1, 7, .named false, false⟩,
    oneField_valid (by decide), oneField_valid (by decide), recorded_one (by decide) (select_uses _ rfl) (by decide),
    result_of 5 (by decide +kernel), by decide +kernel, rfl, rfl, by decide, by decide, by decide +kernel⟩

/-- C31 is false: `a1: [Int]` becomes `a1: [Int!] = []`, an operation provides the argument (perhaps with a
null inside), and nothing is reported. -/
theorem C31_inner_null_missed : ∃ (src tgt : SDoc) (ops : Recorded) (u : Usage) (a b : ArgDef), src.Valid ∧ tgt.Valid ∧
    RecordedOk src ops ∧ Result src ops u ∧ src.argDef 0 0 1 = some a ∧ tgt.argDef 0 0 1 = some b ∧
    ¬ Within a.ty b.ty ∧ used ops (· == .arg 0 0 1) = true ∧
    changeFieldArgumentType (params src tgt u) 0 0 1 = some none :=
  ⟨oneField [⟨1, 8, .list true (.named true), false⟩], oneField [⟨1, 8, .list true (.named false), true⟩],
    [(1, provide, [.field 0 0, .arg 0 0 1])], ⟨1, [(0, 1)], [(0, 1)], [], [], []⟩, ⟨1, 8, .list true (.named true), false⟩,
    ⟨1, 8, .list true (.named false), true⟩,
    oneField_valid (by decide), oneField_valid (by decide), recorded_one (by decide) (provide_uses _ rfl) (by decide),
    result_of 5 (by decide +kernel), by decide +kernel, by decide +kernel,
    by
      intro h
      have := h (Val.list [Val.null]) (by simp [AType.toGType, GType.Admits])
      simp [AType.toGType, GType.Admits] at this,
    by decide, by decide +kernel⟩

/-- C31 is false for interface fields: a provided argument is removed, and nothing is reported. -/
theorem C31_interface_argument_missed : ∃ (src tgt : SDoc) (ops : Recorded) (u : Usage), src.Valid ∧ RecordedOk src ops ∧
    Result src ops u ∧ (src.argDef 5 3 4).isSome = true ∧ used ops (· == .arg 5 3 4) = true ∧
    removeFieldArgument (params src tgt u) 5 3 4 = some none :=
  ⟨exDoc, exDoc, [(1, onInterface, [.field 0 2, .field 5 3, .arg 5 3 4, .enumValue 5 3 4 8 7])],
    ⟨1, [(2, 1), (3, 1)], [], [], [], []⟩, exDoc_valid, recorded_one (by decide) onInterface_uses (by decide),
    result_of 5 (by decide +kernel), by decide +kernel, by decide, by decide +kernel⟩

/-- C31 is false for interface fields: adding any argument to a selected one panics. -/
theorem C31_interface_argument_panics (tgt : SDoc) (ht : tgt.Valid) (a : Name) (ho : tgt.isObject 5 = false) :
    ∃ (src : SDoc) (ops : Recorded) (u : Usage), src.Valid ∧ RecordedOk src ops ∧ Result src ops u ∧
      check (params src tgt u) [.addFieldArgument 5 3 a] = none := by
  refine ⟨exDoc, [(1, onInterface, [.field 0 2, .field 5 3, .arg 5 3 4, .enumValue 5 3 4 8 7])],
    ⟨1, [(2, 1), (3, 1)], [], [], [], []⟩, exDoc_valid, recorded_one (by decide) onInterface_uses (by decide),
    result_of 5 (by decide +kernel), ?_⟩
  have hu : (params exDoc tgt ⟨1, [(2, 1), (3, 1)], [], [], [], []⟩).fieldIsUsed 5 3 = true := by
    have : (Schema.ofDoc exDoc).findField 5 3 = some 3 := by decide +kernel
    unfold Params.fieldIsUsed params
    simp only [this]
    decide
  have e2 : (params exDoc tgt ⟨1, [(2, 1), (3, 1)], [], [], [], []⟩).target = Schema.ofDoc tgt := rfl
  have h1 : addFieldArgument (params exDoc tgt ⟨1, [(2, 1), (3, 1)], [], [], [], []⟩) 5 3 a = none := by
    unfold addFieldArgument
    rw [hu, e2, findArgument_undef ht (Or.inr ho)]
    rfl
  unfold check
  show (match addFieldArgument _ 5 3 a with | none => none | some sev => _) = none
  rw [h1]

/-- C55 is false for enum values inside lists. -/
theorem C55_enum_in_list_missed : ∃ (src tgt : SDoc) (ops : Recorded) (u : Usage), src.Valid ∧ RecordedOk src ops ∧
    Result src ops u ∧ used ops (· == .enumItem 6 3 4 8 7) = true ∧ removeEnumValue (params src tgt u) 8 7 = some none :=
  ⟨exDoc, exDoc, [(1000, enumInList, [.field 0 2, .inlineOn 5 6, .field 6 3, .arg 6 3 4, .enumItem 6 3 4 8 7])],
    ⟨1000, [(2, 1000), (4, 1000)], [(2, 1000)], [], [], [((5, 6), 1)]⟩, exDoc_valid,
    recorded_one (by decide) enumInList_uses (by decide), result_of 5 (by decide +kernel), by decide, by decide +kernel⟩

/-- C55 is false for the type conditions of named fragments. -/
theorem C55_named_fragment_missed : ∃ (src tgt : SDoc) (ops : Recorded) (u : Usage), src.Valid ∧ RecordedOk src ops ∧
    Result src ops u ∧ used ops (· == .spreadOn 5 6) = true ∧
    removeInterfaceImplementation (params src tgt u) 6 5 = some none :=
  ⟨exDoc, exDoc, [(4, viaFragment, [.field 0 2, .spreadOn 5 6, .field 6 3])],
    ⟨4, [(2, 4), (4, 4)], [], [], [], []⟩, exDoc_valid,
    recorded_one (by decide) viaFragment_uses (by decide), result_of 5 (by decide +kernel), by decide, by decide +kernel⟩

/-! ## The hypotheses of the theorems can be met -/

/-- The same position: a required argument, provided, changes its type. -/
example : ∃ (src tgt : SDoc) (ops : Recorded) (u : Usage), src.Valid ∧ tgt.Valid ∧ RecordedOk src ops ∧ Result src ops u ∧
    (Schema.ofDoc src).findArgument (0, 0, 1) = (Schema.ofDoc tgt).findArgument (0, 0, 1) ∧
    changeFieldArgumentType (params src tgt u) 0 0 1 = some (some .error) :=
  ⟨oneField [⟨1, 8, .named false, false⟩], oneField [⟨1, 7, .named true, false⟩],
    [(1, provide, [.field 0 0, .arg 0 0 1])], ⟨1, [(0, 1)], [(0, 1)], [], [], []⟩,
    oneField_valid (by decide), oneField_valid (by decide), recorded_one (by decide) (provide_uses _ rfl) (by decide),
    result_of 5 (by decide +kernel), by decide +kernel, by decide +kernel⟩

/-- Arguments are not hidden when there is only one field. -/
example : Unhidden (Schema.ofDoc (oneField [⟨1, 8, .named false, true⟩])) 0 0 := by
  intro a ha
  have : a = argEntry 0 0 ⟨1, 8, .named false, true⟩ := by
    have h : (Schema.ofDoc (oneField [⟨1, 8, .named false, true⟩])).args = [argEntry 0 0 ⟨1, 8, .named false, true⟩] := by
      decide +kernel
    rw [h] at ha
    simpa using ha
  subst this
  decide

/-- Used input types: type `8` is the type of a provided argument. -/
example : InputUsed (oneField [⟨1, 8, .named false, false⟩]) [(1, provide, [.field 0 0, .arg 0 0 1])] 8 :=
  ⟨0, 0, 1, ⟨1, 8, .named false, false⟩, by decide +kernel, by decide +kernel, by decide, Reach.refl 8⟩

end Verif.OpChecks
