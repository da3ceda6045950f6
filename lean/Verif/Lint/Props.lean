import Verif.Lint.Lemmas

/-!
# C95: what the linter reports
-/
namespace Verif.Lint

/-- C95. The linter reports exactly what `Reported` says: names of objects, enums, fields, arguments, values and directives which
are not in their case, with the name they should have; prefixes and suffixes which say again what a type is, or the type of
operation of a field; and `@deprecated` without a reason on types, fields, input fields and values of enums. -/
theorem C95_reported (h : Heck) (doc : List Definition) (d : Diag) : d ∈ lint h doc ↔ Reported h doc d := by
  constructor
  · intro hd
    obtain ⟨x, hx, hd⟩ := List.mem_flatMap.1 hd
    cases x with
    | schema q m s => cases hd
    | schemaExtension q m s => cases hd
    | type t => exact reported_type h doc t (.inl hx) d hd
    | typeExtension t => exact reported_type h doc t (.inr hx) d hd
    | directive n args =>
      rcases List.mem_append.1 hd with hd | hd
      · obtain ⟨fix, rfl, hm⟩ := (mem_rename _ _ _ _ _).1 hd
        exact .directive hx hm
      · obtain ⟨a, ha, hd⟩ := List.mem_flatMap.1 hd
        obtain ⟨fix, rfl, hm⟩ := (mem_rename _ _ _ _ _).1 hd
        exact .directiveArgument hx ha hm
  · intro hr
    cases hr with
    | type ht hk hm => exact mem_lint_type ht (mem_type_name ((mem_visitName h _ _).2 (.inl ⟨hk, _, rfl, hm⟩)))
    | typePrefix ht hw hp => exact mem_lint_type ht (mem_type_name ((mem_visitName h _ _).2 (.inr (.inl ⟨_, hw, hp, rfl⟩))))
    | typeSuffix ht hw hp => exact mem_lint_type ht (mem_type_name ((mem_visitName h _ _).2 (.inr (.inr ⟨_, hw, hp, rfl⟩))))
    | typeReason ht hu =>
      exact mem_lint_type ht (List.mem_append.2 (.inl (List.mem_append.2 (.inr ((mem_deprecated _ _ _).2 ⟨rfl, hu⟩)))))
    | field ht hk hf hm =>
      exact mem_lint_type ht (mem_type_members (mem_members_field hk hf
        ((mem_visitFields h _ _ _).2 (.inl ((mem_visitField h _ _ _).2 (.inl ⟨_, rfl, hm⟩))))))
    | fieldPrefix ht hk hf hv hr =>
      exact mem_lint_type ht (mem_type_members (mem_members_field hk hf
        ((mem_visitFields h _ _ _).2 (.inl ((mem_visitField h _ _ _).2 (.inr (.inl ⟨_, _, hv, hr, rfl⟩)))))))
    | fieldSuffix ht hk hf hn hr hu =>
      exact mem_lint_type ht (mem_type_members (mem_members_field hk hf
        ((mem_visitFields h _ _ _).2 (.inl ((mem_visitField h _ _ _).2 (.inr (.inr ⟨hn, ⟨_, hr⟩, hu, rfl⟩)))))))
    | fieldReason ht hk hf hu =>
      exact mem_lint_type ht (mem_type_members (mem_members_field hk hf ((mem_visitFields h _ _ _).2 (.inr (.inr ⟨rfl, hu⟩)))))
    | argument ht hk hf ha hm =>
      exact mem_lint_type ht (mem_type_members (mem_members_field hk hf
        ((mem_visitFields h _ _ _).2 (.inr (.inl ⟨_, ha, _, rfl, hm⟩)))))
    | enumValue ht hk hv hm => exact mem_lint_type ht (mem_type_members (mem_members_enum hk ⟨_, hv, .inl ⟨_, rfl, hm⟩⟩))
    | enumValueReason ht hk hv hu => exact mem_lint_type ht (mem_type_members (mem_members_enum hk ⟨_, hv, .inr ⟨rfl, hu⟩⟩))
    | inputValue ht hk hv hm => exact mem_lint_type ht (mem_type_members (mem_members_input hk ⟨_, hv, .inl ⟨_, rfl, hm⟩⟩))
    | inputValueReason ht hk hv hu => exact mem_lint_type ht (mem_type_members (mem_members_input hk ⟨_, hv, .inr ⟨rfl, hu⟩⟩))
    | directive hx hm =>
      exact List.mem_flatMap.2 ⟨_, hx, List.mem_append.2 (.inl ((mem_rename _ _ _ _ _).2 ⟨_, rfl, hm⟩))⟩
    | directiveArgument hx ha hm =>
      exact List.mem_flatMap.2 ⟨_, hx, List.mem_append.2 (.inr (List.mem_flatMap.2 ⟨_, ha, (mem_rename _ _ _ _ _).2 ⟨_, rfl, hm⟩⟩))⟩

theorem count_rename (h : Heck) (l : Loc) (s : Str) (c : Case) (fix : Str) (hm : Misnamed h c s fix) :
    rename h l s c = [.rename l fix] := by
  obtain ⟨he, rfl, hn⟩ := hm
  have he' : isException s = false := by
    cases hx : isException s
    · rfl
    · exact absurd ((exempt_iff s).1 hx) he
  unfold rename caseCheck
  simp [he', hn]

theorem count_type (h : Heck) (t : TypeDef) (hk : t.kind = .object ∨ t.kind = .enum) {fix : Str}
    (hm : Misnamed h .pascal t.name fix) : (visitType h t).count (.rename (.type t.kind t.name) fix) = 1 := by
  have h0 : ∀ l : List Diag, (.rename (.type t.kind t.name) fix) ∉ l → l.count (.rename (.type t.kind t.name) fix) = 0 :=
    fun l hl => List.count_eq_zero.2 hl
  have hp : ∀ ps : List Str, (firstPrefix (.type t.kind t.name) t.name ps).count (.rename (.type t.kind t.name) fix) = 0 := by
    intro ps
    apply h0
    intro hd
    induction ps with
    | nil => cases hd
    | cons p ps ih =>
      unfold firstPrefix at hd
      split at hd
      · cases List.mem_singleton.1 hd
      · exact ih hd
  have hs : ∀ w : Str, (suffix (.type t.kind t.name) t.name w).count (.rename (.type t.kind t.name) fix) = 0 := by
    intro w
    apply h0
    intro hd
    cases ((mem_suffix _ _ _ _).1 hd).1
  have h1 : (visitName h t).count (.rename (.type t.kind t.name) fix) = 1 := by
    unfold visitName
    rcases hk with hk | hk
    · rw [hk] at hp hs ⊢
      simp only
      rw [List.count_append, List.count_append, hp, hs, count_rename h _ _ _ _ hm]
      simp
    · rw [hk] at hp hs ⊢
      simp only
      rw [List.count_append, List.count_append, hp, hs, count_rename h _ _ _ _ hm]
      simp
  unfold visitType
  rw [List.count_append, List.count_append, h1, h0 (t.directives.flatMap _), h0 (visitMembers h t)]
  · intro hd
    unfold visitMembers at hd
    rcases hk with hk | hk
    · simp only [hk] at hd
      obtain ⟨f, hf, hd⟩ := List.mem_flatMap.1 hd
      rw [mem_visitFields, mem_visitField] at hd
      rcases hd with (⟨fix, he, hm⟩ | ⟨v, r, hv, hr, he⟩ | ⟨hn, hr, hu, he⟩) | ⟨a, ha, fix, he, hm⟩ | ⟨he, hu⟩ <;> cases he
    · simp only [hk] at hd
      rw [mem_values h t.values (fun n => .enumValue t.name n) .shouty] at hd
      rcases hd with ⟨v, hv, ⟨fix, he, hm⟩ | ⟨he, hu⟩⟩ <;> cases he
  · intro hd
    cases ((mem_deprecated _ _ _).1 hd).1

/-- C95. The wrong name of an object or enum is reported once for its definition and once for each extension. -/
theorem C95_times (h : Heck) (k : Kind) (hk : k = .object ∨ k = .enum) (n fix : Str) (hm : Misnamed h .pascal n fix)
    (doc : List Definition) : (lint h doc).count (.rename (.type k n) fix) =
      (doc.filter (fun d : Definition => match d with
        | .type t => decide (t.kind = k ∧ t.name = n)
        | .typeExtension t => decide (t.kind = k ∧ t.name = n)
        | _ => false)).length := by
  have other : ∀ t : TypeDef, ¬ (t.kind = k ∧ t.name = n) → (visitType h t).count (.rename (.type k n) fix) = 0 := by
    intro t ht
    refine List.count_eq_zero.2 (fun hd => ?_)
    have := reported_type h [.type t] t (.inl List.mem_cons_self) _ hd
    cases this with
    | type ht' _ _ =>
      rcases ht' with ht' | ht' <;> cases List.mem_singleton.1 ht'
      exact ht ⟨rfl, rfl⟩
  have same : ∀ t : TypeDef, t.kind = k ∧ t.name = n → (visitType h t).count (.rename (.type k n) fix) = 1 := by
    rintro t ⟨rfl, rfl⟩
    exact count_type h t hk hm
  unfold lint
  induction doc with
  | nil => rfl
  | cons x doc ih =>
    rw [List.flatMap_cons, List.count_append, ih, List.filter_cons]
    cases x with
    | schema a b c => simp [visit]
    | schemaExtension a b c => simp [visit]
    | type t =>
      by_cases ht : t.kind = k ∧ t.name = n
      · simp only [visit, same t ht, ht, and_self, decide_true, if_true, List.length_cons]
        omega
      · simp only [visit, other t ht, ht, decide_false, Bool.false_eq_true, if_false]
        omega
    | typeExtension t =>
      by_cases ht : t.kind = k ∧ t.name = n
      · simp only [visit, same t ht, ht, and_self, decide_true, if_true, List.length_cons]
        omega
      · simp only [visit, other t ht, ht, decide_false, Bool.false_eq_true, if_false]
        omega
    | directive m args =>
      have : (visit h (.directive m args)).count (.rename (.type k n) fix) = 0 := by
        refine List.count_eq_zero.2 (fun hd => ?_)
        rcases List.mem_append.1 hd with hd | hd
        · obtain ⟨_, he, _⟩ := (mem_rename _ _ _ _ _).1 hd
          cases he
        · obtain ⟨a, ha, hd⟩ := List.mem_flatMap.1 hd
          obtain ⟨_, he, _⟩ := (mem_rename _ _ _ _ _).1 hd
          cases he
      simp [this]

/-- C95, false in general: a wrong name is reported once. -/
theorem C95_times_false :
    lint heck [.type ⟨.object, "a".toList, [], [], []⟩, .typeExtension ⟨.object, "a".toList, [], [], []⟩]
      = [.rename (.type .object "a".toList) "A".toList, .rename (.type .object "a".toList) "A".toList] := by decide +kernel

/-- C95, not in general. A name which is replaced as reported is not reported again, if the case of `heck` is stable there. -/
theorem C95_fix_partial (h : Heck) (c : Case) {s fix : Str} (hm : Misnamed h c s fix) (hs : h c (h c s) = h c s) (fix' : Str) :
    ¬ Misnamed h c fix fix' := by
  rintro ⟨-, rfl, hn⟩
  rw [hm.2.1] at hn
  exact hn hs

/-- C95, false in general: a name which is replaced as reported is not reported again. A type `a_b_c` should be `ABC`, and that
`Abc`; a field `a_b_c` should be `aBC`, and that `aBc`. -/
theorem C95_fix_false :
    lint heck [.type ⟨.object, "a_b_c".toList, [], [⟨"a_b_c".toList, [], []⟩], []⟩]
      = [.rename (.type .object "a_b_c".toList) "ABC".toList, .rename (.field .object "a_b_c".toList "a_b_c".toList) "aBC".toList] ∧
    lint heck [.type ⟨.object, "ABC".toList, [], [⟨"aBC".toList, [], []⟩], []⟩]
      = [.rename (.type .object "ABC".toList) "Abc".toList, .rename (.field .object "ABC".toList "aBC".toList) "aBc".toList] ∧
    lint heck [.type ⟨.object, "Abc".toList, [], [⟨"aBc".toList, [], []⟩], []⟩] = [] := by decide +kernel

/-- C95, false in general: all names and all uses of `@deprecated` are looked at. Those of interfaces, unions, scalars and input
objects have no case, arguments of fields and directives may be deprecated without a reason, and types of operations go by their
names and not by the definition of the schema. -/
theorem C95_all_false :
    lint heck [.type ⟨.interface, "a_b".toList, [], [], []⟩, .type ⟨.union, "a_b".toList, [], [], []⟩,
      .type ⟨.scalar, "a_b".toList, [], [], []⟩, .type ⟨.input, "a_b".toList, [], [], []⟩] = [] ∧
    lint heck [.type ⟨.object, "A".toList, [], [⟨"a".toList, [⟨"b".toList, [⟨"deprecated".toList, []⟩]⟩], []⟩], []⟩] = [] ∧
    lint heck [.directive "a".toList [⟨"b".toList, [⟨"deprecated".toList, []⟩]⟩]] = [] ∧
    lint heck [.schema (some "Root".toList) none none, .type ⟨.object, "Root".toList, [], [⟨"getUser".toList, [], []⟩], []⟩] = [] ∧
    lint heck [.schema (some "Root".toList) none none, .type ⟨.object, "Query".toList, [], [⟨"getUser".toList, [], []⟩], []⟩]
      = [.badPrefix (.field .object "Query".toList "getUser".toList) "get".toList] := by decide +kernel

/-- The hypotheses of the theorems are met: names with and without a convention. -/
theorem C95_case : Misnamed heck .pascal "lowercase_Enum".toList "LowercaseEnum".toList ∧ Exempt "federation__Scope".toList ∧
    Misnamed heck .shouty "anEnumMember".toList "AN_ENUM_MEMBER".toList ∧
    Misnamed heck .pascal "XMLHttpRequest".toList "XmlHttpRequest".toList ∧
    heck .pascal (heck .pascal "lowercase_Enum".toList) = heck .pascal "lowercase_Enum".toList := by
  refine ⟨⟨?_, by decide +kernel, by decide +kernel⟩, ?_, ⟨?_, by decide +kernel, by decide +kernel⟩,
    ⟨?_, by decide +kernel, by decide +kernel⟩, by decide +kernel⟩
  · rw [← exempt_iff]; decide +kernel
  · rw [← exempt_iff]; decide +kernel
  · rw [← exempt_iff]; decide +kernel
  · rw [← exempt_iff]; decide +kernel

end Verif.Lint
