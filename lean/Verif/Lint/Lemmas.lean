import Verif.Lint.Spec

namespace Verif.Lint

theorem isLetter_iff (c : Char) : isLetter c = true ↔ ('a' ≤ c ∧ c ≤ 'z') ∨ ('A' ≤ c ∧ c ≤ 'Z') := by
  simp [isLetter]

theorem exempt_iff (s : Str) : isException s = true ↔ Exempt s := by
  have key : ∀ s : Str, ((!(s.takeWhile isLetter).isEmpty && match s.dropWhile isLetter with
      | '_' :: '_' :: _ :: _ => true
      | _ => false) = true) ↔ ∃ p c r, p ≠ [] ∧ (∀ x ∈ p, ('a' ≤ x ∧ x ≤ 'z') ∨ ('A' ≤ x ∧ x ≤ 'Z')) ∧
        s = p ++ '_' :: '_' :: c :: r := by
    intro s
    constructor
    · intro h
      rw [Bool.and_eq_true] at h
      obtain ⟨h1, h2⟩ := h
      split at h2
      · rename_i c r hd
        refine ⟨s.takeWhile isLetter, c, r, ?_, ?_, ?_⟩
        · intro hn; rw [hn] at h1; cases h1
        · intro x hx
          rw [← isLetter_iff]
          exact List.all_eq_true.1 (List.all_takeWhile (p := isLetter) (l := s)) x hx
        · rw [← hd, List.takeWhile_append_dropWhile]
      · cases h2
    · rintro ⟨p, c, r, hp, hl, rfl⟩
      have hu : isLetter '_' = false := by decide
      have hl' : ∀ x ∈ p, isLetter x = true := fun x hx => (isLetter_iff x).2 (hl x hx)
      have ht : (p ++ '_' :: '_' :: c :: r).takeWhile isLetter = p := by
        rw [List.takeWhile_append_of_pos hl']; simp [hu]
      have hd : (p ++ '_' :: '_' :: c :: r).dropWhile isLetter = '_' :: '_' :: c :: r := by
        rw [List.dropWhile_append_of_pos hl']; simp [hu]
      rw [ht, hd]
      cases p with
      | nil => exact absurd rfl hp
      | cons _ _ => rfl
  unfold isException Exempt
  split
  · rename_i r
    exact ⟨fun _ => .inl ⟨r, rfl⟩, fun _ => rfl⟩
  · rename_i hn
    exact (key s).trans ⟨.inr, fun h => h.elim (fun ⟨r, hr⟩ => absurd hr (hn r)) id⟩

theorem mem_rename (h : Heck) (l : Loc) (s : Str) (c : Case) (d : Diag) :
    d ∈ rename h l s c ↔ ∃ fix, d = .rename l fix ∧ Misnamed h c s fix := by
  unfold rename caseCheck Misnamed
  by_cases he : isException s = true
  · have he' := (exempt_iff s).1 he
    simp [he, he']
  · have he' : ¬ Exempt s := fun hx => he ((exempt_iff s).2 hx)
    by_cases hc : h c s = s
    · simp [he, hc]
    · simp only [he, Bool.false_eq_true, if_false, hc, List.mem_singleton]
      constructor
      · rintro rfl
        exact ⟨_, rfl, he', rfl, hc⟩
      · rintro ⟨fix, rfl, -, rfl, -⟩
        rfl

theorem startsWith_iff (s p : Str) : startsWith s p = true ↔ ∃ r, s = p ++ r := by
  unfold startsWith
  rw [List.isPrefixOf_iff_prefix]
  exact ⟨fun ⟨r, h⟩ => ⟨r, h.symm⟩, fun ⟨r, h⟩ => ⟨r, h.symm⟩⟩

theorem endsWith_iff (s p : Str) : endsWith s p = true ↔ ∃ r, s = r ++ p := by
  unfold endsWith
  rw [List.isSuffixOf_iff_suffix]
  exact ⟨fun ⟨r, h⟩ => ⟨r, h.symm⟩, fun ⟨r, h⟩ => ⟨r, h.symm⟩⟩

theorem mem_firstPrefix (l : Loc) (s : Str) (d : Diag) : ∀ ps : List Str,
    ps.Pairwise (fun p q => ¬ p <+: q ∧ ¬ q <+: p) →
    (d ∈ firstPrefix l s ps ↔ ∃ p, p ∈ ps ∧ d = .badPrefix l p ∧ ∃ r, s = p ++ r)
  | [], _ => by simp [firstPrefix]
  | p :: ps, hp => by
    obtain ⟨h1, h2⟩ := List.pairwise_cons.1 hp
    unfold firstPrefix
    by_cases hs : startsWith s p = true
    · rw [if_pos hs]
      obtain ⟨r, hr⟩ := (startsWith_iff s p).1 hs
      rw [List.mem_singleton]
      constructor
      · rintro rfl
        exact ⟨p, List.mem_cons_self, rfl, r, hr⟩
      · rintro ⟨q, hq, rfl, r', hr'⟩
        rcases List.mem_cons.1 hq with rfl | hq
        · rfl
        · exfalso
          rcases List.prefix_or_prefix_of_prefix ⟨r, hr.symm⟩ ⟨r', hr'.symm⟩ with h | h
          · exact (h1 q hq).1 h
          · exact (h1 q hq).2 h
    · rw [if_neg hs, mem_firstPrefix l s d ps h2]
      constructor
      · rintro ⟨q, hq, h⟩
        exact ⟨q, List.mem_cons_of_mem _ hq, h⟩
      · rintro ⟨q, hq, rfl, hr⟩
        rcases List.mem_cons.1 hq with rfl | hq
        · exact absurd ((startsWith_iff s q).2 hr) hs
        · exact ⟨q, hq, rfl, hr⟩

theorem mem_suffix (l : Loc) (s p : Str) (d : Diag) : d ∈ suffix l s p ↔ d = .badSuffix l p ∧ ∃ r, s = r ++ p := by
  unfold suffix
  by_cases h : endsWith s p = true
  · rw [if_pos h, List.mem_singleton]
    exact ⟨fun hd => ⟨hd, (endsWith_iff s p).1 h⟩, fun hd => hd.1⟩
  · rw [if_neg h]
    exact ⟨(by intro hd; cases hd), fun hd => absurd ((endsWith_iff s p).2 hd.2) h⟩

theorem mem_deprecated (l : Loc) (ds : List DirectiveUse) (d : Diag) :
    d ∈ ds.flatMap (deprecated l) ↔ d = .noReason l ∧ Unexplained ds := by
  rw [List.mem_flatMap]
  unfold Unexplained deprecated
  constructor
  · rintro ⟨u, hu, hd⟩
    split at hd
    · rename_i h
      refine ⟨List.mem_singleton.1 hd, u, hu, h.1, fun hm => ?_⟩
      have := List.all_eq_true.1 h.2 _ hm
      simp at this
    · cases hd
  · rintro ⟨rfl, u, hu, h1, h2⟩
    refine ⟨u, hu, ?_⟩
    have ha : u.args.all (· != "reason".toList) = true := by
      refine List.all_eq_true.2 (fun x hx => ?_)
      rw [bne_iff_ne]
      rintro rfl
      exact h2 hx
    rw [if_pos ⟨h1, ha⟩]
    exact List.mem_singleton.2 rfl

theorem mem_words (l : Loc) (s w : Str) (vs : List String) (d : Diag)
    (hp : (vs.map String.toList).Pairwise (fun p q => ¬ p <+: q ∧ ¬ q <+: p)) :
    d ∈ firstPrefix l s (vs.map String.toList) ++ suffix l s w ↔
      (∃ v r, v ∈ vs ∧ s = v.toList ++ r ∧ d = .badPrefix l v.toList) ∨ ((∃ r, s = r ++ w) ∧ d = .badSuffix l w) := by
  rw [List.mem_append, mem_firstPrefix _ _ _ _ hp, mem_suffix]
  constructor
  · rintro (⟨p, hp, rfl, r, hr⟩ | ⟨rfl, hr⟩)
    · obtain ⟨v, hv, rfl⟩ := List.mem_map.1 hp
      exact .inl ⟨v, r, hv, hr, rfl⟩
    · exact .inr ⟨hr, rfl⟩
  · rintro (⟨v, r, hv, hr, rfl⟩ | ⟨hr, rfl⟩)
    · exact .inl ⟨_, List.mem_map.2 ⟨v, hv, rfl⟩, rfl, r, hr⟩
    · exact .inr ⟨rfl, hr⟩

theorem mem_visitField (h : Heck) (t : TypeDef) (f : Field) (d : Diag) :
    d ∈ visitField h t f ↔
      (∃ fix, d = .rename (.field t.kind t.name f.name) fix ∧ Misnamed h .camel f.name fix) ∨
      (∃ v r, v ∈ verbs t.name ∧ f.name = v.toList ++ r ∧ d = .badPrefix (.field t.kind t.name f.name) v.toList) ∨
      ((t.name = "Query".toList ∨ t.name = "Mutation".toList ∨ t.name = "Subscription".toList) ∧
        (∃ r, f.name = r ++ t.name) ∧ (¬ ∃ r, f.name = '_' :: '_' :: r) ∧ d = .badSuffix (.field t.kind t.name f.name) t.name) := by
  have hverb : ∀ v ∈ verbs t.name, ∀ r r', v.toList ++ r ≠ '_' :: '_' :: r' := by
    intro v hv r r' he
    unfold verbs at hv
    split at hv
    · simp only [List.mem_cons, List.not_mem_nil, or_false] at hv
      rcases hv with rfl | rfl | rfl <;> cases he
    · split at hv
      · simp only [List.mem_cons, List.not_mem_nil, or_false] at hv
        rcases hv with rfl | rfl | rfl | rfl <;> cases he
      · split at hv
        · simp only [List.mem_cons, List.not_mem_nil, or_false] at hv
          rcases hv with rfl <;> cases he
        · cases hv
  unfold visitField
  simp only
  by_cases hs : startsWith f.name ['_', '_'] = true
  · rw [if_pos hs]
    obtain ⟨r, hr⟩ := (startsWith_iff _ _).1 hs
    constructor
    · intro hd; cases hd
    · rintro (⟨fix, -, hm, -⟩ | ⟨v, r', hv, he, -⟩ | ⟨-, -, hn, -⟩)
      · exact absurd (.inl ⟨_, hr⟩) hm
      · exact absurd (he.symm.trans hr) (hverb v hv r' r)
      · exact absurd ⟨r, hr⟩ hn
  · rw [if_neg hs]
    have hn : ¬ ∃ r, f.name = '_' :: '_' :: r := fun hx => hs ((startsWith_iff _ _).2 hx)
    rw [List.mem_append, mem_rename]
    refine or_congr Iff.rfl ?_
    unfold verbs
    by_cases hq : t.name = "Query".toList
    · simp only [if_pos hq]
      refine (mem_words _ f.name _ ["query", "get", "list"] d (by decide)).trans (or_congr Iff.rfl ?_)
      rw [hq]
      exact ⟨fun ⟨hr, hd⟩ => ⟨.inl rfl, hr, hn, hd⟩, fun ⟨_, hr, _, hd⟩ => ⟨hr, hd⟩⟩
    · simp only [if_neg hq]
      by_cases hm : t.name = "Mutation".toList
      · simp only [if_pos hm]
        refine (mem_words _ f.name _ ["mutation", "put", "post", "patch"] d (by decide)).trans (or_congr Iff.rfl ?_)
        rw [hm]
        exact ⟨fun ⟨hr, hd⟩ => ⟨.inr (.inl rfl), hr, hn, hd⟩, fun ⟨_, hr, _, hd⟩ => ⟨hr, hd⟩⟩
      · simp only [if_neg hm]
        by_cases hb : t.name = "Subscription".toList
        · simp only [if_pos hb]
          refine (mem_words _ f.name _ ["subscription"] d (by decide)).trans (or_congr Iff.rfl ?_)
          rw [hb]
          exact ⟨fun ⟨hr, hd⟩ => ⟨.inr (.inr rfl), hr, hn, hd⟩, fun ⟨_, hr, _, hd⟩ => ⟨hr, hd⟩⟩
        · simp only [if_neg hb]
          constructor
          · intro hd; cases hd
          · rintro (⟨v, r, hv, -⟩ | ⟨h, -⟩)
            · cases hv
            · rcases h with h | h | h
              · exact absurd h hq
              · exact absurd h hm
              · exact absurd h hb

theorem mem_visitName (h : Heck) (t : TypeDef) (d : Diag) :
    d ∈ visitName h t ↔
      ((t.kind = .object ∨ t.kind = .enum) ∧ ∃ fix, d = .rename (.type t.kind t.name) fix ∧ Misnamed h .pascal t.name fix) ∨
      (∃ w, kindWord t.kind = some w ∧ (∃ r, t.name = w ++ r) ∧ d = .badPrefix (.type t.kind t.name) w) ∨
      (∃ w, kindWord t.kind = some w ∧ (∃ r, t.name = r ++ w) ∧ d = .badSuffix (.type t.kind t.name) w) := by
  unfold visitName kindWord
  cases hk : t.kind <;> simp only
  · simp
  · rw [List.mem_append, List.mem_append, mem_rename, mem_firstPrefix _ _ _ _ (by simp), mem_suffix]
    simp [and_comm, or_assoc]
  · rw [List.mem_append, mem_firstPrefix _ _ _ _ (by simp), mem_suffix]
    simp [and_comm]
  · rw [List.mem_append, mem_firstPrefix _ _ _ _ (by simp), mem_suffix]
    simp [and_comm]
  · rw [List.mem_append, List.mem_append, mem_rename, mem_firstPrefix _ _ _ _ (by simp), mem_suffix]
    simp [and_comm, or_assoc]
  · simp

theorem mem_visitFields (h : Heck) (t : TypeDef) (f : Field) (d : Diag) :
    d ∈ visitFields h t f ↔ d ∈ visitField h t f ∨
      (∃ a ∈ f.args, ∃ fix, d = .rename (.argument t.kind t.name f.name a.name) fix ∧ Misnamed h .camel a.name fix) ∨
      (d = .noReason (.field t.kind t.name f.name) ∧ Unexplained f.directives) := by
  unfold visitFields
  rw [List.mem_append, List.mem_append, mem_deprecated, List.mem_flatMap, or_assoc]
  simp only [mem_rename]

theorem mem_values (h : Heck) (vs : List Value) (l : Str → Loc) (c : Case) (d : Diag) :
    d ∈ vs.flatMap (fun v => rename h (l v.name) v.name c ++ v.directives.flatMap (deprecated (l v.name))) ↔
      ∃ v ∈ vs, (∃ fix, d = .rename (l v.name) fix ∧ Misnamed h c v.name fix) ∨
        (d = .noReason (l v.name) ∧ Unexplained v.directives) := by
  rw [List.mem_flatMap]
  simp only [List.mem_append, mem_rename, mem_deprecated]

theorem reported_type (h : Heck) (doc : List Definition) (t : TypeDef) (ht : Holds doc t) (d : Diag) (hd : d ∈ visitType h t) :
    Reported h doc d := by
  unfold visitType at hd
  rw [List.mem_append, List.mem_append, mem_visitName, mem_deprecated] at hd
  have fields : ∀ f ∈ t.fields, HasFields t.kind → d ∈ visitFields h t f → Reported h doc d := by
    intro f hf hk hd
    rw [mem_visitFields, mem_visitField] at hd
    rcases hd with (⟨fix, rfl, hm⟩ | ⟨v, r, hv, hr, rfl⟩ | ⟨hn, ⟨r, hr⟩, hu, rfl⟩) | ⟨a, ha, fix, rfl, hm⟩ | ⟨rfl, hu⟩
    · exact .field ht hk hf hm
    · exact .fieldPrefix ht hk hf hv hr
    · exact .fieldSuffix ht hk hf hn hr hu
    · exact .argument ht hk hf ha hm
    · exact .fieldReason ht hk hf hu
  rcases hd with ((⟨hk, fix, rfl, hm⟩ | ⟨w, hw, hp, rfl⟩ | ⟨w, hw, hp, rfl⟩) | ⟨rfl, hu⟩) | hd
  · exact .type ht hk hm
  · exact .typePrefix ht hw hp
  · exact .typeSuffix ht hw hp
  · exact .typeReason ht hu
  · unfold visitMembers at hd
    cases hk : t.kind <;> simp only [hk] at hd
    · cases hd
    · obtain ⟨f, hf, hd⟩ := List.mem_flatMap.1 hd
      exact fields f hf (.inl hk) hd
    · obtain ⟨f, hf, hd⟩ := List.mem_flatMap.1 hd
      exact fields f hf (.inr hk) hd
    · cases hd
    · rw [mem_values h t.values (fun n => .enumValue t.name n) .shouty] at hd
      rcases hd with ⟨v, hv, ⟨fix, rfl, hm⟩ | ⟨rfl, hu⟩⟩
      · exact .enumValue ht hk hv hm
      · exact .enumValueReason ht hk hv hu
    · rw [mem_values h t.values (fun n => .inputValue t.name n) .camel] at hd
      rcases hd with ⟨v, hv, ⟨fix, rfl, hm⟩ | ⟨rfl, hu⟩⟩
      · exact .inputValue ht hk hv hm
      · exact .inputValueReason ht hk hv hu

theorem mem_lint_type {h : Heck} {doc : List Definition} {t : TypeDef} (ht : Holds doc t) {d : Diag} (hd : d ∈ visitType h t) :
    d ∈ lint h doc := by
  rcases ht with ht | ht
  · exact List.mem_flatMap.2 ⟨_, ht, hd⟩
  · exact List.mem_flatMap.2 ⟨_, ht, hd⟩

theorem mem_type_members {h : Heck} {t : TypeDef} {d : Diag} (hd : d ∈ visitMembers h t) : d ∈ visitType h t :=
  List.mem_append.2 (.inr hd)

theorem mem_type_name {h : Heck} {t : TypeDef} {d : Diag} (hd : d ∈ visitName h t) : d ∈ visitType h t :=
  List.mem_append.2 (.inl (List.mem_append.2 (.inl hd)))

theorem mem_members_field {h : Heck} {t : TypeDef} {f : Field} (hk : HasFields t.kind) (hf : f ∈ t.fields) {d : Diag}
    (hd : d ∈ visitFields h t f) : d ∈ visitMembers h t := by
  unfold visitMembers
  rcases hk with hk | hk <;> simp only [hk] <;> exact List.mem_flatMap.2 ⟨f, hf, hd⟩

theorem mem_members_enum {h : Heck} {t : TypeDef} (hk : t.kind = .enum) {d : Diag}
    (hd : ∃ v ∈ t.values, (∃ fix, d = .rename (.enumValue t.name v.name) fix ∧ Misnamed h .shouty v.name fix) ∨
        (d = .noReason (.enumValue t.name v.name) ∧ Unexplained v.directives)) : d ∈ visitMembers h t := by
  unfold visitMembers
  simp only [hk]
  exact (mem_values h t.values (fun n => .enumValue t.name n) .shouty d).2 hd

theorem mem_members_input {h : Heck} {t : TypeDef} (hk : t.kind = .input) {d : Diag}
    (hd : ∃ v ∈ t.values, (∃ fix, d = .rename (.inputValue t.name v.name) fix ∧ Misnamed h .camel v.name fix) ∨
        (d = .noReason (.inputValue t.name v.name) ∧ Unexplained v.directives)) : d ∈ visitMembers h t := by
  unfold visitMembers
  simp only [hk]
  exact (mem_values h t.values (fun n => .inputValue t.name n) .camel d).2 hd

end Verif.Lint
