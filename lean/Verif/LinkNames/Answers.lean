import Verif.LinkNames.Read

namespace Verif.LinkNames

/-! ## Prefixes -/

theorem namespace_iff (parse : Text → Option Url) (i : Nat) (l : Link) (p : Text) :
    (schemaOf parse i l).namespace = some p ↔ Prefix parse l p := by
  unfold Prefix
  show l.as.or ((urlOf parse l).bind linkName) = some p ↔ _
  cases has : l.as with
  | some a => simp
  | none =>
    simp only [Option.none_or, reduceCtorEq, false_or, true_and]
    rw [Option.bind_eq_some_iff]
    unfold urlOf
    constructor
    · rintro ⟨u, hu, hn⟩
      rw [Option.filter_eq_some_iff] at hu
      exact ⟨u, hu.1, (linkName_iff u p).mp hn⟩
    · rintro ⟨u, hu, hn⟩
      refine ⟨u, ?_, (linkName_iff u p).mpr hn⟩
      rw [Option.filter_eq_some_iff]
      obtain ⟨ss, hs, _⟩ := hn
      exact ⟨hu, by rw [hs]; rfl⟩

theorem lookNs_some {parse : Text → Option Url} {d : Doc} {i : Nat} {st : St} (ha : About parse d i st) {p : Text} {l : Link}
    (h : LinkedAs parse d p l) : lookNs st i p = some (schemaOf parse i l) := by
  rw [ha.ns, lastBy_some]
  obtain ⟨before, after, e, hp, hafter⟩ := h
  refine Or.inl ⟨before, l, after, e, if_pos ((namespace_iff parse i l p).mpr hp), fun k hk => if_neg ?_⟩
  rw [namespace_iff]
  exact hafter k hk

theorem lookNs_none {parse : Text → Option Url} {d : Doc} {i : Nat} {st : St} (ha : About parse d i st) {p : Text}
    (h : ∀ l ∈ d.links, ¬ Prefix parse l p) : lookNs st i p = none := by
  rw [ha.ns, lastBy_none]
  refine ⟨fun l hl => if_neg ?_, rfl⟩
  rw [namespace_iff]
  exact h l hl

/-! ## Specifications -/

theorem fedOfUrl_v2 {u : Text} (h : (∃ a b, u = a ++ "dev/federation/v2".toList ++ b) → federationUrl u = true) :
    fedOfUrl u = some .v2 ↔ federationUrl u = true := by
  unfold fedOfUrl
  by_cases hc : contains "dev/federation/v2".toList u = true
  · rw [if_pos hc]
    exact ⟨fun _ => h ((contains_iff _ _).mp hc), fun _ => rfl⟩
  · rw [if_neg hc]
    constructor
    · intro h'
      split at h' <;> simp at h'
    · intro h'
      exact absurd (contains_of_federationUrl h') hc

theorem fedOfUrl_composite (u : Text) : fedOfUrl u = some .composite ↔ u = compositeUrl := by
  unfold fedOfUrl
  constructor
  · intro h
    split at h
    · cases h
    · split at h
      · rename_i e; exact e
      · cases h
  · rintro rfl
    rw [if_neg (by decide), if_pos (show compositeUrl = "https://specs.grafbase.com/composite-schemas/v1".toList from rfl)]

theorem interp_eq {u : Text} (h : (∃ a b, u = a ++ "dev/federation/v2".toList ++ b) → federationUrl u = true) (o : Text) :
    interp u o = schemaDirective u o := by
  unfold interp schemaDirective
  by_cases h2 : federationUrl u = true
  · rw [if_pos h2, (fedOfUrl_v2 h).mpr h2]
  · rw [if_neg h2]
    by_cases h3 : u = compositeUrl
    · rw [if_pos h3, (fedOfUrl_composite u).mpr h3]
    · rw [if_neg h3]
      cases hf : fedOfUrl u with
      | none => rfl
      | some f =>
        cases f with
        | v1 => rfl
        | v2 => exact absurd ((fedOfUrl_v2 h).mp hf) h2
        | composite => exact absurd ((fedOfUrl_composite u).mp hf) h3

theorem spec_not_v2 : ∀ {ls : List Link} {f : Fed}, (∀ l ∈ ls, fedOfUrl l.url ≠ some .v2) → f ≠ .v2 → ls.foldl specStep f ≠ .v2
  | [], f, _, h => h
  | l :: ls, f, hl, h => by
    rw [List.foldl_cons]
    refine spec_not_v2 (fun k hk => hl k (List.mem_cons_of_mem _ hk)) ?_
    unfold specStep
    have := hl l List.mem_cons_self
    cases hf : fedOfUrl l.url with
    | none => exact h
    | some g =>
      rw [hf] at this
      cases f <;> cases g <;> simp [Fed.max, Fed.rank] at h this ⊢

theorem spec_composite : ∀ {ls : List Link}, ls.foldl specStep .composite = .composite
  | [] => rfl
  | l :: ls => by
    rw [List.foldl_cons]
    have : specStep .composite l = .composite := by
      unfold specStep
      cases fedOfUrl l.url with
      | none => rfl
      | some g => cases g <;> rfl
    rw [this]
    exact spec_composite

theorem spec_v2 : ∀ {ls : List Link} {f : Fed}, (∀ l ∈ ls, fedOfUrl l.url ≠ some .composite) → f ≠ .composite →
    (f = .v2 ∨ ∃ l ∈ ls, fedOfUrl l.url = some .v2) → ls.foldl specStep f = .v2
  | [], f, _, _, h => by simpa using h
  | l :: ls, f, hl, hf, h => by
    rw [List.foldl_cons]
    have hl0 := hl l List.mem_cons_self
    refine spec_v2 (fun k hk => hl k (List.mem_cons_of_mem _ hk)) ?_ ?_
    · unfold specStep
      cases hg : fedOfUrl l.url with
      | none => exact hf
      | some g =>
        rw [hg] at hl0
        cases f <;> cases g <;> simp [Fed.max, Fed.rank] at hf hl0 ⊢
    · rcases h with rfl | ⟨k, hk, hk2⟩
      · left
        unfold specStep
        cases hg : fedOfUrl l.url with
        | none => rfl
        | some g =>
          rw [hg] at hl0
          cases g <;> simp [Fed.max, Fed.rank] at hl0 ⊢
      · rcases List.mem_cons.mp hk with rfl | hk
        · left
          unfold specStep
          rw [hk2]
          cases f <;> simp [Fed.max, Fed.rank] at hf ⊢
        · exact Or.inr ⟨k, hk, hk2⟩

theorem legacy_iff {d : Doc} (hc : Clear d) :
    (d.links.foldl specStep (if d.virtual then .composite else .v1) ≠ .v2 ∧ d.virtual = false) ↔
      d.virtual = false ∧ ∀ l ∈ d.links, federationUrl l.url = false := by
  have hg : ∀ l ∈ d.links, (fedOfUrl l.url = some .v2 ↔ federationUrl l.url = true) := fun l hl => fedOfUrl_v2 (hc.genuine l hl)
  cases hv : d.virtual with
  | true => simp
  | false =>
    simp only [Bool.false_eq_true, if_false, and_true, true_and]
    constructor
    · intro h l hl
      rw [Bool.eq_false_iff]
      intro hf
      refine h (spec_v2 (fun k hk => ?_) (by simp) (Or.inr ⟨l, hl, (hg l hl).mpr hf⟩))
      rw [Ne, fedOfUrl_composite]
      exact hc.one ⟨l, hl, hf⟩ k hk
    · intro h
      refine spec_not_v2 (fun l hl => ?_) (by simp)
      rw [Ne, hg l hl, h l hl]
      simp

/-! ## Imports -/

theorem brings_final {i : Import} {b : Bool} {n o : Text} (h : Brings i b n o) : finalOf i = trimAt n ∧ origOf i = trimAt o := by
  cases h <;> simp [finalOf, origOf, trimAt_cons]

theorem brings_functional {i : Import} {b b' : Bool} {n o n' o' : Text} (h : Brings i b n o) (h' : Brings i b' n' o') :
    b = b' ∧ n = n' ∧ o = o' := by
  cases h <;> cases h' <;> simp_all

theorem links_of_imports {d : Doc} {l : Link} {i : Import} (h : (l, i) ∈ d.imports) : l ∈ d.links := by
  unfold Doc.imports at h
  obtain ⟨k, hk, hm⟩ := List.mem_flatMap.mp h
  obtain ⟨j, _, e⟩ := List.mem_map.mp hm
  simp only [Prod.mk.injEq] at e
  rw [← e.1]
  exact hk

theorem lookDef_some {parse : Text → Option Url} {d : Doc} {i : Nat} {st : St} (ha : About parse d i st) (hc : Clear d) {n : Text}
    (ht : ∀ x ∈ d.imports, ∀ o, ¬ Brings x.2 false n o) (s : Schema) (o : Text) :
    lookDef st i n = some (s, o) ↔ ∃ l, ImportedAs d n l o ∧ s = schemaOf parse i l := by
  have final : ∀ x ∈ d.imports, ∀ o, (finalOf x.2 = n ∧ origOf x.2 = o ↔ Brings x.2 true n o) := by
    intro x hx o
    obtain ⟨b, f, p, hb, h1, h2⟩ := hc.tidy x hx
    obtain ⟨e1, e2⟩ := brings_final hb
    rw [trimAt_self h1] at e1
    rw [trimAt_self h2] at e2
    rw [e1, e2]
    constructor
    · rintro ⟨rfl, rfl⟩
      cases b with
      | true => exact hb
      | false => exact absurd hb (ht x hx _)
    · intro h
      have := brings_functional hb h
      exact ⟨this.2.1, this.2.2⟩
  rw [ha.df, lastBy_some]
  unfold ImportedAs
  constructor
  · rintro (⟨before, x, after, e, hx, hafter⟩ | ⟨_, h⟩)
    · have hmem : x ∈ d.imports := by rw [e]; simp
      by_cases hf : finalOf x.2 = n
      · rw [if_pos hf] at hx
        simp only [Option.some.injEq, Prod.mk.injEq] at hx
        refine ⟨x.1, ⟨before, x.2, after, e, (final x hmem o).mp ⟨hf, hx.2⟩, fun z hz o' hb => ?_⟩, hx.1.symm⟩
        have hz' : z ∈ d.imports := by rw [e]; simp [hz]
        have := hafter z hz
        rw [if_pos ((final z hz' o').mpr hb).1] at this
        cases this
      · rw [if_neg hf] at hx
        cases hx
    · cases h
  · rintro ⟨l, ⟨before, x, after, e, hb, hafter⟩, rfl⟩
    have hmem : (l, x) ∈ d.imports := by rw [e]; simp
    have hf := (final _ hmem o).mpr hb
    refine Or.inl ⟨before, (l, x), after, e, ?_, fun z hz => ?_⟩
    · have h1 : finalOf x = n := hf.1
      have h2 : origOf x = o := hf.2
      simp [h1, h2]
    · have hz' : z ∈ d.imports := by rw [e]; simp [hz]
      refine if_neg (fun h => ?_)
      exact hafter z hz _ ((final z hz' _).mp ⟨h, rfl⟩)

theorem lookDef_none {parse : Text → Option Url} {d : Doc} {i : Nat} {st : St} (ha : About parse d i st) (hc : Clear d) {n : Text}
    (ht : ∀ x ∈ d.imports, ∀ o, ¬ Brings x.2 false n o) : lookDef st i n = none ↔ ∀ l o, ¬ ImportedAs d n l o := by
  constructor
  · intro h l o hi
    have := (lookDef_some ha hc ht _ o).mpr ⟨l, hi, rfl⟩
    rw [h] at this
    cases this
  · intro h
    cases hl : lookDef st i n with
    | none => rfl
    | some x =>
      obtain ⟨l, hi, _⟩ := (lookDef_some ha hc ht x.1 x.2).mp hl
      exact absurd hi (h l x.2)

theorem imported_unique {d : Doc} {n : Text} {l l' : Link} {o o' : Text} (h : ImportedAs d n l o) (h' : ImportedAs d n l' o') :
    l = l' ∧ o = o' := by
  obtain ⟨b, x, a, e, hb, ha⟩ := h
  obtain ⟨b', x', a', e', hb', ha'⟩ := h'
  rw [e] at e'
  clear e
  induction b generalizing b' with
  | nil =>
    cases b' with
    | nil =>
      simp only [List.nil_append, List.cons.injEq, Prod.mk.injEq] at e'
      obtain ⟨⟨rfl, rfl⟩, _⟩ := e'
      exact ⟨rfl, (brings_functional hb hb').2.2⟩
    | cons y b' =>
      simp only [List.nil_append, List.cons_append, List.cons.injEq] at e'
      refine absurd hb' (ha (l', x') ?_ o')
      rw [e'.2]; simp
  | cons y b ih =>
    cases b' with
    | nil =>
      simp only [List.nil_append, List.cons_append, List.cons.injEq] at e'
      refine absurd hb (ha' (l, x) ?_ o)
      rw [← e'.2]; simp
    | cons y' b' =>
      simp only [List.cons_append, List.cons.injEq] at e'
      exact ih b' e'.2

theorem mineOr_eq {parse : Text → Option Url} {d : Doc} {i : Nat} {st : St} (ha : About parse d i st) (m : Text) :
    mineOr st i m = own d m := by
  unfold mineOr own
  rw [ha.owns]

theorem readPlain_iff {parse : Text → Option Url} {d : Doc} {i : Nat} {st : St} (ha : About parse d i st) (hc : Clear d) {n : Text}
    (ht : ∀ x ∈ d.imports, ∀ o, ¬ Brings x.2 false n o) (r : Referent) :
    readPlain st ⟨d.virtual, d.links.foldl specStep (if d.virtual then .composite else .v1)⟩ i n = r ↔ Plain d n r := by
  unfold readPlain
  rw [mineOr_eq ha]
  cases hl : lookDef st i n with
  | some x =>
    obtain ⟨s, o⟩ := x
    obtain ⟨l, hi, hs⟩ := (lookDef_some ha hc ht s o).mp hl
    have hmem : l ∈ d.links := by
      obtain ⟨b, x, a, e, _⟩ := hi
      exact links_of_imports (i := x) (by rw [e]; simp)
    have hi' : interp s.url o = schemaDirective l.url o := by
      rw [hs]
      exact interp_eq (hc.genuine l hmem) o
    simp only [hi']
    constructor
    · intro h
      cases hd : schemaDirective l.url o with
      | none =>
        rw [hd] at h
        rw [← h]
        exact Plain.missing hi hd
      | some r' =>
        rw [hd] at h
        have : r' = r := h
        subst this
        exact Plain.imported hi hd
    · intro h
      cases h with
      | imported hi2 hd =>
        obtain ⟨rfl, rfl⟩ := imported_unique hi hi2
        rw [hd]; rfl
      | missing hi2 hd =>
        obtain ⟨rfl, rfl⟩ := imported_unique hi hi2
        rw [hd]; rfl
      | core h => exact absurd hi (h l o)
      | legacy h => exact absurd hi (h l o)
      | own h => exact absurd hi (h l o)
  | none =>
    have hn := (lookDef_none ha hc ht).mp hl
    simp only
    unfold readBare
    rw [mineOr_eq ha]
    have hlg := legacy_iff hc
    cases hcore : coreDirectives.lookup n with
    | some b =>
      simp only
      constructor
      · rintro rfl
        exact Plain.core hn hcore
      · intro h
        cases h with
        | imported hi2 hd => exact absurd hi2 (hn _ _)
        | missing hi2 hd => exact absurd hi2 (hn _ _)
        | core _ h => rw [hcore] at h; cases h; rfl
        | legacy _ h => rw [hcore] at h; cases h
        | own _ h => rw [hcore] at h; cases h
    | none =>
      simp only
      by_cases hlegacy : d.links.foldl specStep (if d.virtual then .composite else .v1) ≠ .v2 ∧ d.virtual = false
      · rw [if_pos hlegacy]
        have hv := hlg.mp hlegacy
        cases hfed : federationDirectives.lookup n with
        | some b =>
          simp only
          constructor
          · rintro rfl
            exact Plain.legacy hn hcore hv.1 hv.2 hfed
          · intro h
            cases h with
            | imported hi2 hd => exact absurd hi2 (hn _ _)
            | missing hi2 hd => exact absurd hi2 (hn _ _)
            | core _ h => rw [hcore] at h; cases h
            | legacy _ _ _ _ h => rw [hfed] at h; cases h; rfl
            | own _ _ h =>
              rcases h with h | ⟨l, hl, h⟩ | h
              · rw [hv.1] at h; cases h
              · rw [hv.2 l hl] at h; cases h
              · rw [hfed] at h; cases h
        | none =>
          simp only
          constructor
          · rintro rfl
            exact Plain.own hn hcore (Or.inr (Or.inr hfed))
          · intro h
            cases h with
            | imported hi2 hd => exact absurd hi2 (hn _ _)
            | missing hi2 hd => exact absurd hi2 (hn _ _)
            | core _ h => rw [hcore] at h; cases h
            | legacy _ _ _ _ h => rw [hfed] at h; cases h
            | own _ _ h => rfl
      · rw [if_neg hlegacy]
        have hnot : d.virtual = true ∨ (∃ l ∈ d.links, federationUrl l.url = true) := by
          cases hv : d.virtual with
          | true => exact Or.inl rfl
          | false =>
            right
            refine Classical.byContradiction (fun hno => hlegacy (hlg.mpr ⟨hv, fun l hl => ?_⟩))
            rw [Bool.eq_false_iff]
            exact fun h => hno ⟨l, hl, h⟩
        constructor
        · rintro rfl
          exact Plain.own hn hcore (by
            rcases hnot with h | h
            · exact Or.inl h
            · exact Or.inr (Or.inl h))
        · intro h
          cases h with
          | imported hi2 hd => exact absurd hi2 (hn _ _)
          | missing hi2 hd => exact absurd hi2 (hn _ _)
          | core _ h => rw [hcore] at h; cases h
          | legacy _ _ h1 h2 _ => exact absurd (hlg.mpr ⟨h1, h2⟩) hlegacy
          | own _ _ h => rfl

/-! ## Outcomes -/

theorem hasExt_iff (st : St) (url : Text) : hasExt st url = true ↔ ∃ n, (⟨url, n⟩ : Ext) ∈ st.exts := by
  unfold hasExt
  rw [List.any_eq_true]
  constructor
  · rintro ⟨e, he, h⟩
    have : e.linkUrl = url := by simpa using h
    refine ⟨e.name, ?_⟩
    rw [← this]
    exact he
  · rintro ⟨n, h⟩
    exact ⟨_, h, by simp⟩

theorem isComposed_iff (st : St) (i : Nat) (m : Text) : isComposed st i m = true ↔ (i, m) ∈ st.composed := by
  unfold isComposed
  exact List.contains_iff_mem

theorem resolve_foreign {st : St} {i : Nat} {r : Match} {url o : Text} (h : resolve st i r = some (.foreign url o)) :
    (∃ k s, r = .qualified k o ∧ st.schemas[k]? = some s ∧ s.url = url) ∨
      ∃ k d s, r = .imported k ∧ st.defs[k]? = some d ∧ st.schemas[d.schema]? = some s ∧ s.url = url ∧ d.original = o := by
  cases r with
  | builtin b' => simp [resolve] at h
  | noMatch => simp [resolve] at h
  | crash => simp [resolve] at h
  | qualified s n =>
    simp only [resolve, Option.bind_eq_some_iff] at h
    obtain ⟨x, hx, h⟩ := h
    split at h
    · simp only [Option.some.injEq, Referent.foreign.injEq] at h
      exact Or.inl ⟨s, x, by rw [h.2], hx, h.1⟩
    · cases h
  | imported d =>
    simp only [resolve, Option.bind_eq_some_iff] at h
    obtain ⟨x, hx, y, hy, h⟩ := h
    split at h
    · simp only [Option.some.injEq, Referent.foreign.injEq] at h
      exact Or.inr ⟨d, x, y, rfl, hx, hy, h.1, h.2⟩
    · cases h
  | locally d =>
    simp only [resolve, Option.bind_eq_some_iff] at h
    obtain ⟨x, _, h⟩ := h
    split at h <;> simp at h

theorem resolve_mine {st : St} {i : Nat} {r : Match} (h : resolve st i r = some .mine) : ∃ k, r = .locally k := by
  cases r with
  | locally d => exact ⟨d, rfl⟩
  | builtin b' => simp [resolve] at h
  | noMatch => simp [resolve] at h
  | crash => simp [resolve] at h
  | qualified s n =>
    simp only [resolve, Option.bind_eq_some_iff] at h
    obtain ⟨x, _, h⟩ := h
    split at h <;> simp at h
  | imported d =>
    simp only [resolve, Option.bind_eq_some_iff] at h
    obtain ⟨x, _, y, _, h⟩ := h
    split at h <;> simp at h

theorem resolve_unknown {st : St} {i : Nat} {r : Match} (h : resolve st i r = some .unknown) : r = .noMatch := by
  cases r with
  | noMatch => rfl
  | builtin b' => simp [resolve] at h
  | crash => simp [resolve] at h
  | qualified s n =>
    simp only [resolve, Option.bind_eq_some_iff] at h
    obtain ⟨x, _, h⟩ := h
    split at h <;> simp at h
  | imported d =>
    simp only [resolve, Option.bind_eq_some_iff] at h
    obtain ⟨x, _, y, _, h⟩ := h
    split at h <;> simp at h
  | locally d =>
    simp only [resolve, Option.bind_eq_some_iff] at h
    obtain ⟨x, _, h⟩ := h
    split at h <;> simp at h

/-- What becomes of a directive of another schema. -/
theorem outcome_foreign {st : St} {i : Nat} {n url o : Text} (h : resolve st i (matchName st i n).2 = some (.foreign url o)) :
    outcome st i n = match hasExt st url, isComposed st i (splitName n).2 with
      | true, true => .fatal
      | true, false => .extension url o
      | false, true => .composed (some url) o
      | false, false => .dropped := by
  unfold outcome
  simp only [matchName_fst]
  rcases resolve_foreign h with ⟨k, s, e, hs, rfl⟩ | ⟨k, d, s, e, hd, hs, rfl, rfl⟩
  · rw [e]
    simp only [linked, hs]
    rfl
  · rw [e]
    simp only [linked, hd, hs]
    rfl

/-! ## Extensions -/

theorem versionLike_iff (c : Char) (s : Text) : VersionLike (c :: s) ↔ Digit c ∨ c = 'v' ∧ ∃ x y, s = x :: y ∧ Digit x := by
  unfold VersionLike
  constructor
  · rintro (h | ⟨x, y, h, hd⟩ | ⟨x, y, h, hd⟩)
    · cases h
    · cases h
      exact Or.inl hd
    · cases h
      exact Or.inr ⟨rfl, x, y, rfl, hd⟩
  · rintro (h | ⟨rfl, x, y, rfl, hd⟩)
    · exact Or.inr (Or.inl ⟨c, s, rfl, h⟩)
    · exact Or.inr (Or.inr ⟨x, y, rfl, hd⟩)

theorem skipVersion_yes {s : Text} (h : VersionLike s) (rest : List Text) : skipVersion s rest = rest.head? := by
  unfold skipVersion
  cases s with
  | nil => rfl
  | cons c t =>
    rw [versionLike_iff] at h
    rcases h with h | ⟨rfl, x, y, rfl, hd⟩
    · have hv : c ≠ 'v' := by
        rintro rfl
        exact absurd h (by unfold Digit; decide)
      split
      · rename_i e
        simp only [List.cons.injEq] at e
        exact absurd e.1 hv
      · rename_i e
        simp only [List.cons.injEq] at e
        rw [← e.1, if_pos ((digit_iff c).mpr h)]
      · rfl
    · simp only
      rw [if_pos ((digit_iff x).mpr hd)]

theorem skipVersion_no {s : Text} (h : ¬ VersionLike s) (rest : List Text) : skipVersion s rest = some s := by
  unfold skipVersion
  cases s with
  | nil => exact absurd (Or.inl rfl) h
  | cons c t =>
    rw [versionLike_iff] at h
    split
    · rename_i x y e
      simp only [List.cons.injEq] at e
      obtain ⟨rfl, rfl⟩ := e
      rw [if_neg (fun hd => h (Or.inr ⟨rfl, x, y, rfl, (digit_iff x).mp hd⟩))]
    · rename_i e
      simp only [List.cons.injEq] at e
      rw [if_neg (fun hd => h (Or.inl (by rw [e.1]; exact (digit_iff _).mp hd)))]
    · rename_i e
      cases e

theorem skipVersion_iff (last : Text) (rest : List Text) (n : Text) :
    skipVersion last rest = some n ↔ EndPart (rest.reverse ++ [last]) n := by
  unfold EndPart
  have two : ∀ {front : List Text} {v : Text}, rest.reverse ++ [last] = front ++ [n, v] ↔ last = v ∧ rest = n :: front.reverse := by
    intro front v
    constructor
    · intro h
      have h' := congrArg List.reverse h
      simp at h'
      exact h'
    · rintro ⟨rfl, e⟩
      rw [e]
      simp
  have one : (∃ front, rest.reverse ++ [last] = front ++ [n]) ↔ last = n := by
    constructor
    · rintro ⟨front, h⟩
      have h' := congrArg List.reverse h
      simp at h'
      exact h'.1
    · rintro rfl
      exact ⟨_, rfl⟩
  simp only [two, one]
  by_cases hv : VersionLike last
  · rw [skipVersion_yes hv]
    constructor
    · intro h
      obtain ⟨t, ht⟩ := List.head?_eq_some_iff.mp h
      exact Or.inr ⟨t.reverse, last, ⟨rfl, by rw [ht, List.reverse_reverse]⟩, hv⟩
    · rintro (⟨rfl, h⟩ | ⟨front, v, ⟨_, e⟩, _⟩)
      · exact absurd hv h
      · rw [e]; rfl
  · rw [skipVersion_no hv]
    simp only [Option.some.injEq]
    constructor
    · rintro rfl
      exact Or.inl ⟨rfl, hv⟩
    · rintro (⟨rfl, h⟩ | ⟨front, v, ⟨rfl, e⟩, h⟩)
      · rfl
      · exact absurd h hv

theorem registryExtName_iff {u : Url} {segments : List Text} (h : u.segments = some segments) (n : Text) :
    registryExtName u = some n ↔ EndPart segments n := by
  unfold registryExtName
  rw [h]
  simp only
  cases hr : segments.reverse with
  | nil =>
    have : segments = [] := by simpa using hr
    subst this
    simp only [reduceCtorEq, false_iff]
    rintro (⟨⟨front, e⟩, _⟩ | ⟨front, v, e, _⟩) <;> simp at e
  | cons last rest =>
    have hseg : segments = rest.reverse ++ [last] := by
      have := congrArg List.reverse hr
      simpa using this
    rw [hseg]
    exact skipVersion_iff last rest n

theorem fileExtName_iff {u : Url} {segments : List Text} (h : u.segments = some segments) (n : Text) :
    fileExtName u = some n ↔ LocalPart segments n := by
  unfold fileExtName LocalPart
  rw [h]
  simp only
  cases hr : segments.reverse with
  | nil =>
    have : segments = [] := by simpa using hr
    subst this
    simp only [reduceCtorEq, false_iff]
    rintro (⟨front, x, e, _⟩ | ⟨_, ⟨⟨front, e⟩, _⟩ | ⟨front, v, e, _⟩⟩) <;> simp at e
  | cons last rest =>
    have hseg : segments = rest.reverse ++ [last] := by
      have := congrArg List.reverse hr
      simpa using this
    subst hseg
    cases rest with
    | nil =>
      simp only
      rw [skipVersion_iff]
      constructor
      · intro h
        refine Or.inr ⟨fun front x e => ?_, h⟩
        have := congrArg List.length e
        simp at this
      · rintro (⟨front, x, e, _⟩ | ⟨_, h⟩)
        · have := congrArg List.length e
          simp at this
        · exact h
    | cons next rest =>
      have shape : ∀ {front : List Text} {x : Text}, (next :: rest).reverse ++ [last] = front ++ [x, "build".toList] ↔
          last = "build".toList ∧ next = x ∧ rest.reverse = front := by
        intro front x
        constructor
        · intro h
          have h' := congrArg List.reverse h
          simp only [List.reverse_append, List.reverse_cons, List.reverse_nil, List.nil_append, List.singleton_append,
            List.cons_append, List.reverse_reverse, List.cons.injEq] at h'
          exact ⟨h'.1, h'.2.1, by rw [h'.2.2, List.reverse_reverse]⟩
        · rintro ⟨rfl, rfl, rfl⟩
          simp
      simp only
      by_cases hb : last = "build".toList
      · rw [if_pos hb, skipVersion_iff]
        constructor
        · intro h
          exact Or.inl ⟨rest.reverse, next, shape.mpr ⟨hb, rfl, rfl⟩, h⟩
        · rintro (⟨front, x, e, h⟩ | ⟨h, _⟩)
          · obtain ⟨_, rfl, rfl⟩ := shape.mp e
            exact h
          · exact absurd (shape.mpr ⟨hb, rfl, rfl⟩) (h rest.reverse next)
      · rw [if_neg hb, skipVersion_iff]
        constructor
        · intro h
          exact Or.inr ⟨fun front x e => hb (shape.mp e).1, h⟩
        · rintro (⟨front, x, e, h⟩ | ⟨_, h⟩)
          · exact absurd (shape.mp e).1 hb
          · exact h

theorem prefix_before : ∀ {x a p : Text}, x <+: a ++ p → '/' ∉ x → (p = [] ∨ ∃ q, p = '/' :: q) → ∃ r, a = x ++ r
  | [], a, p, _, _, _ => ⟨a, rfl⟩
  | c :: x, [], p, h, hx, hp => by
    obtain ⟨t, e⟩ := h
    rcases hp with rfl | ⟨q, rfl⟩
    · cases e
    · simp only [List.cons_append, List.nil_append, List.cons.injEq] at e
      exact absurd List.mem_cons_self (e.1 ▸ hx)
  | c :: x, d :: a, p, h, hx, hp => by
    rw [List.cons_append, List.cons_prefix_cons] at h
    obtain ⟨r, hr⟩ := prefix_before h.2 (fun hm => hx (List.mem_cons_of_mem _ hm)) hp
    exact ⟨r, by rw [h.1, hr]; rfl⟩

theorem registryUrl_iff {u : Url} {segments : List Text} (h : u.segments = some segments) :
    registryUrl u = true ↔ Registry u segments := by
  unfold registryUrl Registry
  rw [h]
  simp only [Option.getD_some, Bool.and_eq_true, Bool.or_eq_true_iff, beq_iff_eq, List.isPrefixOf_iff_prefix]
  have key : "/extensions".toList <+: path segments ↔
      ∃ first rest others, segments = first :: others ∧ first = "extensions".toList ++ rest := by
    cases segments with
    | nil =>
      constructor
      · rintro ⟨t, e⟩
        cases e
      · rintro ⟨_, _, _, e, _⟩
        cases e
    | cons first others =>
      have hp : path (first :: others) = '/' :: (first ++ path others) := rfl
      have hsl : "/extensions".toList = '/' :: "extensions".toList := rfl
      rw [hp, hsl, List.cons_prefix_cons]
      simp only [true_and]
      constructor
      · intro hpre
        obtain ⟨r, hr⟩ := prefix_before hpre (by decide) (by
          cases others with
          | nil => exact Or.inl rfl
          | cons o os => exact Or.inr ⟨_, rfl⟩)
        exact ⟨first, r, others, rfl, hr⟩
      · rintro ⟨f, r, o, e, hf⟩
        simp only [List.cons.injEq] at e
        rw [e.1, hf, List.append_assoc]
        exact List.prefix_append _ _
  rw [key]

end Verif.LinkNames
