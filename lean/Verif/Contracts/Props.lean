import Verif.Contracts.Lemmas
import Verif.Contracts.Witness

/-!
# C71: which parts of a schema the clients of a contract see
-/

namespace Verif.Contracts

open Verif.Hidden

/-! ## Values -/

/-- Each directive has the answer with its position, or -1. -/
theorem C71_answers (sites : List (List Site)) (accessible : List Int) (i : Nat) :
    (results sites accessible)[i]? = sites[i]?.map fun l => ((accessible[i]?).getD (-1), l) := by
  have hfit : ∀ i, i < sites.length → (fit sites.length accessible)[i]? = some ((accessible[i]?).getD (-1)) := by
    intro i hi
    unfold fit
    split
    · rename_i hl
      by_cases h : i < accessible.length
      · rw [List.getElem?_append_left h, List.getElem?_eq_getElem h]; rfl
      · rw [List.getElem?_append_right (by omega), List.getElem?_replicate, if_pos (by omega),
          List.getElem?_eq_none (by omega)]; rfl
    · rename_i hl
      rw [List.getElem?_take, if_pos hi, List.getElem?_eq_getElem (by omega)]; rfl
  unfold results List.zip
  rw [List.getElem?_zipWith]
  by_cases hi : i < sites.length
  · rw [hfit i hi, List.getElem?_eq_getElem hi]; rfl
  · rw [List.getElem?_eq_none (l := sites) (by omega)]
    cases (fit sites.length accessible)[i]? <;> rfl

/-- The value of an element is that of a strongest directive on it, or the default. -/
theorem C71_own {rs sorted : List (Int × List Site)} (h : Order rs sorted) (accessibleByDefault : Bool) (s : Site) :
    Own (if accessibleByDefault then 0 else -1) rs s (ingestAll (defaultValue accessibleByDefault) sorted s) := by
  have e : (if accessibleByDefault then (0 : Int) else -1) = defaultValue accessibleByDefault := by
    cases accessibleByDefault <;> rfl
  rw [e]
  exact ingest_own h s

/-- What the values make of an element: it is hidden unless the strongest value of it and what it is in, or a stronger
one of something in it, says that it is shown. -/
theorem C71_values {S : Schema} (T : Tree S) (m : Marks) (own : Site → Int) (s : Site) :
    applyValues S m own s = true ↔ m s = true ∨ (inRange S s = true ∧ ¬ ShownBy S own s) := applyValues_iff T

/-- There is exactly one strongest value, so that "the strongest" is well-defined. -/
theorem C71_strongest (S : Schema) (own : Site → Int) (s : Site) :
    ∃ a, Strongest own (chain S s) a ∧ ∀ b, Strongest own (chain S s) b → b = a :=
  ⟨_, downOf_strongest S own s, fun _ hb => strongest_unique hb (downOf_strongest S own s)⟩

/-! ## The schema of a contract -/

/-- The schema of a contract: from the values to what is excluded and from there to all that needs it. -/
theorem C71_exact {S : Schema} (T : Tree S) {rs sorted : List (Int × List Site)} (h : Order rs sorted) (m : Marks)
    (accessibleByDefault hide : Bool) :
    ∃ own : Site → Int, (∀ s, Own (if accessibleByDefault then 0 else -1) rs s (own s)) ∧
      ∃ base : Marks, (∀ s, base s = true ↔ Excluded S m own hide s) ∧
        ∀ s, construct S m accessibleByDefault hide sorted s = true ↔ Staged S base s := by
  refine ⟨_, C71_own h accessibleByDefault, ?_⟩
  unfold construct finalizeContract
  generalize ingestAll (defaultValue accessibleByDefault) sorted = own
  have hd : (fun s => markBuiltins S (applyValues S m own) s = true) = Denied S m own := funext fun s => propext (denied_iff T)
  cases hide with
  | false =>
    refine ⟨markBuiltins S (applyValues S m own), ?_, fun s => finalize_iff T.wf _ s⟩
    intro s
    rw [denied_iff T]
    simp [Excluded]
  | true =>
    refine ⟨hideUnreachable S (markBuiltins S (applyValues S m own)), ?_, fun s => finalize_iff T.wf _ s⟩
    intro s
    rw [hideUnreachable_iff, hd, denied_iff T]
    simp [Excluded]

/-- What the contract excludes is not in its schema. -/
theorem excluded_hidden {S : Schema} (T : Tree S) {sorted : List (Int × List Site)} {m : Marks} {accessibleByDefault hide : Bool}
    {s : Site} (h : Denied S m (ingestAll (defaultValue accessibleByDefault) sorted) s) :
    construct S m accessibleByDefault hide sorted s = true := by
  unfold construct finalizeContract
  refine (finalize_iff T.wf _ s).2 (.input (.base ?_))
  have := (denied_iff T).2 h
  cases hide with
  | false => exact this
  | true => exact hideUnreachable_iff.2 (.inl this)

/-- An element with a directive for which the answer is -128 is not in the schema, whatever the other answers are, unless
it is a built-in scalar, a root type or one of introspection. -/
theorem C71_override {S : Schema} (T : Tree S) {rs sorted : List (Int × List Site)} (h : Order rs sorted) (m : Marks)
    (accessibleByDefault hide : Bool) (hr : ∀ r ∈ rs, -128 ≤ r.1 ∧ r.1 ≤ 127) {s : Site} (hs : inRange S s = true)
    (he : ¬ Exempt S s) (hv : ∃ r ∈ rs, s ∈ r.2 ∧ r.1 = -128) (hno : ∀ r ∈ rs, s ∈ r.2 → r.1 ≠ 127) :
    construct S m accessibleByDefault hide sorted s = true := by
  refine excluded_hidden T ⟨.inr ⟨hs, ?_⟩, he⟩
  have hown := C71_own h accessibleByDefault
  generalize ingestAll (defaultValue accessibleByDefault) sorted = own at hown
  have hrank : ∀ t, rank (own t) ≤ 128 := by
    intro t
    rcases hown t with ⟨r, hr', _, e, _⟩ | ⟨_, e⟩
    · have := hr r hr'
      rw [← e]
      unfold rank; split <;> omega
    · rw [e]
      cases accessibleByDefault <;> simp [rank]
  have hs' : own s = -128 := by
    obtain ⟨q, hq, hqs, hqv⟩ := hv
    rcases hown s with ⟨r, hr', hrs, e, hmax⟩ | ⟨hn, _⟩
    · have h1 := hmax q hq hqs
      have h2 := hr r hr'
      have h3 := hno r hr' hrs
      rw [hqv] at h1
      rw [← e] at h1 ⊢
      have : rank (-128) = 128 := rfl
      rw [this] at h1
      unfold rank at h1
      split at h1 <;> omega
    · exact absurd hqs (hn q hq)
  have hst : Strongest own (chain S s) (-128) := by
    have hc : ∃ l, chain S s = s :: l := by
      unfold chain
      split
      · exact ⟨_, rfl⟩
      · split <;> exact ⟨_, rfl⟩
    obtain ⟨l, hl⟩ := hc
    refine ⟨[], s, l, hl, hs', by simp, ?_⟩
    intro b _
    exact hrank b
  rintro ⟨a, ha, h'⟩
  have := strongest_unique ha hst
  subst this
  rcases h' with h0 | ⟨t, b, _, ⟨l1, u, l2, _, e, _⟩, _, hlt⟩
  · omega
  · have h1 := hrank u
    rw [e] at h1
    have : rank (-128) = 128 := rfl
    omega

/-- A contract only narrows: what is hidden from everyone is hidden from its clients. -/
theorem C71_narrows {S : Schema} (T : Tree S) (m : Marks) (accessibleByDefault hide : Bool) (sorted : List (Int × List Site)) (s : Site)
    (h : baseSchema S m s = true) : construct S (baseSchema S m) accessibleByDefault hide sorted s = true :=
  excluded_hidden T ⟨.inl h, ((markBuiltins_iff (typesOk T)).1 h).2⟩

/-- A contract without directives, with all shown by default and without hiding of unreachable types, hides nothing more
than what the schema hides already, if the schema is complete in this respect. -/
theorem C71_neutral {S : Schema} (T : Tree S) (m : Marks) (hm : ∀ s, Exempt S s → m s = false) (s : Site) :
    construct S m true false [] s = finalize S m s := by
  have hshown : ∀ s, ShownBy S (fun _ => 0) s := by
    intro s
    obtain ⟨l1, t, l2, e, _, h1, h2⟩ := downOf_strongest S (fun _ => 0) s
    refine ⟨0, ?_, .inl (Int.le_refl _)⟩
    refine ⟨[], s, (chain S s).tail, ?_, rfl, by simp, fun _ _ => Int.le_refl _⟩
    unfold chain
    split
    · rfl
    · split <;> rfl
  have hb : markBuiltins S (applyValues S m (fun _ => 0)) = m := by
    funext t
    rw [Bool.eq_iff_iff, markBuiltins_iff (typesOk T), applyValues_iff T]
    constructor
    · rintro ⟨h | ⟨_, h⟩, _⟩
      · exact h
      · exact absurd (hshown t) h
    · intro h
      refine ⟨.inl h, fun he => ?_⟩
      rw [hm t he] at h; cases h
  show finalize S (markBuiltins S (applyValues S m (fun _ => 0))) s = _
  rw [hb]

/-- Nothing shown needs something hidden: the type of a shown field is shown. -/
theorem C71_fields {S : Schema} (T : Tree S) (m : Marks) (accessibleByDefault hide : Bool) (sorted : List (Int × List Site))
    {ix : Nat} {f : FieldDef} (hf : S.fields[ix]? = some f) (h : construct S m accessibleByDefault hide sorted (.field ix) = false) :
    construct S m accessibleByDefault hide sorted f.ty = false := by
  cases ht : construct S m accessibleByDefault hide sorted f.ty with
  | false => rfl
  | true =>
    unfold construct finalizeContract at h ht
    have := (finalize_iff T.wf _ _).2 (.fieldType hf ((finalize_iff T.wf _ _).1 ht))
    rw [this] at h; cases h

/-! ## Introspection -/

theorem introspected_element {S : Schema} {s t : Site} (hs : Introspected S s) (h : t ∈ S.kids s) : Introspected S t := by
  cases s with
  | object n => exact .element hs h
  | interface n => exact .element hs h
  | union n => exact .member hs h
  | enum n => exact .element hs h
  | input n => exact .element hs h
  | _ => simp [Schema.kids] at h

theorem introspected_staged {S : Schema} (T : Tree S) {base : Marks} (hb : ∀ s, Introspected S s → base s = false)
    (hne : ∀ s, Introspected S s → Container S s → S.kids s ≠ [])
    (hin : ∀ (ix : Nat) (v : ValueDef), Introspected S (.value ix) → S.values[ix]? = some v → v.internal = false) {s : Site}
    (h : Staged S base s) : ¬ Introspected S s := by
  have hI : ∀ s, InputHidden S base s → ¬ Introspected S s := by
    intro s h
    induction h with
    | base h => intro hi; rw [hb _ hi] at h; cases h
    | internal hv hi' => intro hi; rw [hin _ _ hi hv] at hi'; cases hi'
    | valueType hv _ ih => intro hi; exact ih (.valueType hi hv)
    | @required ix v hv _ _ _ ih =>
      intro hi
      exact ih (.element hi ((T.tree _ _).2 (by simp [parentOf, hv])))
  have hE : ∀ s, Container S s → (∀ k ∈ S.kids s, ¬ Introspected S k) → ¬ Introspected S s := by
    intro s hc hk hi
    cases hl : S.kids s with
    | nil => exact hne s hi hc hl
    | cons k l =>
      have hm : k ∈ S.kids s := by rw [hl]; simp
      exact hk k hm (introspected_element hi hm)
  induction h with
  | input h => exact hI _ h
  | emptyEnum hn h => exact hE _ (.enum hn) fun k hk => hI _ (h k hk)
  | emptyInput hn h => exact hE _ (.input hn) fun k hk => hI _ (h k hk)
  | fieldType hf _ ih => intro hi; exact ih (.fieldType hi hf)
  | emptyObject hn _ ih => exact hE _ (.object hn) ih
  | emptyInterface hn _ ih => exact hE _ (.interface hn) ih
  | emptyUnion hn _ ih => exact hE _ (.union hn) ih

theorem introspected_not_denied {S : Schema} {m : Marks} {own : Site → Int} {s : Site} (h : Introspected S s) : ¬ Denied S m own s :=
  fun hd => hd.2 (.inr (.inr h))

/-- Where the element is can be reached. -/
theorem introspected_reachable {S : Schema} (T : Tree S) {m : Marks} {own : Site → Int}
    (hq : ∀ ix ∈ S.metaFields, Site.field ix ∈ S.kids (.object S.query)) {s : Site} (h : Introspected S s) :
    (isType s = true → Reachable S (Denied S m own) s) ∧
    (∀ ix, s = .field ix → ∃ p, ((∃ n, p = .object n) ∨ ∃ n, p = .interface n) ∧ .field ix ∈ S.kids p ∧ Reachable S (Denied S m own) p) ∧
    (∀ ix, s = .value ix → (∃ n, .value ix ∈ S.kids (.input n) ∧ Reachable S (Denied S m own) (.input n)) ∨
      ∃ fx f p, S.fields[fx]? = some f ∧ ix ∈ f.args ∧ Introspected S (.field fx) ∧ ((∃ n, p = .object n) ∨ ∃ n, p = .interface n) ∧
        .field fx ∈ S.kids p ∧ Reachable S (Denied S m own) p) := by
  induction h with
  | start h =>
    refine ⟨by simp [isType], ?_, by simp⟩
    intro ix e
    cases e
    exact ⟨_, .inl ⟨_, rfl⟩, hq _ h, .query fun hd => hd.2 (.inr (.inl (.inl rfl)))⟩
  | @element s t hs ht ih =>
    cases s with
    | object n =>
      obtain ⟨o, jx, ho, hj, rfl⟩ := in_object ht
      refine ⟨by simp [isType], ?_, by simp⟩
      intro ix e; cases e
      exact ⟨_, .inl ⟨n, rfl⟩, ht, ih.1 rfl⟩
    | interface n =>
      obtain ⟨o, jx, ho, hj, rfl⟩ := in_interface ht
      refine ⟨by simp [isType], ?_, by simp⟩
      intro ix e; cases e
      exact ⟨_, .inr ⟨n, rfl⟩, ht, ih.1 rfl⟩
    | enum n =>
      obtain ⟨o, jx, ho, hj, rfl⟩ := in_enum ht
      exact ⟨by simp [isType], by simp, by simp⟩
    | input n =>
      obtain ⟨o, jx, ho, hj, rfl⟩ := in_input ht
      refine ⟨by simp [isType], by simp, ?_⟩
      intro ix e; cases e
      exact .inl ⟨n, ht, ih.1 rfl⟩
    | field n =>
      simp only [children] at ht
      cases he : S.fields[n]? with
      | none => rw [he] at ht; simp at ht
      | some f =>
        rw [he] at ht
        simp only [Option.map_some, Option.getD_some, List.mem_map] at ht
        obtain ⟨a, ha, rfl⟩ := ht
        refine ⟨by simp [isType], by simp, ?_⟩
        intro ix e; cases e
        obtain ⟨p, hp, hk, hr⟩ := ih.2.1 n rfl
        exact .inr ⟨n, f, p, he, ha, hs, hp, hk, hr⟩
    | _ => simp [children] at ht
  | @member n t hs ht ih =>
    obtain ⟨o, jx, ho, hj, rfl⟩ := in_union ht
    exact ⟨fun _ => .step (ih.1 rfl) (.member ht) (introspected_not_denied (.member hs ht)), by simp, by simp⟩
  | implements hs ho hi ih =>
    exact ⟨fun _ => .step (ih.1 rfl) (.implements ho hi) (introspected_not_denied (.implements hs ho hi)), by simp, by simp⟩
  | implementor hs ho hi ih =>
    exact ⟨fun _ => .step (ih.1 rfl) (.implementor ho hi) (introspected_not_denied (.implementor hs ho hi)), by simp, by simp⟩
  | @fieldType ix f hs hf ih =>
    obtain ⟨p, hp, hk, hr⟩ := ih.2.1 ix rfl
    have hty := (typesOk T).field ix f hf
    refine ⟨fun _ => .step hr (.field hp hk (introspected_not_denied hs) hf) (introspected_not_denied (.fieldType hs hf)), ?_, ?_⟩
    · intro jx e; rw [e] at hty; simp [isType] at hty
    · intro jx e; rw [e] at hty; simp [isType] at hty
  | @valueType ix v hs hv ih =>
    have hty := (typesOk T).value ix v hv
    refine ⟨fun _ => ?_, ?_, ?_⟩
    · rcases ih.2.2 ix rfl with ⟨n, hk, hr⟩ | ⟨fx, f, p, hf, ha, hi, hp, hk, hr⟩
      · exact .step hr (.inputField hk (introspected_not_denied hs) hv) (introspected_not_denied (.valueType hs hv))
      · exact .step hr (.argument hp hk (introspected_not_denied hi) hf ha (introspected_not_denied hs) hv)
          (introspected_not_denied (.valueType hs hv))
    · intro jx e; rw [e] at hty; simp [isType] at hty
    · intro jx e; rw [e] at hty; simp [isType] at hty

/-- No contract takes introspection away, whatever the extension answers. -/
theorem C71_introspection {S : Schema} (T : Tree S) (hq : ∀ ix ∈ S.metaFields, Site.field ix ∈ S.kids (.object S.query))
    (hne : ∀ s, Introspected S s → Container S s → S.kids s ≠ [])
    (hin : ∀ (ix : Nat) (v : ValueDef), Introspected S (.value ix) → S.values[ix]? = some v → v.internal = false)
    (m : Marks) (accessibleByDefault hide : Bool) (sorted : List (Int × List Site)) {s : Site} (h : Introspected S s) :
    construct S m accessibleByDefault hide sorted s = false := by
  cases hc : construct S m accessibleByDefault hide sorted s with
  | false => rfl
  | true =>
    exfalso
    unfold construct finalizeContract at hc
    have hd : ∀ own, (fun s => markBuiltins S (applyValues S m own) s = true) = Denied S m own :=
      fun own => funext fun s => propext (denied_iff T)
    refine introspected_staged T ?_ hne hin ((finalize_iff T.wf _ s).1 hc) h
    intro t ht
    rw [← Bool.not_eq_true]
    cases hide with
    | false =>
      simp only [Bool.false_eq_true, if_false]
      rw [denied_iff T]; exact introspected_not_denied ht
    | true =>
      simp only [if_true]
      rw [hideUnreachable_iff, hd, denied_iff T]
      rintro (h' | ⟨hty, hn⟩)
      · exact introspected_not_denied ht h'
      · exact hn ((introspected_reachable T hq ht).1 (isType_iff.2 hty).1)

/-! ## Parents -/

/-- What contains something shown is shown, except if the value the element has is just as strong as the one that hides
what it is in. -/
theorem C71_parent_partial {S : Schema} (T : Tree S) (own : Site → Int) {s p : Site} (hp : parentOf S s = some p)
    (h : ShownBy S own s) : ShownBy S own p ∨ (0 ≤ own s ∧ ∃ a, Strongest own (chain S p) a ∧ a < 0 ∧ rank (own s) = rank a) := by
  obtain ⟨a, ha, h⟩ := h
  have ea := strongest_unique ha (downOf_strongest S own s)
  have hc := downOf_child T own hp
  have hge : priority (downOf S own p) ≤ priority (downOf S own s) := by rw [hc]; exact priority_replace_right _ _
  rcases h with h0 | ⟨t, b, ht, hb, hb0, hlt⟩
  · by_cases hlt : priority (downOf S own p) < priority (downOf S own s)
    · left
      exact ⟨_, downOf_strongest S own p, .inr ⟨s, _, below_parent hp, ha, h0, (rank_lt _ _).2 (by rw [ea]; exact hlt)⟩⟩
    · by_cases hn : 0 ≤ downOf S own p
      · exact .inl ⟨_, downOf_strongest S own p, .inl hn⟩
      · right
        have hs : downOf S own s = own s := by
          rw [hc]
          unfold replaceIfHigher
          split
          · rename_i hh
            exfalso
            rw [hc] at ea
            unfold replaceIfHigher at ea
            rw [if_pos hh] at ea
            omega
          · rfl
        refine ⟨by rw [← hs, ← ea]; exact h0, _, downOf_strongest S own p, by omega, ?_⟩
        rw [rank_eq, rank_eq, ← hs]
        omega
  · left
    refine ⟨_, downOf_strongest S own p, .inr ⟨t, b, below_trans T ht hp, hb, hb0, ?_⟩⟩
    rw [rank_lt] at hlt ⊢
    rw [ea] at hlt
    omega

/-- With a tie a field is shown and its type is not: `type T { a: Int @public } @internal` with the answers 1 and -2. -/
theorem C71_tie_false : ∃ (S : Schema) (rs : List (Int × List Site)), Tree S ∧ Order rs rs ∧
    parentOf S (.field 2) = some (.object 1) ∧ rs = [(1, [.field 2]), (-2, [.object 1])] ∧
    construct S noMarks true false rs (.field 2) = false ∧ construct S noMarks true false rs (.object 1) = true :=
  ⟨sMain, _, tree_of_check (by decide +kernel), ⟨List.Perm.refl _, by decide⟩, by decide, rfl, by decide +kernel, by decide +kernel⟩

/-! ## The order of directives -/

/-- If no element has two directives with equally strong but different answers, the order does not matter. What is
missing: elements with such directives, see `C71_order_false`. -/
theorem C71_order_partial (S : Schema) {rs sorted sorted' : List (Int × List Site)} (h : Order rs sorted) (h' : Order rs sorted')
    (hno : ∀ s, ∀ r ∈ rs, ∀ r' ∈ rs, s ∈ r.2 → s ∈ r'.2 → rank r.1 = rank r'.1 → r.1 = r'.1) (m : Marks)
    (accessibleByDefault hide : Bool) :
    construct S m accessibleByDefault hide sorted = construct S m accessibleByDefault hide sorted' := by
  have : ingestAll (defaultValue accessibleByDefault) sorted = ingestAll (defaultValue accessibleByDefault) sorted' := by
    funext s
    rcases ingest_own (dflt := defaultValue accessibleByDefault) h s with ⟨r, hr, hs, e, hmax⟩ | ⟨hn, e⟩
    · rcases ingest_own (dflt := defaultValue accessibleByDefault) h' s with ⟨r', hr', hs', e', hmax'⟩ | ⟨hn', _⟩
      · rw [← e, ← e']
        have h1 := hmax r' hr' hs'
        have h2 := hmax' r hr hs
        rw [← e] at h1
        rw [← e'] at h2
        exact hno s r hr r' hr' hs hs' (by omega)
      · exact absurd hs (hn' r hr)
    · rcases ingest_own (dflt := defaultValue accessibleByDefault) h' s with ⟨r', hr', hs', _, _⟩ | ⟨hn', e'⟩
      · exact absurd hs' (hn r' hr')
      · rw [e, e']
  unfold construct
  rw [this]

/-- Otherwise the same answers give different schemas: a type with `@internal @public` and the answers -2 and 1 is
hidden or shown. -/
theorem C71_order_false : ∃ (S : Schema) (rs sorted sorted' : List (Int × List Site)), Tree S ∧ Order rs sorted ∧ Order rs sorted' ∧
    construct S noMarks true false sorted (.object 1) = false ∧ construct S noMarks true false sorted' (.object 1) = true :=
  ⟨sMain, [(-2, [.object 1]), (1, [.object 1])], [(-2, [.object 1]), (1, [.object 1])], [(1, [.object 1]), (-2, [.object 1])],
    tree_of_check (by decide +kernel), ⟨List.Perm.refl _, by decide⟩, ⟨List.Perm.swap _ _ _, by decide⟩, by decide +kernel, by decide +kernel⟩

/-! ## Unreachable types -/

/-- Exactly the types that cannot be reached are hidden. -/
theorem C71_unreachable (S : Schema) (m : Marks) (s : Site) : hideUnreachable S m s = true ↔
    m s = true ∨ (IsType S s ∧ ¬ Reachable S (fun s => m s = true) s) := hideUnreachable_iff

/-- But this is done before the fields that cannot be used any more are hidden: `T` is only in
`f(x: Secret!): T`, the contract hides `Secret` and therefore `f`, and `T` stays. -/
theorem C71_unreachable_false : ∃ (S : Schema) (rs : List (Int × List Site)), Tree S ∧ Order rs rs ∧
    construct S noMarks true true rs (.object 1) = false ∧ IsType S (.object 1) ∧
    ¬ Reachable S (fun s => construct S noMarks true true rs s = true) (.object 1) := by
  refine ⟨sMain, [(-128, [.scalar 1])], tree_of_check (by decide +kernel), ⟨List.Perm.refl _, by decide⟩, by decide +kernel,
    .object (by decide), ?_⟩
  rw [← reachable_iff, ← reached_iff]
  decide +kernel

/-! ## Root types -/

/-- A mutation type all fields of which are hidden is shown to everyone. -/
theorem C71_root_false : ∃ (S : Schema) (m : Marks), Tree S ∧ S.mutation = some 2 ∧ baseSchema S m (.object 2) = false ∧
    S.kids (.object 2) ≠ [] ∧ ∀ k ∈ S.kids (.object 2), baseSchema S m k = true :=
  ⟨sMain, fun s => s == .field 3, tree_of_check (by decide +kernel), rfl, by decide +kernel, by decide +kernel, by decide +kernel⟩

/-- In the schema of a contract it is hidden. -/
theorem C71_root_contract {S : Schema} (T : Tree S) (m : Marks) (accessibleByDefault hide : Bool) (sorted : List (Int × List Site))
    {n : Nat} (hn : n < S.objects.length)
    (h : ∀ k ∈ S.kids (.object n), construct S m accessibleByDefault hide sorted k = true) :
    construct S m accessibleByDefault hide sorted (.object n) = true := by
  unfold construct finalizeContract at h ⊢
  exact (finalize_iff T.wf _ _).2 (.emptyObject hn fun k hk => (finalize_iff T.wf _ _).1 (h k hk))

/-! ## Endpoints -/

theorem findIdx?_url {urls : List String} {url : String} {i : Nat} (h : urls[i]? = some url) :
    ∃ j, urls.findIdx? (· == url) = some j ∧ urls[j]? = some url := by
  cases hf : urls.findIdx? (· == url) with
  | none =>
    rw [List.findIdx?_eq_none_iff] at hf
    have := hf url (List.mem_of_getElem? h)
    simp at this
  | some j =>
    refine ⟨j, rfl, ?_⟩
    rw [List.findIdx?_eq_some_iff_getElem] at hf
    obtain ⟨hj, hp, _⟩ := hf
    rw [List.getElem?_eq_getElem hj]
    simpa using hp

theorem updateEndpoint_targets (e : Endpoints) (name url : String) : (updateEndpoint e name url).targets = e.targets := by
  unfold updateEndpoint
  split
  · rfl
  · rename_i i _
    split
    · rfl
    · rename_i s hs
      split
      · rename_i hu
        obtain ⟨j, hj, hju⟩ := findIdx?_url hu
        simp only [getOrInsertUrl, hj, Endpoints.targets]
        apply List.ext_getElem?
        intro k
        rw [List.getElem?_map, List.getElem?_map, List.getElem?_set]
        split
        · rename_i hik
          subst hik
          rw [hs]
          simp only [getElem?_lt hs, if_true, Option.map_some, hju, hu]
        · rfl
      · rfl

/-- No update of an endpoint changes where a request is sent. -/
theorem C71_endpoint_never (e : Endpoints) (updates : List (String × String)) :
    (updateEndpoints e updates).targets = e.targets := by
  unfold updateEndpoints
  induction updates generalizing e with
  | nil => rfl
  | cons u us ih => rw [List.foldl_cons, ih, updateEndpoint_targets]

/-- So a contract that gives a subgraph another URL has no effect. -/
theorem C71_endpoint_false : ∃ (e : Endpoints) (name url : String), (name, some "http://a") ∈ e.targets ∧
    (name, some url) ∉ (updateEndpoints e [(name, url)]).targets :=
  ⟨⟨["http://a"], [("accounts", 0)]⟩, "accounts", "http://b", by decide, by decide⟩

/-! ## Witness -/

/-- A schema that meets the hypotheses, with a contract that hides a scalar and everything that needs it. -/
theorem C71_witness : Tree sMain ∧ (∀ ix ∈ sMain.metaFields, Site.field ix ∈ sMain.kids (.object sMain.query)) ∧
    construct sMain noMarks true false [(-128, [.scalar 1])] (.value 0) = true ∧
    construct sMain noMarks true false [(-128, [.scalar 1])] (.field 0) = true ∧
    construct sMain noMarks true false [(-128, [.scalar 1])] (.object 0) = false ∧
    construct sMain noMarks true false [(-128, [.scalar 1])] (.enum 0) = false ∧
    construct sMain noMarks false true [(1, [.enumValue 0, .value 1])] (.enum 0) = false ∧
    construct sMain noMarks false true [(1, [.enumValue 0, .value 1])] (.enumValue 1) = true ∧
    construct sMain noMarks false true [(1, [.enumValue 0, .value 1])] (.field 4) = false ∧
    construct sMain noMarks false true [(1, [.enumValue 0, .value 1])] (.field 0) = true ∧
    construct sMain noMarks false true [(1, [.enumValue 0, .value 1])] (.object 2) = true :=
  ⟨tree_of_check (by decide +kernel), by decide +kernel, by decide +kernel, by decide +kernel, by decide +kernel, by decide +kernel,
    by decide +kernel, by decide +kernel, by decide +kernel, by decide +kernel, by decide +kernel⟩

/-- The hypotheses about introspection are met by a schema in which it consists of two fields, an argument and an enum. -/
theorem C71_witness_introspection : Tree sMeta ∧ (∀ ix ∈ sMeta.metaFields, Site.field ix ∈ sMeta.kids (.object sMeta.query)) ∧
    (∀ s, Introspected sMeta s → Container sMeta s → sMeta.kids s ≠ []) ∧
    (∀ (ix : Nat) (v : ValueDef), Introspected sMeta (.value ix) → sMeta.values[ix]? = some v → v.internal = false) ∧
    Introspected sMeta (.enumValue 1) ∧
    construct sMeta noMarks false true [(-128, [.enum 0, .enumValue 1])] (.enumValue 1) = false ∧
    construct sMain noMarks false true [(-128, [.enum 0, .enumValue 1])] (.enumValue 1) = true := by
  have key : ∀ s, Introspected sMeta s → s ∈ [Site.field 1, .field 4, .scalar 0, .value 1, .enum 0, .enumValue 0, .enumValue 1] := by
    have step : ∀ s ∈ [Site.field 1, .field 4, .scalar 0, .value 1, .enum 0, .enumValue 0, .enumValue 1],
        ∀ t ∈ metaStep sMeta s, t ∈ [Site.field 1, .field 4, .scalar 0, .value 1, .enum 0, .enumValue 0, .enumValue 1] := by
      decide +kernel
    intro s h
    rw [← introspected_iff] at h
    induction h with
    | start h _ => exact (by decide +kernel : ∀ s ∈ sMeta.metaFields.map Site.field, s ∈ _) _ h
    | step _ ht _ ih => exact step _ ih _ ht
  refine ⟨tree_of_check (by decide +kernel), by decide +kernel, ?_, ?_, ?_, by decide +kernel, by decide +kernel⟩
  · intro s hs _
    have := key s hs
    simp only [List.mem_cons, List.not_mem_nil, or_false] at this
    rcases this with rfl | rfl | rfl | rfl | rfl | rfl | rfl <;> first | (simp [Schema.kids, sMeta, sMain]; done) | skip
    all_goals rename_i hc; cases hc
  · intro ix v hi hv
    have hm := List.mem_of_getElem? hv
    exact (by decide +kernel : ∀ v ∈ sMeta.values, v.internal = false) v hm
  · have h4 : Introspected sMeta (.field 4) := .start (by decide)
    have hv : Introspected sMeta (.value 1) := .element h4 (by decide +kernel)
    have he : Introspected sMeta (.enum 0) := .valueType hv rfl
    exact .element he (by decide +kernel)

end Verif.Contracts
