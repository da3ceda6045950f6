import Verif.FieldOwners.Owners

/-!
# What an accepted composition says about a field
-/

namespace Verif.FieldOwners

open Verif.FieldTypes Verif.OpChecks Verif.Compose

/-- Parts of an accepted composition. -/
theorem accepted_parts {sg : List Subgraph} {role : Role} {defs : List Def} (h : (composeObject sg role defs).2 = []) :
    (viewsOf defs).flatMap (overrideFromSelf sg) = [] ∧ (composeFields sg defs).2 = [] ∧
    (composeObject sg role defs).1.fields = (composeFields sg defs).1 ∧
    (role = .object → (entityness sg defs).2 = [] ∧ (composeObject sg role defs).1.joinTypes = joinTypes sg defs) ∧
    (role ≠ .object → (composeObject sg role defs).1.joinTypes = []) := by
  unfold composeObject at h ⊢
  cases role with
  | object =>
    simp only [List.append_eq_nil_iff] at h
    exact ⟨h.1.1.1, h.2, rfl, fun _ => ⟨h.1.1.2, rfl⟩, fun hne => absurd rfl hne⟩
  | root =>
    simp only [List.append_eq_nil_iff] at h
    exact ⟨h.1, h.2, rfl, fun hne => (by cases hne), fun _ => rfl⟩
  | subscription =>
    simp only [List.append_eq_nil_iff] at h
    exact ⟨h.1.1.1, h.2, rfl, fun hne => (by cases hne), fun _ => rfl⟩

theorem group_accepted {sg : List Subgraph} {defs : List Def} (h : (composeFields sg defs).2 = []) {n : Nat}
    (hn : ∃ d ∈ defs, ∃ f ∈ d.fields, f.name = n) : (ofGroup sg (named defs n)).2 = [] := by
  rw [composeFields_eq] at h
  obtain ⟨ks, _, hm, he⟩ := fieldGroups_eq defs
  simp only [he, List.flatMap_eq_nil_iff] at h
  exact h _ (List.mem_map.2 ⟨_, List.mem_map.2 ⟨n, (hm n).2 hn, rfl⟩, rfl⟩)

/-- Parts of an accepted field. -/
theorem field_parts {sg : List Subgraph} {fields : List View} (h : (ofGroup sg fields).2 = []) {first : View} {rest : List View}
    (hf : fields = first :: rest) :
    ∃ c, (ofGroup sg fields).1 = some c ∧ invalidFieldSharing sg fields = [] ∧ (mergeArguments first fields).2 = [] ∧
      overrideSourceHasOverride fields = [] := by
  subst hf
  simp only [ofGroup, composeField] at h ⊢
  split at h
  · simp at h
  · rename_i ty hty
    simp only [List.append_eq_nil_iff] at h
    exact ⟨_, rfl, h.1.1.1.1, h.1.1.2, h.1.2⟩

theorem exists_first {defs : List Def} {n : Nat} (hn : ∃ d ∈ defs, ∃ f ∈ d.fields, f.name = n) :
    ∃ first rest, named defs n = first :: rest := by
  have := named_ne_nil hn
  cases h : named defs n with
  | nil => exact absurd h this
  | cons a l => exact ⟨a, l, rfl⟩

/-- The names of the composed fields. -/
theorem composed_names {sg : List Subgraph} {defs : List Def} (h : (composeFields sg defs).2 = []) :
    ((composeFields sg defs).1.map (·.name)).Nodup ∧
    ∀ n, n ∈ (composeFields sg defs).1.map (·.name) ↔ ∃ d ∈ defs, ∃ f ∈ d.fields, f.name = n := by
  obtain ⟨ks, hnd, hm, he⟩ := fieldGroups_eq defs
  have hall : ∀ k ∈ ks, ∃ c, (ofGroup sg (named defs k)).1 = some c ∧ c.name = k := by
    intro k hk
    obtain ⟨first, rest, hf⟩ := exists_first ((hm k).1 hk)
    obtain ⟨c, hc, _⟩ := field_parts (group_accepted h ((hm k).1 hk)) hf
    refine ⟨c, hc, ?_⟩
    obtain ⟨first', rest', hf', hname, _⟩ := ofGroup_some hc
    rw [hname]
    exact (mem_named.1 (show first' ∈ named defs k by rw [hf']; exact List.mem_cons_self)).2.2
  have hmap : (composeFields sg defs).1.map (·.name) = ks := by
    rw [composeFields_eq, he]
    simp only [List.map_map, List.filterMap_map]
    clear hnd hm he
    induction ks with
    | nil => rfl
    | cons k ks ih =>
      obtain ⟨c, hc, hcn⟩ := hall k List.mem_cons_self
      rw [List.filterMap_cons]
      simp only [Function.comp, hc]
      rw [List.map_cons, hcn]
      congr 1
      exact ih fun k hk => hall k (List.mem_cons_of_mem _ hk)
  rw [hmap]
  exact ⟨hnd, hm⟩

/-- A composed field comes from the definitions of its name. -/
theorem composed_field {sg : List Subgraph} {role : Role} {defs : List Def} (h : (composeObject sg role defs).2 = [])
    {c : ComposedField} (hc : c ∈ (composeObject sg role defs).1.fields) :
    (∃ d ∈ defs, ∃ f ∈ d.fields, f.name = c.name) ∧ c.joins = (named defs c.name).map (joinField sg c.ty) ∧
    ∃ first rest, named defs c.name = first :: rest ∧ c.args = (mergeArguments first (named defs c.name)).1 ∧
      (mergeArguments first (named defs c.name)).2 = [] ∧
      composeAll composeForOutput ((named defs c.name).map (·.f.ty)) = some c.ty ∧
      invalidFieldSharing sg (named defs c.name) = [] ∧ overrideSourceHasOverride (named defs c.name) = [] := by
  obtain ⟨_, h2, h3, _⟩ := accepted_parts h
  rw [h3] at hc
  obtain ⟨hn, hg⟩ := mem_composeFields hc
  obtain ⟨first, rest, hf, _, hty, hargs, hj⟩ := ofGroup_some hg
  obtain ⟨_, _, e1, e2, e3⟩ := field_parts (group_accepted h2 hn) hf
  exact ⟨hn, hj, first, rest, hf, hargs, e2, hty, e1, e3⟩

theorem joinTypes_valid {sg : List Subgraph} {role : Role} {defs : List Def} (hw : WF sg defs)
    (h : (composeObject sg role defs).2 = []) : ∀ i ∈ (composeObject sg role defs).1.joinTypes, i < sg.length := by
  obtain ⟨_, _, _, h4, h5⟩ := accepted_parts h
  intro i hi
  by_cases hr : role = .object
  · obtain ⟨he, hj⟩ := h4 hr
    rw [hj, mem_joinTypes he] at hi
    obtain ⟨d, hd, rfl, _⟩ := hi
    exact hw.graph d hd
  · rw [h5 hr] at hi
    cases hi

/-! ## One source -/

theorem two_of_filterMap {α β : Type} [BEq β] [LawfulBEq β] {f : α → Option β} {l : List α} {a b : α} {s : β} (ha : a ∈ l)
    (hb : b ∈ l) (hne : a ≠ b) (hfa : f a = some s) (hfb : f b = some s) : 2 ≤ (l.filterMap f).count s := by
  have hone : ∀ {l : List α} {a : α}, a ∈ l → f a = some s → 1 ≤ (l.filterMap f).count s := by
    intro l a ha hfa
    exact List.count_pos_iff.2 (List.mem_filterMap.2 ⟨a, ha, hfa⟩)
  induction l with
  | nil => cases ha
  | cons x xs ih =>
    rcases List.mem_cons.1 ha with rfl | ha' <;> rcases List.mem_cons.1 hb with rfl | hb'
    · exact absurd rfl hne
    · rw [List.filterMap_cons, hfa]
      simp only [List.count_cons_self]
      have := hone hb' hfb
      omega
    · rw [List.filterMap_cons, hfb]
      simp only [List.count_cons_self]
      have := hone ha' hfa
      omega
    · have := ih ha' hb'
      rw [List.filterMap_cons]
      split
      · exact this
      · rw [List.count_cons]; omega

theorem length_filter_isSome {α β : Type} (f : α → Option β) (l : List α) :
    (l.filter fun a => (f a).isSome).length = (l.filterMap f).length := by
  induction l with
  | nil => rfl
  | cons a l ih =>
    rw [List.filter_cons, List.filterMap_cons]
    cases h : f a <;> simp [ih]

/-- Without an error no two definitions override the same subgraph. -/
theorem one_override {fields : List View} (h : overrideSourceHasOverride fields = []) {v w : View} (hv : v ∈ fields)
    (hw : w ∈ fields) {o p : Override} (ho : v.f.override = some o) (hp : w.f.override = some p) (hs : o.src = p.src) : v = w := by
  apply Classical.byContradiction
  intro hne
  have h2 := two_of_filterMap (f := fun v : View => v.f.override.map (·.src)) (s := o.src) hv hw hne (by simp [ho]) (by simp [hp, hs])
  unfold overrideSourceHasOverride at h
  have hlen : ¬ (fields.filter fun v => v.f.override.isSome).length < 2 := by
    have e : (fun v : View => v.f.override.isSome) = fun v : View => (v.f.override.map (·.src)).isSome := by
      funext v; simp
    rw [e, length_filter_isSome (fun v : View => v.f.override.map (·.src))]
    have := List.count_le_length (a := o.src) (l := fields.filterMap fun v : View => v.f.override.map (·.src))
    omega
  rw [if_neg hlen] at h
  simp only [List.map_eq_nil_iff, List.filter_eq_nil_iff, List.mem_eraseDups, decide_eq_true_eq] at h
  exact h o.src (List.mem_filterMap.2 ⟨v, hv, by simp [ho]⟩) h2

theorem one_source {sg : List Subgraph} {fields : List View} (h : invalidFieldSharing sg fields = [])
    (hs : ∀ v ∈ fields, v.isPartOfKey = false ∧ v.f.shareable = false ∧ v.d.shareable = false) {v w : View}
    (hv : v ∈ fields) (hw : w ∈ fields) (h1 : isSource sg v = true) (h2 : isSource sg w = true) : v = w := by
  unfold invalidFieldSharing at h
  have : (fields.any fun v => v.isPartOfKey || v.f.shareable || v.d.shareable) = false := by
    rw [List.any_eq_false]
    intro x hx
    obtain ⟨a, b, c⟩ := hs x hx
    simp [a, b, c]
  rw [this] at h
  simp only [Bool.false_eq_true, if_false] at h
  have hv' := List.mem_filter.2 ⟨hv, h1⟩
  have hw' := List.mem_filter.2 ⟨hw, h2⟩
  split at h
  · cases h
  · rename_i hno
    cases hl : fields.filter (isSource sg) with
    | nil => rw [hl] at hv'; cases hv'
    | cons a l =>
      cases l with
      | nil =>
        rw [hl, List.mem_singleton] at hv' hw'
        rw [hv', hw']
      | cons b l => exact absurd hl (hno a b l)

/-! ## Arguments -/

theorem defaults_spec : ∀ (args : List Arg) (cur d : Option Nat), composeDefaults cur args = (d, []) →
    (∀ v, cur = some v → d = some v) ∧ (∀ a ∈ args, ∀ v, a.default = some v → d = some v) ∧
    (∀ v, d = some v → cur = some v ∨ ∃ a ∈ args, a.default = some v) := by
  intro args
  induction args with
  | nil =>
    intro cur d h
    cases h
    exact ⟨fun v h => h, fun a ha => (by cases ha), fun v h => Or.inl h⟩
  | cons a as ih =>
    intro cur d h
    rw [composeDefaults.eq_def] at h
    simp only at h
    split at h
    · rename_i hd
      obtain ⟨i1, i2, i3⟩ := ih _ _ h
      refine ⟨i1, fun b hb v hv => ?_, fun v hv => ?_⟩
      · rcases List.mem_cons.1 hb with rfl | hb
        · rw [hd] at hv; cases hv
        · exact i2 b hb v hv
      · rcases i3 v hv with h | ⟨b, hb, h⟩
        · exact Or.inl h
        · exact Or.inr ⟨b, List.mem_cons_of_mem _ hb, h⟩
    · rename_i v hd
      obtain ⟨i1, i2, i3⟩ := ih _ _ h
      refine ⟨fun _ h => (by cases h), fun b hb w hw => ?_, fun w hw => ?_⟩
      · rcases List.mem_cons.1 hb with rfl | hb
        · rw [hd] at hw; cases hw; exact i1 _ rfl
        · exact i2 b hb w hw
      · rcases i3 w hw with h | ⟨b, hb, h⟩
        · cases h; exact Or.inr ⟨a, List.mem_cons_self, hd⟩
        · exact Or.inr ⟨b, List.mem_cons_of_mem _ hb, h⟩
    · rename_i v w hd
      simp only [Prod.mk.injEq, List.append_eq_nil_iff] at h
      obtain ⟨h1, h2, h3⟩ := h
      have hvw : v = w := by
        by_cases e : v = w
        · exact e
        · rw [if_neg e] at h2; cases h2
      obtain ⟨i1, i2, i3⟩ := ih (some w) d (Prod.ext h1 h3)
      refine ⟨i1, fun b hb x hx => ?_, fun x hx => ?_⟩
      · rcases List.mem_cons.1 hb with rfl | hb
        · rw [hd] at hx; cases hx; exact i1 _ (by rw [hvw])
        · exact i2 b hb x hx
      · rcases i3 x hx with h | ⟨b, hb, h⟩
        · exact Or.inl h
        · exact Or.inr ⟨b, List.mem_cons_of_mem _ hb, h⟩

/-- The arguments called `n`, in the order of the definitions. -/
def argsNamed (fields : List View) (n : Nat) : List Arg := (fields.flatMap fun v => v.f.args).filter fun a => decide (a.name = n)

theorem mem_argsNamed {fields : List View} {n : Nat} {a : Arg} :
    a ∈ argsNamed fields n ↔ (∃ v ∈ fields, a ∈ v.f.args) ∧ a.name = n := by
  simp [argsNamed]

def inAll (first : View) (fields : List View) : List Nat :=
  (first.f.args.map (·.name)).filter fun n => (fields.drop 1).all fun v => v.f.args.any fun a => a.name == n

theorem mem_inAll {first : View} {rest : List View} {n : Nat} :
    n ∈ inAll first (first :: rest) ↔ ∀ v ∈ first :: rest, ∃ a ∈ v.f.args, a.name = n := by
  simp [inAll]

theorem mergeArguments_eq (first : View) (fields : List View) :
    ∃ ks : List Nat, ks.Nodup ∧ (∀ k, k ∈ ks ↔ ∃ v ∈ fields, ∃ a ∈ v.f.args, a.name = k) ∧
      mergeArguments first fields =
        ((ks.map fun k => mergeArgument (inAll first fields) (argsNamed fields k)).filterMap (·.1),
         (ks.map fun k => mergeArgument (inAll first fields) (argsNamed fields k)).flatMap (·.2)) := by
  obtain ⟨ks, hn, hm, he⟩ := groups_sorted (fun a : Arg => a.name) (fields.flatMap fun v => v.f.args)
  refine ⟨ks, hn, fun k => ?_, ?_⟩
  · rw [hm]
    simp only [List.mem_map, List.mem_flatMap]
    constructor
    · rintro ⟨a, ⟨v, hv, ha⟩, rfl⟩; exact ⟨v, hv, a, ha, rfl⟩
    · rintro ⟨v, hv, a, ha, rfl⟩; exact ⟨a, ⟨v, hv, ha⟩, rfl⟩
  · unfold mergeArguments
    simp only [he, List.map_map]
    rfl

theorem mergeArgument_ok {inter : List Nat} {n : Nat} {args : List Arg} (hne : args ≠ []) (hname : ∀ a ∈ args, a.name = n)
    (h : (mergeArgument inter args).2 = []) :
    (n ∉ inter → (mergeArgument inter args).1 = none ∧ ∀ a ∈ args, a.ty.wrapping.isNonNull = false) ∧
    (n ∈ inter → ∃ ty d, (mergeArgument inter args).1 = some ⟨n, ty, d⟩ ∧
      composeAll composeForInput (args.map (·.ty)) = some ty ∧ composeDefaults none args = (d, [])) := by
  cases args with
  | nil => exact absurd rfl hne
  | cons a as =>
    have ha := hname a List.mem_cons_self
    unfold mergeArgument at h ⊢
    generalize hde : composeDefaults none (a :: as) = de at h ⊢
    obtain ⟨d, es⟩ := de
    simp only at h ⊢
    rw [ha] at h ⊢
    constructor
    · intro hn
      rw [if_pos hn] at h ⊢
      refine ⟨rfl, ?_⟩
      simp only [List.append_eq_nil_iff] at h
      have h2 := h.2
      split at h2
      · cases h2
      · rename_i hf
        rw [Bool.not_eq_true, List.any_eq_false] at hf
        intro b hb
        simpa using hf b hb
    · intro hn
      rw [if_neg (by simpa using hn)] at h ⊢
      split at h
      · simp at h
      · rename_i ty hty
        simp only [List.append_eq_nil_iff] at h
        refine ⟨ty, d, ?_, hty, ?_⟩
        · rfl
        · rw [h.1]

/-- The composed arguments. -/
theorem arguments_ok {first : View} {rest : List View} (h : (mergeArguments first (first :: rest)).2 = []) :
    (((mergeArguments first (first :: rest)).1.map (·.name)).Nodup) ∧
    (∀ n, n ∈ (mergeArguments first (first :: rest)).1.map (·.name) ↔ ∀ v ∈ first :: rest, ∃ a ∈ v.f.args, a.name = n) ∧
    (∀ v ∈ first :: rest, ∀ a ∈ v.f.args, a.ty.wrapping.isNonNull = true →
      a.name ∈ (mergeArguments first (first :: rest)).1.map (·.name)) ∧
    (∀ c ∈ (mergeArguments first (first :: rest)).1,
      composeAll composeForInput ((argsNamed (first :: rest) c.name).map (·.ty)) = some c.ty ∧
      (∀ v ∈ first :: rest, ∀ a ∈ v.f.args, a.name = c.name → ∀ x, a.default = some x → c.default = some x) ∧
      ∀ x, c.default = some x → ∃ v ∈ first :: rest, ∃ a ∈ v.f.args, a.name = c.name ∧ a.default = some x) := by
  obtain ⟨ks, hnd, hm, he⟩ := mergeArguments_eq first (first :: rest)
  rw [he] at h ⊢
  simp only [List.flatMap_eq_nil_iff] at h
  have hone : ∀ k ∈ ks, (k ∉ inAll first (first :: rest) →
      (mergeArgument (inAll first (first :: rest)) (argsNamed (first :: rest) k)).1 = none ∧
        ∀ a ∈ argsNamed (first :: rest) k, a.ty.wrapping.isNonNull = false) ∧
      (k ∈ inAll first (first :: rest) → ∃ ty d,
        (mergeArgument (inAll first (first :: rest)) (argsNamed (first :: rest) k)).1 = some ⟨k, ty, d⟩ ∧
        composeAll composeForInput ((argsNamed (first :: rest) k).map (·.ty)) = some ty ∧
        composeDefaults none (argsNamed (first :: rest) k) = (d, [])) := by
    intro k hk
    refine mergeArgument_ok ?_ (fun a ha => (mem_argsNamed.1 ha).2) (h _ (List.mem_map.2 ⟨k, hk, rfl⟩))
    obtain ⟨v, hv, a, ha, hak⟩ := (hm k).1 hk
    exact List.ne_nil_of_mem (mem_argsNamed.2 ⟨⟨v, hv, ha⟩, hak⟩)
  have hnames : ((ks.map fun k => mergeArgument (inAll first (first :: rest)) (argsNamed (first :: rest) k)).filterMap (·.1)).map (·.name) =
      ks.filter fun k => decide (k ∈ inAll first (first :: rest)) := by
    clear hnd hm he h
    induction ks with
    | nil => rfl
    | cons k ks ih =>
      have ih := ih fun k hk => hone k (List.mem_cons_of_mem _ hk)
      rw [List.map_cons, List.filterMap_cons, List.filter_cons]
      by_cases hk : k ∈ inAll first (first :: rest)
      · obtain ⟨ty, d, e, _⟩ := (hone k List.mem_cons_self).2 hk
        rw [e]
        simp only [List.map_cons, ih, hk, decide_true, if_true]
      · rw [((hone k List.mem_cons_self).1 hk).1]
        simp only [ih, hk, decide_false, Bool.false_eq_true, if_false]
  simp only [hnames]
  refine ⟨List.Pairwise.filter _ hnd, fun n => ?_, fun v hv a ha hr => ?_, fun c hc => ?_⟩
  · rw [List.mem_filter, decide_eq_true_eq, mem_inAll]
    constructor
    · exact fun h => h.2
    · intro h
      refine ⟨(hm n).2 ⟨first, List.mem_cons_self, h first List.mem_cons_self⟩, h⟩
  · rw [List.mem_filter, decide_eq_true_eq]
    have hk : a.name ∈ ks := (hm _).2 ⟨v, hv, a, ha, rfl⟩
    refine ⟨hk, ?_⟩
    apply Classical.byContradiction
    intro hno
    have := ((hone _ hk).1 hno).2 a (mem_argsNamed.2 ⟨⟨v, hv, ha⟩, rfl⟩)
    rw [hr] at this
    cases this
  · simp only [List.mem_filterMap, List.mem_map] at hc
    obtain ⟨_, ⟨k, hk, rfl⟩, hc⟩ := hc
    by_cases hki : k ∈ inAll first (first :: rest)
    · obtain ⟨ty, d, e, hty, hd⟩ := (hone k hk).2 hki
      rw [e] at hc
      cases hc
      obtain ⟨_, d2, d3⟩ := defaults_spec _ _ _ hd
      refine ⟨hty, fun v hv a ha hn x hx => d2 a (mem_argsNamed.2 ⟨⟨v, hv, ha⟩, hn⟩) x hx, fun x hx => ?_⟩
      rcases d3 x hx with h | ⟨a, ha, hax⟩
      · cases h
      · obtain ⟨⟨v, hv, hav⟩, hn⟩ := mem_argsNamed.1 ha
        exact ⟨v, hv, a, hav, hn, hax⟩
    · rw [((hone k hk).1 hki).1] at hc
      cases hc

end Verif.FieldOwners
