import Verif.SchemaRules.Impls
import Verif.ResponseKeys.Total

/-!
# Input objects that hold themselves
-/
namespace Verif.SchemaRules

variable {c : Ctx} {o : Opts} {ds : List Definition}

theorem inputFields_iff (hk : Knows c o ds) (n : Name) (fs : List Arg) :
    inputFields c n = some fs ↔ ∃ t, definition ds n = some t ∧ t.kind = .input fs := by
  unfold inputFields
  rw [hk.defs]
  cases definition ds n with
  | none => simp
  | some t => cases h : t.kind <;> simp [h]

theorem ty_named {t : Ty} (h : (t.nullable || t.isList) = false) : t = .named t.base false := by
  cases t with
  | named n b => simp_all [Ty.nullable, Ty.base, Ty.isList]
  | list t b => simp [Ty.isList] at h

theorem named_ty {t : Ty} {b : Name} (h : t = .named b false) : (t.nullable || t.isList) = false ∧ t.base = b := by
  subst h; simp [Ty.nullable, Ty.base, Ty.isList]

/-- The fields lead from one of the given fields to an input object. -/
def ChainIn (ds : List Definition) (fields : List Arg) (l : List Name) (n : Name) : Prop :=
  ∃ f ∈ fields, (f.ty = .named n false ∧ l = [f.name]) ∨ ∃ b rest, f.ty = .named b false ∧ l = f.name :: rest ∧ Chain ds b rest n

theorem ChainIn.mono {fields fields' : List Arg} {l : List Name} {n : Name} (hs : ∀ f ∈ fields, f ∈ fields')
    (h : ChainIn ds fields l n) : ChainIn ds fields' l n := by
  obtain ⟨f, hf, h⟩ := h
  exact ⟨f, hs f hf, h⟩

theorem ChainIn.chain {a : Name} {t : TypeDef} {fs : List Arg} {l : List Name} {n : Name} (hd : definition ds a = some t)
    (hk : t.kind = .input fs) (h : ChainIn ds fs l n) : Chain ds a l n := by
  obtain ⟨f, hf, ⟨h1, h2⟩ | ⟨b, rest, h1, h2, h3⟩⟩ := h
  · subst h2; exact .one hd hk hf h1
  · subst h2; exact .more hd hk hf h1 h3

theorem references_some (hk : Knows c o ds) (name : Name) : ∀ (fuel : Nat) (fields : List Arg) (visited v' : List Name)
    (chain : List Name), references c name fuel fields visited = (some chain, v') → ChainIn ds fields chain.reverse name := by
  intro fuel
  induction fuel with
  | zero => intro fields visited v' chain h; simp [references] at h
  | succ fuel ih =>
    intro fields
    simp only [references]
    induction fields with
    | nil => intro visited v' chain h; simp [referencesIn] at h
    | cons f rest ihr =>
      intro visited v' chain h
      have hrest : ∀ {v : List Name}, referencesIn c name (references c name fuel) rest v = (some chain, v') →
          ChainIn ds (f :: rest) chain.reverse name :=
        fun h => (ihr _ _ _ h).mono (fun g hg => List.mem_cons_of_mem _ hg)
      rw [referencesIn] at h
      by_cases h1 : (f.ty.nullable || f.ty.isList) = true
      · rw [if_pos h1] at h; exact hrest h
      · rw [if_neg h1] at h
        have hn := ty_named (by simpa using h1)
        by_cases h2 : f.ty.base = name
        · rw [if_pos h2] at h
          simp only [Prod.mk.injEq, Option.some.injEq] at h
          rw [h2] at hn
          exact ⟨f, by simp, .inl ⟨hn, by rw [← h.1]; rfl⟩⟩
        · rw [if_neg h2] at h
          by_cases h3 : visited.contains f.ty.base = true
          · rw [if_pos h3] at h; exact hrest h
          · rw [if_neg h3] at h
            cases hf : inputFields c f.ty.base with
            | none => simp only [hf] at h; exact hrest h
            | some fs =>
              simp only [hf] at h
              cases hr : references c name fuel fs (f.ty.base :: visited) with
              | mk r v =>
                cases r with
                | none => simp only [hr] at h; exact hrest h
                | some ch =>
                  simp only [hr, Prod.mk.injEq, Option.some.injEq] at h
                  have hch := ih fs _ _ _ hr
                  obtain ⟨t, ht, htk⟩ := (inputFields_iff hk _ _).mp hf
                  refine ⟨f, by simp, .inr ⟨f.ty.base, ch.reverse, hn, by rw [← h.1]; simp, hch.chain ht htk⟩⟩

/-- None of the fields is the input object, and those that are input objects have been visited. -/
def Seen (c : Ctx) (name : Name) (v : List Name) (fields : List Arg) : Prop :=
  ∀ f ∈ fields, (f.ty.nullable || f.ty.isList) = false →
    f.ty.base ≠ name ∧ ((inputFields c f.ty.base).isSome → f.ty.base ∈ v)

theorem Seen.mono {name : Name} {v v' : List Name} {fields : List Arg} (hs : ∀ x ∈ v, x ∈ v') (h : Seen c name v fields) :
    Seen c name v' fields := fun f hf hn => ⟨(h f hf hn).1, fun hi => hs _ ((h f hf hn).2 hi)⟩

/-- What is visited are input objects of the document, each once. -/
def Fine (c : Ctx) (v : List Name) : Prop := v.Nodup ∧ ∀ x ∈ v, (inputFields c x).isSome

/-- The input objects visited since have been looked at. -/
def Explored (c : Ctx) (name : Name) (v v' : List Name) : Prop :=
  ∀ x ∈ v', x ∉ v → ∀ fs, inputFields c x = some fs → Seen c name v' fs

theorem Fine.length {v : List Name} (h : Fine c v) : v.length ≤ c.defs.length := by
  have : v.length ≤ (c.defs.map (·.1)).length := by
    apply Verif.ResponseKeys.length_le_of_nodup_subset h.1
    intro x hx
    have := h.2 x hx
    obtain ⟨fs, hfs⟩ := Option.isSome_iff_exists.mp this
    unfold inputFields at hfs
    cases hg : get c.defs x with
    | none => simp [hg] at hfs
    | some t => exact get_mem_keys hg
  simpa using this

theorem references_none (name : Name) : ∀ (fuel : Nat) (fields : List Arg) (visited v' : List Name),
    references c name fuel fields visited = (none, v') → Fine c visited → c.defs.length + 1 ≤ fuel + visited.length →
    Fine c v' ∧ (∀ x ∈ visited, x ∈ v') ∧ visited.length ≤ v'.length ∧ Seen c name v' fields ∧ Explored c name visited v' := by
  intro fuel
  induction fuel with
  | zero =>
    intro fields visited v' h hf hl
    have := hf.length
    omega
  | succ fuel ih =>
    intro fields
    simp only [references]
    induction fields with
    | nil =>
      intro visited v' h hf hl
      simp only [referencesIn, Prod.mk.injEq, true_and] at h
      subst h
      exact ⟨hf, fun x hx => hx, Nat.le_refl _, by intro f hf; simp at hf, fun x h1 h2 => absurd h1 h2⟩
    | cons f rest ihr =>
      intro visited v' h hf hl
      rw [referencesIn] at h
      have hcons : ∀ {v}, Seen c name v rest → ((f.ty.nullable || f.ty.isList) = false → f.ty.base ≠ name ∧
          ((inputFields c f.ty.base).isSome → f.ty.base ∈ v)) → Seen c name v (f :: rest) := by
        intro v h1 h2 g hg
        rcases List.mem_cons.mp hg with rfl | hg
        · exact h2
        · exact h1 g hg
      by_cases h1 : (f.ty.nullable || f.ty.isList) = true
      · rw [if_pos h1] at h
        obtain ⟨k1, k2, k3, k4, k5⟩ := ihr _ _ h hf hl
        exact ⟨k1, k2, k3, hcons k4 (fun h => by rw [h1] at h; cases h), k5⟩
      · rw [if_neg h1] at h
        by_cases h2 : f.ty.base = name
        · rw [if_pos h2] at h; simp at h
        · rw [if_neg h2] at h
          by_cases h3 : visited.contains f.ty.base = true
          · rw [if_pos h3] at h
            obtain ⟨k1, k2, k3, k4, k5⟩ := ihr _ _ h hf hl
            exact ⟨k1, k2, k3, hcons k4 (fun _ => ⟨h2, fun _ => k2 _ (by simpa using h3)⟩), k5⟩
          · rw [if_neg h3] at h
            cases hfi : inputFields c f.ty.base with
            | none =>
              simp only [hfi] at h
              obtain ⟨k1, k2, k3, k4, k5⟩ := ihr _ _ h hf hl
              exact ⟨k1, k2, k3, hcons k4 (fun _ => ⟨h2, fun hs => by simp [hfi] at hs⟩), k5⟩
            | some fs =>
              simp only [hfi] at h
              cases hr : references c name fuel fs (f.ty.base :: visited) with
              | mk r v =>
                cases r with
                | some ch => simp [hr] at h
                | none =>
                  simp only [hr] at h
                  have hfine : Fine c (f.ty.base :: visited) := by
                    refine ⟨List.nodup_cons.mpr ⟨by simpa using h3, hf.1⟩, ?_⟩
                    intro x hx
                    rcases List.mem_cons.mp hx with rfl | hx
                    · simp [hfi]
                    · exact hf.2 x hx
                  obtain ⟨j1, j2, j3, j4, j5⟩ := ih fs _ _ hr hfine (by simp only [List.length_cons]; omega)
                  simp only [List.length_cons] at j3
                  obtain ⟨k1, k2, k3, k4, k5⟩ := ihr _ _ h j1 (by omega)
                  refine ⟨k1, fun x hx => k2 x (j2 x (List.mem_cons_of_mem _ hx)), by omega,
                    hcons k4 (fun _ => ⟨h2, fun _ => k2 _ (j2 _ (by simp))⟩), ?_⟩
                  intro x hx hnv gs hgs
                  by_cases hxv : x ∈ v
                  · by_cases hxf : x = f.ty.base
                    · subst hxf
                      rw [hfi] at hgs
                      injection hgs with hgs
                      subst hgs
                      exact j4.mono k2
                    · exact (j5 x hxv (by simp [hxf, hnv]) gs hgs).mono k2
                  · exact k5 x hx hxv gs hgs

theorem holds_iff (hk : Knows c o ds) (a b : Name) :
    Holds ds a b ↔ ∃ fs f, inputFields c a = some fs ∧ f ∈ fs ∧ f.ty = .named b false := by
  constructor
  · rintro ⟨t, fs, f, h1, h2, h3, h4⟩
    exact ⟨fs, f, (inputFields_iff hk _ _).mpr ⟨t, h1, h2⟩, h3, h4⟩
  · rintro ⟨fs, f, h1, h2, h3⟩
    obtain ⟨t, h4, h5⟩ := (inputFields_iff hk _ _).mp h1
    exact ⟨t, fs, f, h4, h5, h2, h3⟩

theorem Chain.reaches {a b : Name} {l : List Name} (h : Chain ds a l b) : Reaches ds a b := by
  induction h with
  | one h1 h2 h3 h4 => exact .one ⟨_, _, _, h1, h2, h3, h4⟩
  | more h1 h2 h3 h4 _ ih => exact .more ⟨_, _, _, h1, h2, h3, h4⟩ ih

/-- Nothing closed leads to the input object. -/
theorem not_reaches (hk : Knows c o ds) {name : Name} {v : List Name}
    (hv : ∀ x ∈ v, ∀ fs, inputFields c x = some fs → Seen c name v fs) {a b : Name} (h : Reaches ds a b) :
    (∀ fs, inputFields c a = some fs → Seen c name v fs) → b ≠ name := by
  induction h with
  | one h1 =>
    intro ha
    obtain ⟨fs, f, h2, h3, h4⟩ := (holds_iff hk _ _).mp h1
    have := ha fs h2 f h3 (named_ty h4).1
    rw [(named_ty h4).2] at this
    exact this.1
  | more h1 h5 ih =>
    intro ha
    obtain ⟨fs, f, h2, h3, h4⟩ := (holds_iff hk _ _).mp h1
    have := ha fs h2 f h3 (named_ty h4).1
    rw [(named_ty h4).2] at this
    apply ih
    intro gs hgs
    exact hv _ (this.2 (by simp [hgs])) gs hgs

theorem inputCycles_nil (hk : Knows c o ds) {t : TypeDef} {fs : List Arg} (hd : definition ds t.name = some t)
    (hkd : t.kind = .input fs) : inputCycles c t.name fs = [] ↔ ¬ Reaches ds t.name t.name := by
  unfold inputCycles
  cases hr : references c t.name (c.defs.length + 1) fs [] with
  | mk r v =>
    cases r with
    | some chain =>
      have := (references_some hk _ _ _ _ _ _ hr).chain hd hkd
      simp [this.reaches]
    | none =>
      simp only [true_iff]
      intro hreach
      obtain ⟨k1, k2, k3, k4, k5⟩ := references_none _ _ _ _ _ hr ⟨by simp, by simp⟩ (by simp)
      refine not_reaches hk (v := v) (fun x hx gs hgs => k5 x hx (by simp) gs hgs) hreach ?_ rfl
      intro gs hgs
      rw [(inputFields_iff hk _ _).mpr ⟨t, hd, hkd⟩] at hgs
      injection hgs with hgs
      subst hgs
      exact k4

theorem inputCycles_chain (hk : Knows c o ds) {t : TypeDef} {fs : List Arg} (hd : definition ds t.name = some t)
    (hkd : t.kind = .input fs) {e : Err} (he : e ∈ inputCycles c t.name fs) :
    ∃ l, e = .cycle t.name l ∧ Chain ds t.name l t.name := by
  unfold inputCycles at he
  cases hr : references c t.name (c.defs.length + 1) fs [] with
  | mk r v =>
    cases r with
    | none => simp [hr] at he
    | some chain =>
      simp only [hr, List.mem_singleton] at he
      exact ⟨_, he, (references_some hk _ _ _ _ _ _ hr).chain hd hkd⟩

theorem validateInput_nil (hk : Knows c o ds) {t : TypeDef} {fs : List Arg} (hd : definition ds t.name = some t)
    (hkd : t.kind = .input fs) : validateInput c t fs = [] ↔ TypeOk o ds t := by
  unfold validateInput TypeOk
  simp only [hkd, List.append_eq_nil_iff, validateDirectives_nil hk, ite_nil', List.isEmpty_iff, flatMap_nil,
    inputType_nil hk, inputCycles_nil hk hd hkd, and_assoc]
  constructor
  · rintro ⟨h1, h2, h3, h4⟩; exact ⟨h1, h2, h4, h3⟩
  · rintro ⟨h1, h2, h4, h3⟩; exact ⟨h1, h2, h3, h4⟩

end Verif.SchemaRules
