import Verif.ContractEngines.Spec
namespace Verif.ContractEngines

theorem upd_self {α β : Type} [DecidableEq α] (f : α → β) (k : α) (v : β) : upd f k v k = v := by simp [upd]
theorem upd_ne {α β : Type} [DecidableEq α] (f : α → β) {k j : α} (v : β) (h : j ≠ k) : upd f k v j = f j := by simp [upd, h]

structure Inv (env : Env) (s : State) : Prop where
  cached : ∀ k e, s.cache k = some e → e ∈ s.built ∧ e.key = k
  guard : ∀ k n, s.guard k = some n ↔ Builds s n k
  free : ∀ k n, s.guard k = some n → s.cache k = none
  ok : ∀ n k e, s.reqs n = some ⟨k, .done (.engine e)⟩ → e ∈ s.built ∧ e.key = k
  hash : ∀ e, e ∈ s.built → e.hash = env.hash (env.base ++ e.key)

theorem inv_init (env : Env) : Inv env {} := by
  refine ⟨fun _ _ h => (by cases h), fun k n => ⟨fun h => (by cases h), ?_⟩, fun _ _ h => (by cases h), fun _ _ _ h => (by cases h),
    fun _ h => (by cases h)⟩
  rintro (h | ⟨_, h⟩) <;> cases h

/-- A step which changes only the place of a request which does not build before or after. -/
theorem inv_go {env : Env} {s : State} (i : Inv env s) {n : Nat} {k : Key} {p : Phase} (hb : ∀ j, ¬ Builds s n j)
    (hp : p ≠ .constructing) (hp2 : ∀ sch, p ≠ .adjusting sch) (hd : ∀ e, p = .done (.engine e) → e ∈ s.built ∧ e.key = k) :
    Inv env (s.go n k p) := by
  obtain ⟨ca, gu, fr, ok, ha⟩ := i
  refine ⟨ca, ?_, fr, ?_, ha⟩
  · intro j m
    refine (gu j m).trans ?_
    by_cases e : m = n
    · subst e
      refine ⟨fun h => absurd h (hb j), ?_⟩
      rintro (h | ⟨sch, h⟩)
      · simp only [State.go, upd_self, Option.some.injEq, Req.mk.injEq] at h
        exact absurd h.2 hp
      · simp only [State.go, upd_self, Option.some.injEq, Req.mk.injEq] at h
        exact absurd h.2 (hp2 sch)
    · simp only [Builds, State.go, upd_ne _ _ e]
  · intro m j e h
    by_cases em : m = n
    · subst em
      simp only [State.go, upd_self, Option.some.injEq, Req.mk.injEq] at h
      exact h.1 ▸ hd e h.2
    · simp only [State.go, upd_ne _ _ em] at h
      exact ok m j e h

/-- A step by which a request stops building. -/
theorem inv_stop {env : Env} {s : State} (i : Inv env s) {n : Nat} {k : Key} (hb : Builds s n k) (r : Option Req)
    (c : Key → Option Engine) (b : List Engine)
    (hr : r = none ∨ ∃ a, r = some ⟨k, .done a⟩ ∧ ∀ e, a = .engine e → e ∈ b ∧ e.key = k)
    (hc : ∀ j e, c j = some e → e ∈ b ∧ e.key = j) (hcj : ∀ j, j ≠ k → c j = s.cache j)
    (hsub : ∀ e, e ∈ s.built → e ∈ b) (hh : ∀ e, e ∈ b → e.hash = env.hash (env.base ++ e.key)) :
    Inv env { cache := c, guard := upd s.guard k none, reqs := upd s.reqs n r, built := b } := by
  obtain ⟨ca, gu, fr, ok, ha⟩ := i
  have hn := (gu k n).mpr hb
  have huniq : ∀ j, Builds s n j → j = k := by
    intro j hj
    rcases hb with hb | ⟨_, hb⟩ <;> rcases hj with hj | ⟨_, hj⟩ <;> rw [hb] at hj <;> injection hj with hj <;>
      injection hj with hj <;> exact hj.symm
  refine ⟨hc, ?_, ?_, ?_, hh⟩
  · intro j m
    by_cases em : m = n
    · subst em
      refine ⟨fun h => ?_, ?_⟩
      · exfalso
        by_cases ej : j = k
        · subst ej
          simp only [upd_self] at h
          cases h
        · simp only [upd_ne _ _ ej] at h
          exact ej (huniq j ((gu j m).mp h))
      · intro h
        exfalso
        rcases hr with hr | ⟨a, hr, _⟩ <;> rcases h with h | ⟨sch, h⟩ <;> simp only [upd_self, hr] at h <;> cases h
    · have hB : Builds { cache := c, guard := upd s.guard k none, reqs := upd s.reqs n r, built := b } m j ↔ Builds s m j := by
        simp only [Builds, upd_ne _ _ em]
      rw [hB]
      by_cases ej : j = k
      · subst ej
        simp only [upd_self]
        refine ⟨fun h => (by cases h), fun h => ?_⟩
        have := (gu j m).mpr h
        rw [hn] at this
        injection this with this
        exact absurd this.symm em
      · simp only [upd_ne _ _ ej]
        exact gu j m
  · intro j m h
    by_cases ej : j = k
    · subst ej
      simp only [upd_self] at h
      cases h
    · simp only [upd_ne _ _ ej] at h
      show c j = none
      rw [hcj j ej]
      exact fr j m h
  · intro m j e h
    by_cases em : m = n
    · subst em
      simp only [upd_self] at h
      rcases hr with hr | ⟨a, hr, hr2⟩
      · rw [hr] at h; cases h
      · rw [hr] at h
        injection h with h
        injection h with h1 h2
        injection h2 with h2
        exact h1 ▸ hr2 e h2
    · simp only [upd_ne _ _ em] at h
      have := ok m j e h
      exact ⟨hsub e this.1, this.2⟩

theorem not_builds {s : State} {n : Nat} {k : Key} (h : Waits s n k) (j : Key) : ¬ Builds s n j := by
  rcases h with h | h <;> rintro (h2 | ⟨_, h2⟩) <;> rw [h] at h2 <;> cases h2

theorem inv_look {env : Env} {s : State} (i : Inv env s) {n : Nat} {k : Key} (hw : Waits s n k) : Inv env (look n k s) := by
  unfold look
  cases hc : s.cache k with
  | some e =>
    refine inv_go i (not_builds hw) (by simp) (by simp) ?_
    intro e' h
    simp only [Phase.done.injEq, Answer.engine.injEq] at h
    exact h ▸ i.cached k e hc
  | none =>
    cases hg : s.guard k with
    | some m => exact inv_go i (not_builds hw) (by simp) (by simp) (by simp)
    | none =>
      obtain ⟨ca, gu, fr, ok, ha⟩ := i
      refine ⟨ca, ?_, ?_, ?_, ha⟩
      · intro j m
        by_cases em : m = n
        · subst em
          by_cases ej : j = k
          · subst ej
            simp [Builds, State.go, upd]
          · have hnb := not_builds hw j
            rw [← gu] at hnb
            simp only [upd_ne _ _ ej]
            refine ⟨fun h => absurd h hnb, ?_⟩
            rintro (h | ⟨_, h⟩) <;> simp only [State.go, upd_self] at h <;> injection h with h <;> injection h with h1 h2
            · exact absurd h1.symm ej
            · cases h2
        · have hB : Builds { s.go n k .constructing with guard := upd s.guard k (some n) } m j ↔ Builds s m j := by
            simp only [Builds, State.go, upd_ne _ _ em]
          rw [hB]
          by_cases ej : j = k
          · subst ej
            simp only [upd_self]
            refine ⟨fun h => ?_, fun h => ?_⟩
            · injection h with h
              exact absurd h.symm em
            · have := (gu j m).mpr h
              rw [hg] at this
              cases this
          · simp only [upd_ne _ _ ej]
            exact gu j m
      · intro j m h
        by_cases ej : j = k
        · subst ej
          exact hc
        · simp only [upd_ne _ _ ej] at h
          exact fr j m h
      · intro m j e h
        by_cases em : m = n
        · subst em
          simp only [State.go, upd_self] at h
          injection h with h
          injection h with _ h
          cases h
        · simp only [State.go, upd_ne _ _ em] at h
          exact ok m j e h

theorem inv_step {env : Env} {s : State} (i : Inv env s) (a : Action) : Inv env (step env s a) := by
  cases a with
  | call n k =>
    simp only [step]
    split
    · rename_i h
      refine inv_go i ?_ (by simp) (by simp) (by simp)
      rintro j (h2 | ⟨_, h2⟩) <;> rw [h] at h2 <;> cases h2
    · exact i
  | look n =>
    simp only [step]
    split
    · rename_i h; exact inv_look i (.inl h)
    · rename_i h; exact inv_look i (.inr h)
    · exact i
  | constructed n sch =>
    simp only [step]
    split
    · rename_i k h
      cases sch with
      | none =>
        exact inv_stop i (.inl h) _ s.cache s.built (.inr ⟨.extensionError, rfl, by simp⟩) i.cached (fun _ _ => rfl) (fun _ h => h) i.hash
      | some sch =>
        obtain ⟨ca, gu, fr, ok, ha⟩ := i
        refine ⟨ca, ?_, fr, ?_, ha⟩
        · intro j m
          refine (gu j m).trans ?_
          by_cases em : m = n
          · subst em
            constructor
            · rintro (h2 | ⟨_, h2⟩) <;> rw [h] at h2 <;> injection h2 with h2 <;> injection h2 with h1 h2
              · exact .inr ⟨sch, by simp [constructed, State.go, upd, h1]⟩
              · cases h2
            · rintro (h2 | ⟨_, h2⟩) <;> simp only [constructed, State.go, upd_self] at h2 <;> injection h2 with h2 <;>
                injection h2 with h1 h2
              · cases h2
              · exact .inl (h1 ▸ h)
          · simp only [Builds, constructed, State.go, upd_ne _ _ em]
        · intro m j e h2
          by_cases em : m = n
          · subst em
            simp only [constructed, State.go, upd_self] at h2
            injection h2 with h2
            injection h2 with _ h2
            cases h2
          · simp only [constructed, State.go, upd_ne _ _ em] at h2
            exact ok m j e h2
    · exact i
  | adjusted n ok =>
    simp only [step]
    split
    · rename_i k sch h
      cases ok with
      | false =>
        exact inv_stop i (.inr ⟨sch, h⟩) _ s.cache s.built (.inr ⟨.runtimeError, rfl, by simp⟩) i.cached (fun _ _ => rfl) (fun _ h => h) i.hash
      | true =>
        refine inv_stop i (.inr ⟨sch, h⟩) _ _ _ (.inr ⟨.engine ⟨k, sch, rehash env k⟩, rfl, ?_⟩) ?_ ?_ ?_ ?_
        · intro e he
          injection he with he
          subst he
          exact ⟨List.mem_cons_self, rfl⟩
        · intro j e he
          by_cases ej : j = k
          · subst ej
            simp only [upd_self] at he
            injection he with he
            subst he
            exact ⟨List.mem_cons_self, rfl⟩
          · simp only [upd_ne _ _ ej] at he
            have := i.cached j e he
            exact ⟨List.mem_cons_of_mem _ this.1, this.2⟩
        · exact fun j ej => upd_ne _ _ ej
        · exact fun e he => List.mem_cons_of_mem _ he
        · intro e he
          rcases List.mem_cons.mp he with he | he
          · subst he; rfl
          · exact i.hash e he
    · exact i
  | cancel n =>
    simp only [step]
    split
    · rename_i r h
      obtain ⟨k, p⟩ := r
      have hstop : Builds s n k → Inv env { s.release k with reqs := upd s.reqs n none } := fun hb =>
        inv_stop i hb none s.cache s.built (.inl rfl) i.cached (fun _ _ => rfl) (fun _ h => h) i.hash
      have hgone : (∀ j, ¬ Builds s n j) → Inv env { s with reqs := upd s.reqs n none } := by
        intro hb
        obtain ⟨ca, gu, fr, ok, ha⟩ := i
        refine ⟨ca, ?_, fr, ?_, ha⟩
        · intro j m
          refine (gu j m).trans ?_
          by_cases em : m = n
          · subst em
            refine ⟨fun h => absurd h (hb j), ?_⟩
            rintro (h | ⟨_, h⟩) <;> simp only [upd_self] at h <;> cases h
          · simp only [Builds, upd_ne _ _ em]
        · intro m j e h2
          by_cases em : m = n
          · subst em
            simp only [upd_self] at h2
            cases h2
          · simp only [upd_ne _ _ em] at h2
            exact ok m j e h2
      cases p with
      | start => exact hgone (not_builds (.inl h))
      | waiting => exact hgone (not_builds (.inr h))
      | constructing => exact hstop (.inl h)
      | adjusting sch => exact hstop (.inr ⟨sch, h⟩)
      | done a => exact i
    · exact i
  | evict k =>
    obtain ⟨ca, gu, fr, ok, ha⟩ := i
    refine ⟨?_, gu, ?_, ok, ha⟩
    · intro j e h
      by_cases ej : j = k
      · subst ej
        simp only [step, upd_self] at h
        cases h
      · simp only [step, upd_ne _ _ ej] at h
        exact ca j e h
    · intro j m h
      by_cases ej : j = k
      · subst ej
        simp only [step, upd_self]
      · simp only [step, upd_ne _ _ ej]
        exact fr j m h

theorem Reached.inv {env : Env} {s : State} (h : Reached env s) : Inv env s := by
  obtain ⟨acts, rfl⟩ := h
  have : ∀ (acts : List Action) (s : State), Inv env s → Inv env (run env acts s) := by
    intro acts
    induction acts with
    | nil => exact fun _ i => i
    | cons a acts ih => exact fun s i => ih _ (inv_step i a)
  exact this acts {} (inv_init env)

end Verif.ContractEngines
