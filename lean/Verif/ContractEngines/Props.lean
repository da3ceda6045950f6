import Verif.ContractEngines.Lemmas
/-! C99: engines of contracts. -/
namespace Verif.ContractEngines

/-- C99: a request gets an engine only of its own contract, which was made with success; its hash is the one of the contract. -/
theorem C99_own {env : Env} {s : State} (h : Reached env s) {n : Nat} {k : Key} {e : Engine}
    (hr : s.reqs n = some ⟨k, .done (.engine e)⟩) : e.key = k ∧ e ∈ s.built ∧ e.hash = env.hash (env.base ++ k) := by
  have i := h.inv
  have := i.ok n k e hr
  exact ⟨this.2, this.1, this.2 ▸ i.hash e this.1⟩

/-- C99: an engine is made only of what the extension gave for the same contract. -/
theorem C99_built (env : Env) (s : State) (a : Action) (e : Engine) (he : e ∈ (step env s a).built) :
    e ∈ s.built ∨ ∃ n sch, a = .adjusted n true ∧ s.reqs n = some ⟨e.key, .adjusting sch⟩ ∧ e.schema = sch := by
  cases a with
  | call n k => simp only [step] at he; split at he <;> exact .inl he
  | look n =>
    have hl : ∀ k, (look n k s).built = s.built := by
      intro k
      simp only [look]
      split
      · rfl
      · split <;> rfl
    simp only [step] at he
    split at he
    · exact .inl (hl _ ▸ he)
    · exact .inl (hl _ ▸ he)
    · exact .inl he
  | constructed n sch =>
    simp only [step] at he
    split at he
    · cases sch <;> exact .inl he
    · exact .inl he
  | adjusted n ok =>
    simp only [step] at he
    split at he
    · rename_i k sch hr
      cases ok with
      | false => exact .inl he
      | true =>
        rcases List.mem_cons.mp he with he | he
        · subst he
          exact .inr ⟨n, sch, rfl, hr, rfl⟩
        · exact .inl he
    · exact .inl he
  | cancel n =>
    simp only [step] at he
    split at he
    · simp only [cancel] at he
      split at he <;> exact .inl he
    · exact .inl he
  | evict k => exact .inl he

/-- C99: at most one request at a time makes the engine of a contract. -/
theorem C99_single {env : Env} {s : State} (h : Reached env s) {n m : Nat} {k : Key} (hn : Builds s n k) (hm : Builds s m k) :
    n = m := by
  have i := h.inv
  have h1 := (i.guard k n).mpr hn
  have h2 := (i.guard k m).mpr hm
  rw [h1] at h2
  injection h2

/-- C99: while the engine is in the cache nobody makes it, and who asks for it gets it at once. -/
theorem C99_cached {env : Env} {s : State} (h : Reached env s) {k : Key} {e : Engine} (hc : s.cache k = some e) :
    e.key = k ∧ (∀ n, ¬ Builds s n k) ∧
      ∀ n, Waits s n k → (step env s (.look n)).reqs n = some ⟨k, .done (.engine e)⟩ := by
  have i := h.inv
  refine ⟨(i.cached k e hc).2, ?_, ?_⟩
  · intro n hb
    have := i.free k n ((i.guard k n).mpr hb)
    rw [hc] at this
    cases this
  · rintro n (hw | hw) <;> simp [step, hw, look, hc, State.go, upd]

/-- C99: if it is not in the cache who asks for it makes it if nobody does, and waits otherwise. -/
theorem C99_missing {env : Env} {s : State} (h : Reached env s) {n : Nat} {k : Key} (hc : s.cache k = none) (hw : Waits s n k) :
    ((∀ m, ¬ Builds s m k) → Builds (step env s (.look n)) n k) ∧
      ((∃ m, Builds s m k) → (step env s (.look n)).reqs n = some ⟨k, .waiting⟩) := by
  have i := h.inv
  refine ⟨?_, ?_⟩
  · intro hn
    have hg : s.guard k = none := by
      cases hg : s.guard k with
      | none => rfl
      | some m => exact absurd ((i.guard k m).mp hg) (hn m)
    refine .inl ?_
    rcases hw with hw | hw <;> simp [step, hw, look, hc, hg, State.go, upd]
  · rintro ⟨m, hm⟩
    have hg := (i.guard k m).mpr hm
    rcases hw with hw | hw <;> simp [step, hw, look, hc, hg, State.go, upd]

/-- C99: when it is made the one who made it has it, and all others find it. -/
theorem C99_made {env : Env} {s : State} {n sch : Nat} {k : Key} (hb : s.reqs n = some ⟨k, .adjusting sch⟩) :
    let e : Engine := ⟨k, sch, env.hash (env.base ++ k)⟩
    (step env s (.adjusted n true)).reqs n = some ⟨k, .done (.engine e)⟩ ∧ (step env s (.adjusted n true)).cache k = some e := by
  simp [step, hb, adjusted, State.go, State.release, upd, rehash]

/-- C99: a failure is told to the one who tried, is not kept, and the next one may try; so it is when the request is dropped. -/
theorem C99_failure {env : Env} {s : State} (h : Reached env s) {n : Nat} {k : Key} {a : Action}
    (ha : (s.reqs n = some ⟨k, .constructing⟩ ∧ a = .constructed n none) ∨
      ((∃ sch, s.reqs n = some ⟨k, .adjusting sch⟩) ∧ a = .adjusted n false) ∨ (Builds s n k ∧ a = .cancel n)) :
    (step env s a).cache = s.cache ∧ (step env s a).cache k = none ∧ (∀ m, ¬ Builds (step env s a) m k) ∧
      (a = .constructed n none → (step env s a).reqs n = some ⟨k, .done .extensionError⟩) ∧
      (a = .adjusted n false → (step env s a).reqs n = some ⟨k, .done .runtimeError⟩) ∧
      (a = .cancel n → (step env s a).reqs n = none) := by
  have i := h.inv
  have i' := inv_step i a
  have hB : Builds s n k := by
    rcases ha with ⟨h1, _⟩ | ⟨h1, _⟩ | ⟨h1, _⟩
    · exact .inl h1
    · exact .inr h1
    · exact h1
  have hfree := i.free k n ((i.guard k n).mpr hB)
  have hnb : (step env s a).guard k = none → ∀ m, ¬ Builds (step env s a) m k := by
    intro hg m hm
    have := (i'.guard k m).mpr hm
    rw [hg] at this
    cases this
  rcases ha with ⟨h1, rfl⟩ | ⟨⟨sch, h1⟩, rfl⟩ | ⟨h1, rfl⟩
  · have e : step env s (.constructed n none) = (s.go n k (.done .extensionError)).release k := by simp only [step, h1, constructed]
    rw [e] at hnb ⊢
    refine ⟨rfl, hfree, hnb (by simp [State.release, upd]), fun _ => by simp [State.release, State.go, upd],
      fun h => (by cases h), fun h => (by cases h)⟩
  · have e : step env s (.adjusted n false) = (s.go n k (.done .runtimeError)).release k := by simp [step, h1, adjusted]
    rw [e] at hnb ⊢
    refine ⟨rfl, hfree, hnb (by simp [State.release, upd]), fun h => (by cases h), fun _ => by simp [State.release, State.go, upd],
      fun h => (by cases h)⟩
  · have e : step env s (.cancel n) = { s.release k with reqs := upd s.reqs n none } := by
      rcases h1 with h1 | ⟨sch, h1⟩ <;> simp only [step, h1, cancel]
    rw [e] at hnb ⊢
    refine ⟨rfl, hfree, hnb (by simp [State.release, upd]), fun h => (by cases h), fun h => (by cases h),
      fun _ => by simp [upd]⟩

/-- C99: no step of or for one request changes where another one is. -/
theorem C99_others (env : Env) (s : State) (a : Action) (m : Nat)
    (ha : ∀ k sch ok, a ≠ .call m k ∧ a ≠ .look m ∧ a ≠ .constructed m sch ∧ a ≠ .adjusted m ok ∧ a ≠ .cancel m) :
    (step env s a).reqs m = s.reqs m := by
  have hgo : ∀ (n : Nat) (k : Key) (p : Phase), m ≠ n → (s.go n k p).reqs m = s.reqs m := by
    intro n k p h
    simp [State.go, upd, h]
  cases a with
  | call n k =>
    have hn : m ≠ n := fun e => (ha k none true).1 (by rw [e])
    simp only [step]
    split
    · exact hgo n k _ hn
    · rfl
  | look n =>
    have hn : m ≠ n := fun e => (ha [] none true).2.1 (by rw [e])
    have hl : ∀ k, (look n k s).reqs m = s.reqs m := by
      intro k
      simp only [look]
      split
      · exact hgo n k _ hn
      · split <;> exact hgo n k _ hn
    simp only [step]
    split
    · exact hl _
    · exact hl _
    · rfl
  | constructed n sch =>
    have hn : m ≠ n := fun e => (ha [] sch true).2.2.1 (by rw [e])
    simp only [step]
    split
    · cases sch <;> exact hgo n _ _ hn
    · rfl
  | adjusted n ok =>
    have hn : m ≠ n := fun e => (ha [] none ok).2.2.2.1 (by rw [e])
    simp only [step]
    split
    · cases ok <;> exact hgo n _ _ hn
    · rfl
  | cancel n =>
    have hn : m ≠ n := fun e => (ha [] none true).2.2.2.2 (by rw [e])
    simp only [step]
    split
    · simp only [cancel]
      split <;> simp [State.release, upd, hn]
    · rfl
  | evict k => rfl

/-- C99: if the hash function has no collisions, engines of different contracts have different hashes. -/
theorem C99_hash {env : Env} (hinj : ∀ a b, env.hash a = env.hash b → a = b) {s : State} (h : Reached env s) {e₁ e₂ : Engine}
    (h₁ : e₁ ∈ s.built) (h₂ : e₂ ∈ s.built) : e₁.hash = e₂.hash ↔ e₁.key = e₂.key := by
  have i := h.inv
  rw [i.hash e₁ h₁, i.hash e₂ h₂]
  exact ⟨fun he => List.append_cancel_left (hinj _ _ he), fun he => by rw [he]⟩

/-- C99 (partial: if the extension gives the same schema each time it is asked for a contract): engines with the same hash have the
same schema. -/
theorem C99_schema_partial {env : Env} (hinj : ∀ a b, env.hash a = env.hash b → a = b) (f : Key → Nat) {s : State}
    (h : Reached env s) (hf : ∀ e, e ∈ s.built → e.schema = f e.key) {e₁ e₂ : Engine}
    (h₁ : e₁ ∈ s.built) (h₂ : e₂ ∈ s.built) (he : e₁.hash = e₂.hash) : e₁.schema = e₂.schema := by
  rw [hf e₁ h₁, hf e₂ h₂, (C99_hash hinj h h₁ h₂).mp he]

/-- C99: in general they have not: what the extension gave is not part of the hash, whatever the hash function. -/
theorem C99_schema_false (env : Env) :
    ∃ s, Reached env s ∧ ∃ e₁ e₂, e₁ ∈ s.built ∧ e₂ ∈ s.built ∧ e₁.hash = e₂.hash ∧ e₁.schema ≠ e₂.schema := by
  refine ⟨run env [.call 0 [7], .look 0, .constructed 0 (some 1), .adjusted 0 true, .evict [7],
    .call 1 [7], .look 1, .constructed 1 (some 2), .adjusted 1 true] {}, ⟨_, rfl⟩,
    ⟨[7], 1, env.hash (env.base ++ [7])⟩, ⟨[7], 2, env.hash (env.base ++ [7])⟩, ?_, ?_, rfl, by simp⟩ <;>
  simp [run, step, look, constructed, adjusted, State.go, State.release, upd, rehash]

/-- C99: without contract the engine without contract serves; with one it never does, unless it is the engine of the contract. -/
theorem C99_served {env : Env} {s : State} (h : Reached env s) (e₀ : Engine) (n : Nat) :
    served e₀ s none n = some (.engine e₀) ∧
      ∀ k e, (∃ p, s.reqs n = some ⟨k, p⟩) → served e₀ s (some k) n = some (.engine e) → e ∈ s.built ∧ e.key = k := by
  refine ⟨rfl, ?_⟩
  rintro k e ⟨p, hp⟩ hs
  simp only [served, hp] at hs
  cases p with
  | done a =>
    simp only [Option.some.injEq] at hs
    exact h.inv.ok n k e (hs ▸ hp)
  | start => cases hs
  | waiting => cases hs
  | constructing => cases hs
  | adjusting sch => cases hs

/-- Two requests for one contract and one for another: the first fails, the second makes the engine. -/
theorem C99_case :
    let env : Env := ⟨id, [9]⟩
    let s := run env [.call 0 [1], .call 1 [1], .call 2 [2], .look 0, .look 1, .look 2, .constructed 0 none, .look 1,
      .constructed 1 (some 5), .constructed 2 (some 6), .adjusted 1 true, .adjusted 2 true, .call 3 [1], .look 3] {}
    s.reqs 0 = some ⟨[1], .done .extensionError⟩ ∧ s.reqs 1 = some ⟨[1], .done (.engine ⟨[1], 5, [9, 1]⟩)⟩ ∧
      s.reqs 2 = some ⟨[2], .done (.engine ⟨[2], 6, [9, 2]⟩)⟩ ∧ s.reqs 3 = s.reqs 1 ∧ s.built.length = 2 := by
  decide +kernel

end Verif.ContractEngines
