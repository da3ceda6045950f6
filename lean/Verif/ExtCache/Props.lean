import Verif.ExtCache.Lemmas

/-!
# C97: the cache of extensions
-/
namespace Verif.ExtCache

theorem Reached.inv {s : State} (h : Reached s) : Inv s := by
  obtain ⟨acts, rfl⟩ := h
  exact inv_run acts inv_init

/-- C97. A value which is returned was set for that key. -/
theorem C97_value {s : State} (h : Reached s) {n k v : Nat} (hg : s.gets n = some ⟨k, .done (some v)⟩) :
    ∃ e, (k, e) ∈ s.puts ∧ e.value = v := h.inv.value n k v hg

/-- C97. The look in the cache gives the latest value set for the key if that is not too old, and nothing otherwise. -/
theorem C97_look {s : State} (h : Reached s) {n k : Nat} (hg : s.gets n = some ⟨k, .start⟩) :
    (∀ e, Latest s k e → Fresh s.now e → (step s (.look n)).gets n = some ⟨k, .done (some e.value)⟩) ∧
    ((∀ e, Latest s k e → ¬ Fresh s.now e) → (step s (.look n)).gets n = some ⟨k, .missed⟩) ∧
    (∀ n', n' ≠ n → (step s (.look n)).gets n' = s.gets n') ∧ (step s (.look n)).lists = s.lists := by
  have hstep : step s (.look n) = look n k s := by simp only [step, hg]
  rw [hstep]
  refine ⟨fun e hl hf => ?_, fun hno => ?_, fun n' hn => ?_, ?_⟩
  · unfold look
    cases hc : s.cache k with
    | none =>
      obtain ⟨t, h1, h2⟩ := h.inv.uncached k e hc hl
      have := hf t h1
      omega
    | some e' =>
      have := (h.inv.cached k e' hc).unique hl
      subst this
      have hx : e'.expires.any (fun t => decide (t < s.now)) = false := by
        cases he : e'.expires with
        | none => rfl
        | some t =>
          have := hf t he
          simp only [Option.any_some, decide_eq_false_iff_not]
          omega
      simp only [hx, Bool.false_eq_true, if_false, State.go, upd_self]
  · unfold look
    cases hc : s.cache k with
    | none => simp only [State.go, upd_self]
    | some e' =>
      have hx : e'.expires.any (fun t => decide (t < s.now)) = true := by
        have hn := hno e' (h.inv.cached k e' hc)
        cases he : e'.expires with
        | none => exact absurd (fun t ht => by rw [he] at ht; cases ht) hn
        | some t =>
          simp only [Option.any_some, decide_eq_true_eq]
          apply Classical.byContradiction
          intro hlt
          exact hn (fun t' ht' => by rw [he] at ht'; cases ht'; omega)
      simp only [hx, if_true, State.go, upd_self]
  · unfold look
    split
    · simp only [State.go, upd_other _ _ hn]
    · split <;> simp only [State.go, upd_other _ _ hn]
  · unfold look
    split
    · rfl
    · split <;> rfl

/-- C97. Of those who find no value, one is told so: who comes first, when there is no list to wait in. All others wait. -/
theorem C97_first (s : State) {n k : Nat} (hg : s.gets n = some ⟨k, .missed⟩) :
    (s.lists k = none → (step s (.enlist n)).gets n = some ⟨k, .done none⟩ ∧ (step s (.enlist n)).lists k = some ⟨s.nextId, []⟩) ∧
    (∀ l, s.lists k = some l → (step s (.enlist n)).gets n = some ⟨k, .joined l.id s.now⟩ ∧ (step s (.enlist n)).lists k = some l) := by
  have hstep : step s (.enlist n) = enlist n k s := by simp only [step, hg]
  rw [hstep]
  unfold enlist
  refine ⟨fun h => ?_, fun l h => ?_⟩
  · simp only [h, State.go, upd_self, and_self]
  · simp only [h, State.go, upd_self, and_self]

/-- C97. Who sends themselves to the list they found waits in it, if it is still there and has room; it is not, the wait fails. -/
theorem C97_send (s : State) {n k id t : Nat} (hg : s.gets n = some ⟨k, .joined id t⟩) :
    (∀ q, s.lists k = some ⟨id, q⟩ → q.length < 1024 →
      (step s (.send n)).gets n = some ⟨k, .queued id t⟩ ∧ (step s (.send n)).lists k = some ⟨id, q ++ [n]⟩) ∧
    ((∀ q, s.lists k ≠ some ⟨id, q⟩) → (step s (.send n)).gets n = some ⟨k, .failed id⟩ ∧ (step s (.send n)).lists = s.lists) := by
  have hstep : step s (.send n) = send n k id t s := by simp only [step, hg]
  rw [hstep]
  unfold send
  refine ⟨fun q h hq => ?_, fun h => ?_⟩
  · simp only [h, if_true, hq, State.go, upd_self, and_self]
  · cases hl : s.lists k with
    | none => simp only [State.go, upd_self, and_self]
    | some l =>
      have hne : l.id ≠ id := by
        rintro rfl
        exact h l.queue hl
      simp only [if_neg hne, State.go, upd_self, and_self]

/-- C97. Who waits is in the list the next `set` of the key finds. -/
theorem C97_waits {s : State} (h : Reached s) {n k id t : Nat} (hg : s.gets n = some ⟨k, .queued id t⟩) :
    ∃ l, s.lists k = some l ∧ l.id = id ∧ n ∈ l.queue := h.inv.queued n k id t hg

/-- C97. When a value is set, all who wait for the key get it, and there is no list any more; callers for other keys go on as
before. -/
theorem C97_notify {s : State} (h : Reached s) {k v : Nat} (hs : (k, v) ∈ s.setting) :
    (∀ n id t, s.gets n = some ⟨k, .queued id t⟩ → (step s (.notify k v)).gets n = some ⟨k, .done (some v)⟩) ∧
    (step s (.notify k v)).lists k = none ∧
    (∀ n k' p, s.gets n = some ⟨k', p⟩ → k' ≠ k → (step s (.notify k v)).gets n = some ⟨k', p⟩) ∧
    (∀ k', k' ≠ k → (step s (.notify k v)).lists k' = s.lists k') := by
  show (∀ n id t, s.gets n = some ⟨k, .queued id t⟩ → (notify k v s).gets n = some ⟨k, .done (some v)⟩) ∧
    (notify k v s).lists k = none ∧ (∀ n k' p, s.gets n = some ⟨k', p⟩ → k' ≠ k → (notify k v s).gets n = some ⟨k', p⟩) ∧
    (∀ k', k' ≠ k → (notify k v s).lists k' = s.lists k')
  unfold notify
  simp only [hs, if_true]
  cases hl : s.lists k with
  | none =>
    refine ⟨fun n id t hg => ?_, hl, fun n k' p hg _ => hg, fun _ _ => rfl⟩
    obtain ⟨l, h1, _⟩ := h.inv.queued n k id t hg
    rw [hl] at h1
    cases h1
  | some l =>
    refine ⟨fun n id t hg => ?_, upd_self _ _ _, fun n k' p hg hk => ?_, fun k' hk => upd_other _ _ hk⟩
    · obtain ⟨l', h1, h2, h3⟩ := h.inv.queued n k id t hg
      rw [hl] at h1
      cases h1
      simp only [hg, deliver, if_pos h2.symm, if_pos h3]
    · simp only [hg]
      unfold deliver
      split
      · rename_i k'' i t he
        cases he
        split
        · rename_i hi
          obtain ⟨l', h1, h2, _⟩ := h.inv.queued n k' i t hg
          exact absurd (h.inv.distinct _ _ _ _ h1 hl (h2.trans hi)) hk
        · rfl
      · rfl

/-- C97. Setting a value makes it the latest one for its key, with the time it is good for; others stay. -/
theorem C97_put (s : State) (k v : Nat) (ttl : Option Nat) :
    Latest (step s (.put k v ttl)) k ⟨v, ttl.map (s.now + ·)⟩ ∧ (k, v) ∈ (step s (.put k v ttl)).setting ∧
    ∀ k' e, k' ≠ k → (Latest (step s (.put k v ttl)) k' e ↔ Latest s k' e) := by
  refine ⟨⟨[], s.puts, rfl, fun _ h => (nomatch h)⟩, by simp [step, put], fun k' e hk => ⟨?_, ?_⟩⟩
  · rintro ⟨a, b, h1, h2⟩
    cases a with
    | nil =>
      simp only [step, put, List.nil_append, List.cons.injEq, Prod.mk.injEq] at h1
      exact absurd h1.1.1.symm hk
    | cons x a =>
      simp only [step, put, List.cons_append, List.cons.injEq] at h1
      exact ⟨a, b, h1.2, fun p hp => h2 p (List.mem_cons_of_mem _ hp)⟩
  · rintro ⟨a, b, h1, h2⟩
    refine ⟨_ :: a, b, congrArg (List.cons _) h1, fun p hp => ?_⟩
    rcases List.mem_cons.1 hp with rfl | hp
    · exact fun he => hk he.symm
    · exact h2 p hp

/-- C97. A wait is given up after five seconds and not before. -/
theorem C97_expire (s : State) {n k id t : Nat} (hg : s.gets n = some ⟨k, .queued id t⟩ ∨ s.gets n = some ⟨k, .joined id t⟩) :
    (t + 5000 ≤ s.now → (step s (.expire n)).gets n = some ⟨k, .failed id⟩) ∧ (s.now < t + 5000 → step s (.expire n) = s) := by
  have hstep : step s (.expire n) = expire n k id t s := by
    rcases hg with hg | hg <;> simp only [step, hg]
  rw [hstep]
  unfold expire
  refine ⟨fun h => ?_, fun h => ?_⟩
  · simp only [h, if_true, State.go, upd_self]
  · rw [if_neg (by omega)]

/-- C97. Who gives up removes the list they waited in and no other, and is told that there is no value. -/
theorem C97_cleanup (s : State) {n k id : Nat} (hg : s.gets n = some ⟨k, .failed id⟩) :
    (step s (.cleanup n)).gets n = some ⟨k, .done none⟩ ∧
    (∀ k' l, (step s (.cleanup n)).lists k' = some l ↔ s.lists k' = some l ∧ ¬ (k' = k ∧ l.id = id)) := by
  have hstep : step s (.cleanup n) = cleanup n k id s := by simp only [step, hg]
  rw [hstep]
  unfold cleanup
  cases hl : s.lists k with
  | none =>
    refine ⟨by simp only [State.go, upd_self], fun k' l => ?_⟩
    simp only [State.go]
    refine ⟨fun h => ⟨h, ?_⟩, fun h => h.1⟩
    rintro ⟨rfl, -⟩
    rw [hl] at h
    cases h
  | some l₀ =>
    simp only
    split
    · rename_i hid
      refine ⟨by simp only [upd_self], fun k' l => ?_⟩
      by_cases hk : k' = k
      · subst hk
        simp only [upd_self, hl]
        constructor
        · intro h; cases h
        · rintro ⟨h, hn⟩
          cases h
          exact absurd ⟨trivial, hid⟩ hn
      · simp only [upd_other _ _ hk]
        exact ⟨fun h => ⟨h, fun hx => hk hx.1⟩, fun h => h.1⟩
    · rename_i hid
      refine ⟨by simp only [State.go, upd_self], fun k' l => ?_⟩
      simp only [State.go]
      refine ⟨fun h => ⟨h, ?_⟩, fun h => h.1⟩
      rintro ⟨rfl, he⟩
      rw [hl] at h
      cases h
      exact hid he

/-- C97. Callers do not disturb each other: a caller is where they were after a step of somebody else, unless they wait in a list
which is removed by one who waited in the same list, or whose value is set. -/
theorem C97_callers (s : State) (a : Action) (m : Nat) (hm : ofCaller a ≠ some m) :
    (step s a).gets m = s.gets m ∨
    ∃ k id t, s.gets m = some ⟨k, .queued id t⟩ ∧
      ((∃ n k', a = .cleanup n ∧ s.gets n = some ⟨k', .failed id⟩ ∧ (step s a).gets m = some ⟨k, .failed id⟩) ∨
       (∃ k' v l, a = .notify k' v ∧ (k', v) ∈ s.setting ∧ s.lists k' = some l ∧ l.id = id)) := by
  have hgo : ∀ (s' : State) (n k : Nat) (p : Phase), m ≠ n → (s'.go n k p).gets m = s'.gets m := by
    intro s' n k p h
    simp [State.go, upd, h]
  have hne : ∀ n, ofCaller a = some n → m ≠ n := fun n h e => hm (e ▸ h)
  cases a with
  | tick d => exact .inl rfl
  | put k v ttl => exact .inl rfl
  | call n k =>
    refine .inl ?_
    simp only [step]
    split
    · exact hgo s n k _ (hne n rfl)
    · rfl
  | look n =>
    refine .inl ?_
    simp only [step]
    split
    · simp only [look]
      split
      · exact hgo s n _ _ (hne n rfl)
      · split <;> exact hgo s n _ _ (hne n rfl)
    · rfl
  | enlist n =>
    refine .inl ?_
    simp only [step]
    split
    · simp only [enlist]
      split <;> exact hgo s n _ _ (hne n rfl)
    · rfl
  | send n =>
    refine .inl ?_
    simp only [step]
    split
    · simp only [send]
      split
      · split
        · split
          · exact hgo s n _ _ (hne n rfl)
          · rfl
        · exact hgo s n _ _ (hne n rfl)
      · exact hgo s n _ _ (hne n rfl)
    · rfl
  | expire n =>
    refine .inl ?_
    simp only [step]
    split
    · simp only [expire]
      split
      · exact hgo s n _ _ (hne n rfl)
      · rfl
    · simp only [expire]
      split
      · exact hgo s n _ _ (hne n rfl)
      · rfl
    · rfl
  | cleanup n =>
    simp only [step]
    split
    · rename_i k' id hg
      simp only [cleanup]
      split
      · split
        · have hn := hne n rfl
          simp only [upd, hn, if_false]
          cases hx : s.gets m with
          | none => exact .inl rfl
          | some g =>
            obtain ⟨k, ph⟩ := g
            cases ph with
            | queued i t =>
              by_cases e : i = id
              · subst e
                exact .inr ⟨k, i, t, rfl, .inl ⟨n, k', rfl, hg, by simp [drop]⟩⟩
              · exact .inl (by simp [drop, e])
            | _ => exact .inl rfl
        · exact .inl (hgo s n _ _ (hne n rfl))
      · exact .inl (hgo s n _ _ (hne n rfl))
    · exact .inl rfl
  | notify k v =>
    simp only [step, notify]
    split
    · rename_i hs
      split
      · rename_i l hl
        cases hx : s.gets m with
        | none => exact .inl (by simp [hx, deliver])
        | some g =>
          obtain ⟨k1, ph⟩ := g
          cases ph with
          | queued i t =>
            by_cases e : i = l.id
            · exact .inr ⟨k1, i, t, rfl, .inr ⟨k, v, l, rfl, hs, hl, e.symm⟩⟩
            · exact .inl (by simp [hx, deliver, e])
          | _ => exact .inl (by simp [hx, deliver])
      · exact .inl rfl
    · exact .inl rfl

/-- C97. Keys do not interfere: the wait list and the value of a key change only by steps of callers for this key. -/
theorem C97_keys (s : State) (a : Action) (k : Nat) :
    ((step s a).lists k = s.lists k ∨ (∃ n p, ofCaller a = some n ∧ s.gets n = some ⟨k, p⟩) ∨ ∃ v, a = .notify k v) ∧
    ((step s a).cache k = s.cache k ∨ (∃ n p, a = .look n ∧ s.gets n = some ⟨k, p⟩) ∨ ∃ v ttl, a = .put k v ttl) := by
  cases a with
  | tick d => exact ⟨.inl rfl, .inl rfl⟩
  | put k' v ttl =>
    refine ⟨.inl rfl, ?_⟩
    by_cases e : k = k'
    · exact .inr (.inr ⟨v, ttl, by rw [e]⟩)
    · exact .inl (by simp [step, put, upd, e])
  | call n k' =>
    simp only [step]
    split <;> exact ⟨.inl rfl, .inl rfl⟩
  | look n =>
    simp only [step]
    split
    · rename_i k' hg
      by_cases e : k = k'
      · subst e
        exact ⟨.inr (.inl ⟨n, _, rfl, hg⟩), .inr (.inl ⟨n, _, rfl, hg⟩)⟩
      · simp only [look]
        split
        · exact ⟨.inl rfl, .inl rfl⟩
        · split
          · exact ⟨.inl rfl, .inl (by simp [upd, e])⟩
          · exact ⟨.inl rfl, .inl rfl⟩
    · exact ⟨.inl rfl, .inl rfl⟩
  | enlist n =>
    simp only [step]
    split
    · rename_i k' hg
      by_cases e : k = k'
      · subst e
        refine ⟨.inr (.inl ⟨n, _, rfl, hg⟩), .inl ?_⟩
        simp only [enlist]
        split <;> rfl
      · simp only [enlist]
        split
        · exact ⟨.inl rfl, .inl rfl⟩
        · exact ⟨.inl (by simp [upd, e]), .inl rfl⟩
    · exact ⟨.inl rfl, .inl rfl⟩
  | send n =>
    simp only [step]
    split
    · rename_i k' id t hg
      by_cases e : k = k'
      · subst e
        refine ⟨.inr (.inl ⟨n, _, rfl, hg⟩), .inl ?_⟩
        simp only [send]
        split
        · split
          · split <;> rfl
          · rfl
        · rfl
      · simp only [send]
        split
        · split
          · split
            · exact ⟨.inl (by simp [upd, e]), .inl rfl⟩
            · exact ⟨.inl rfl, .inl rfl⟩
          · exact ⟨.inl rfl, .inl rfl⟩
        · exact ⟨.inl rfl, .inl rfl⟩
    · exact ⟨.inl rfl, .inl rfl⟩
  | expire n =>
    simp only [step]
    split
    · simp only [expire]
      split <;> exact ⟨.inl rfl, .inl rfl⟩
    · simp only [expire]
      split <;> exact ⟨.inl rfl, .inl rfl⟩
    · exact ⟨.inl rfl, .inl rfl⟩
  | cleanup n =>
    simp only [step]
    split
    · rename_i k' id hg
      by_cases e : k = k'
      · subst e
        refine ⟨.inr (.inl ⟨n, _, rfl, hg⟩), .inl ?_⟩
        simp only [cleanup]
        split
        · split <;> rfl
        · rfl
      · simp only [cleanup]
        split
        · split
          · exact ⟨.inl (by simp [upd, e]), .inl rfl⟩
          · exact ⟨.inl rfl, .inl rfl⟩
        · exact ⟨.inl rfl, .inl rfl⟩
    · exact ⟨.inl rfl, .inl rfl⟩
  | notify k' v =>
    by_cases e : k = k'
    · subst e
      refine ⟨.inr (.inr ⟨v, rfl⟩), .inl ?_⟩
      simp only [step, notify]
      split
      · split <;> rfl
      · rfl
    · simp only [step, notify]
      split
      · split
        · exact ⟨.inl (by simp [upd, e]), .inl rfl⟩
        · exact ⟨.inl rfl, .inl rfl⟩
      · exact ⟨.inl rfl, .inl rfl⟩

/-- C97, false in general: who is told that there is no value finds none. The second caller found the list, but was not in it when
the first one set the value, and has to make the value again although it is there. -/
theorem C97_lost_false :
    let s := run [.call 1 5, .look 1, .enlist 1, .call 2 5, .look 2, .enlist 2, .put 5 9 none, .notify 5 9, .send 2, .cleanup 2] {}
    s.gets 1 = some ⟨5, .done none⟩ ∧ s.gets 2 = some ⟨5, .done none⟩ ∧ s.cache 5 = some ⟨9, none⟩ := by decide +kernel

/-- C97, false in general: a caller waits for five seconds. When one who has waited so long gives up, all others in the list are told
that there is no value, also one who has just come. -/
theorem C97_wait_false :
    let s := run [.call 1 5, .look 1, .enlist 1, .call 2 5, .look 2, .enlist 2, .send 2, .tick 5000, .call 3 5, .look 3, .enlist 3, .send 3,
      .expire 2, .cleanup 2, .cleanup 3] {}
    s.now = 5000 ∧ s.gets 2 = some ⟨5, .done none⟩ ∧ s.gets 3 = some ⟨5, .done none⟩ := by decide +kernel

/-- C97, false in general: while there is a value, nobody is told to make one. A value was set between the two looks. -/
theorem C97_made_false :
    let s := run [.call 1 5, .look 1, .put 5 9 none, .notify 5 9, .enlist 1] {}
    s.gets 1 = some ⟨5, .done none⟩ ∧ s.cache 5 = some ⟨9, none⟩ ∧ s.lists 5 = some ⟨0, []⟩ := by decide +kernel

/-- The hypotheses of the theorems are met: two callers wait for the value of the first; later it is too old. -/
theorem C97_case :
    let acts := [.call 1 5, .look 1, .enlist 1, .call 2 5, .look 2, .enlist 2, .send 2, .call 3 5, .look 3, .enlist 3, .send 3,
      .put 5 9 (some 10)]
    let s := run acts {}
    let s' := run [.notify 5 9, .tick 10, .call 4 5, .look 4, .tick 1, .call 5 5, .look 5] s
    Reached s ∧ s.lists 5 = some ⟨0, [2, 3]⟩ ∧ (5, 9) ∈ s.setting ∧ s.gets 2 = some ⟨5, .queued 0 0⟩ ∧
    s'.gets 2 = some ⟨5, .done (some 9)⟩ ∧ s'.gets 3 = some ⟨5, .done (some 9)⟩ ∧ s'.gets 4 = some ⟨5, .done (some 9)⟩ ∧
    s'.gets 5 = some ⟨5, .missed⟩ :=
  ⟨⟨_, rfl⟩, by decide +kernel, by decide +kernel, by decide +kernel, by decide +kernel, by decide +kernel, by decide +kernel,
    by decide +kernel⟩

end Verif.ExtCache
