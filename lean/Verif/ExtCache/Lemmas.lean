import Verif.ExtCache.Spec

/-!
# Lemmas
-/
namespace Verif.ExtCache

structure Inv (s : State) : Prop where
  ids : ∀ k l, s.lists k = some l → l.id < s.nextId
  distinct : ∀ k k' l l', s.lists k = some l → s.lists k' = some l' → l.id = l'.id → k = k'
  queued : ∀ n k id t, s.gets n = some ⟨k, .queued id t⟩ → ∃ l, s.lists k = some l ∧ l.id = id ∧ n ∈ l.queue
  value : ∀ n k v, s.gets n = some ⟨k, .done (some v)⟩ → ∃ e, (k, e) ∈ s.puts ∧ e.value = v
  cached : ∀ k e, s.cache k = some e → Latest s k e
  uncached : ∀ k e, s.cache k = none → Latest s k e → ∃ t, e.expires = some t ∧ t < s.now
  setting : ∀ k v, (k, v) ∈ s.setting → ∃ e, (k, e) ∈ s.puts ∧ e.value = v

theorem upd_self {α : Type} (f : Nat → α) (k : Nat) (v : α) : upd f k v k = v := by simp [upd]

theorem upd_other {α : Type} (f : Nat → α) {k i : Nat} (v : α) (h : i ≠ k) : upd f k v i = f i := by simp [upd, h]

theorem Latest.mem {s : State} {k : Nat} {e : Entry} (h : Latest s k e) : (k, e) ∈ s.puts := by
  obtain ⟨a, b, h, _⟩ := h
  rw [h]
  simp

theorem Latest.unique {s : State} {k : Nat} {e e' : Entry} (h : Latest s k e) (h' : Latest s k e') : e = e' := by
  obtain ⟨a, b, h, hn⟩ := h
  obtain ⟨a', b', h', hn'⟩ := h'
  rw [h] at h'
  clear h
  induction a generalizing a' with
  | nil =>
    cases a' with
    | nil => simp only [List.nil_append, List.cons.injEq, Prod.mk.injEq] at h'; exact h'.1.2
    | cons x a' =>
      simp only [List.nil_append, List.cons_append, List.cons.injEq] at h'
      exact absurd (by rw [← h'.1]) (hn' x List.mem_cons_self)
  | cons x a ih =>
    cases a' with
    | nil =>
      simp only [List.nil_append, List.cons_append, List.cons.injEq] at h'
      exact absurd (by rw [h'.1]) (hn x List.mem_cons_self)
    | cons x' a' =>
      simp only [List.cons_append, List.cons.injEq] at h'
      exact ih (fun p hp => hn p (List.mem_cons_of_mem _ hp)) a' h'.2 (fun p hp => hn' p (List.mem_cons_of_mem _ hp))

theorem inv_go {s : State} (h : Inv s) (n k : Nat) (p : Phase) (hq : ∀ id t, p ≠ .queued id t)
    (hv : ∀ v, p = .done (some v) → ∃ e, (k, e) ∈ s.puts ∧ e.value = v) : Inv (s.go n k p) := by
  refine ⟨h.ids, h.distinct, fun n' k' id t hg => ?_, fun n' k' v hg => ?_, h.cached, h.uncached, h.setting⟩
  · by_cases hn : n' = n
    · subst hn
      simp only [State.go, upd_self] at hg
      cases hg
      exact absurd rfl (hq id t)
    · simp only [State.go, upd_other _ _ hn] at hg
      exact h.queued n' k' id t hg
  · by_cases hn : n' = n
    · subst hn
      simp only [State.go, upd_self] at hg
      cases hg
      exact hv v rfl
    · simp only [State.go, upd_other _ _ hn] at hg
      exact h.value n' k' v hg

theorem inv_look {s : State} (h : Inv s) (n k : Nat) : Inv (look n k s) := by
  unfold look
  split
  · exact inv_go h n k _ (by simp) (by simp)
  · rename_i e he
    split
    · rename_i hx
      have hg := inv_go h n k .missed (by simp) (by simp)
      refine ⟨hg.ids, hg.distinct, hg.queued, hg.value, fun k' e' hc => ?_, fun k' e' hc hl => ?_, hg.setting⟩
      · by_cases hk : k' = k
        · subst hk
          simp only [upd_self] at hc
          cases hc
        · simp only [upd_other _ _ hk] at hc
          exact h.cached k' e' hc
      · by_cases hk : k' = k
        · subst hk
          have := (h.cached k' e he).unique hl
          subst this
          cases hx' : e.expires with
          | none => rw [hx'] at hx; cases hx
          | some t =>
            rw [hx'] at hx
            exact ⟨t, rfl, of_decide_eq_true hx⟩
        · simp only [upd_other _ _ hk] at hc
          exact h.uncached k' e' hc hl
    · exact inv_go h n k _ (by simp) (fun v hv => by cases hv; exact ⟨e, (h.cached k e he).mem, rfl⟩)

theorem inv_enlist {s : State} (h : Inv s) (n k : Nat) : Inv (enlist n k s) := by
  unfold enlist
  split
  · exact inv_go h n k _ (by simp) (by simp)
  · rename_i hno
    have hg := inv_go h n k (.done none) (by simp) (by simp)
    refine ⟨fun k' l hl => ?_, fun k' k'' l l' h1 h2 he => ?_, fun n' k' id t hq => ?_, hg.value, hg.cached, hg.uncached, hg.setting⟩
    · by_cases hk : k' = k
      · subst hk
        simp only [upd_self] at hl
        cases hl
        exact Nat.lt_succ_self _
      · simp only [upd_other _ _ hk] at hl
        exact Nat.lt_succ_of_lt (h.ids k' l hl)
    · by_cases hk : k' = k
      · by_cases hk' : k'' = k
        · rw [hk, hk']
        · subst hk
          simp only [upd_self] at h1
          simp only [upd_other _ _ hk'] at h2
          cases h1
          have := h.ids _ _ h2
          simp only at he
          omega
      · simp only [upd_other _ _ hk] at h1
        by_cases hk' : k'' = k
        · subst hk'
          simp only [upd_self] at h2
          cases h2
          have := h.ids _ _ h1
          simp only at he
          omega
        · simp only [upd_other _ _ hk'] at h2
          exact h.distinct _ _ _ _ h1 h2 he
    · obtain ⟨l, h1, h2⟩ := hg.queued n' k' id t hq
      have hk : k' ≠ k := by
        rintro rfl
        have h1' : s.lists k' = some l := h1
        rw [hno] at h1'
        cases h1'
      exact ⟨l, (upd_other _ _ hk).trans h1, h2⟩

theorem inv_send {s : State} (h : Inv s) (n k id t : Nat) : Inv (send n k id t s) := by
  unfold send
  split
  · rename_i l hl
    split
    · rename_i hid
      split
      · refine ⟨fun k' l' hl' => ?_, fun k' k'' l₁ l₂ h1 h2 he => ?_, fun n' k' i t' hq => ?_, fun n' k' v hg => ?_, h.cached, h.uncached,
          h.setting⟩
        · by_cases hk : k' = k
          · subst hk
            simp only [upd_self] at hl'
            cases hl'
            exact h.ids k' l hl
          · simp only [upd_other _ _ hk] at hl'
            exact h.ids k' l' hl'
        · have old : ∀ k' l', upd s.lists k (some { l with queue := l.queue ++ [n] }) k' = some l' → ∃ l₀, s.lists k' = some l₀ ∧ l₀.id = l'.id := by
            intro k' l' hx
            by_cases hk : k' = k
            · subst hk
              simp only [upd_self] at hx
              cases hx
              exact ⟨l, hl, rfl⟩
            · simp only [upd_other _ _ hk] at hx
              exact ⟨l', hx, rfl⟩
          obtain ⟨a, ha, ha'⟩ := old _ _ h1
          obtain ⟨b, hb, hb'⟩ := old _ _ h2
          exact h.distinct _ _ _ _ ha hb (by rw [ha', hb', he])
        · by_cases hn : n' = n
          · subst hn
            simp only [State.go, upd_self] at hq
            cases hq
            exact ⟨_, upd_self _ _ _, hid, by simp⟩
          · simp only [State.go, upd_other _ _ hn] at hq
            obtain ⟨l', h1, h2, h3⟩ := h.queued n' k' i t' hq
            by_cases hk : k' = k
            · subst hk
              rw [hl] at h1
              cases h1
              exact ⟨_, upd_self _ _ _, h2, List.mem_append_left _ h3⟩
            · exact ⟨l', (upd_other _ _ hk).trans h1, h2, h3⟩
        · by_cases hn : n' = n
          · subst hn
            simp only [State.go, upd_self] at hg
            cases hg
          · simp only [State.go, upd_other _ _ hn] at hg
            exact h.value n' k' v hg
      · exact h
    · exact inv_go h n k _ (by simp) (by simp)
  · exact inv_go h n k _ (by simp) (by simp)

theorem inv_expire {s : State} (h : Inv s) (n k id t : Nat) : Inv (expire n k id t s) := by
  unfold expire
  split
  · exact inv_go h n k _ (by simp) (by simp)
  · exact h

theorem drop_queued {id n : Nat} {g : Option Getter} {k i t : Nat} (h : drop id g = some ⟨k, .queued i t⟩) :
    g = some ⟨k, .queued i t⟩ ∧ i ≠ id := by
  unfold drop at h
  split at h
  · split at h
    · cases h
    · rename_i hne
      cases h
      exact ⟨rfl, hne⟩
  · rename_i hno
    exact absurd h (hno k i t)

theorem drop_done {id : Nat} {g : Option Getter} {k v : Nat} (h : drop id g = some ⟨k, .done (some v)⟩) :
    g = some ⟨k, .done (some v)⟩ := by
  unfold drop at h
  split at h
  · split at h <;> cases h
  · exact h

theorem inv_cleanup {s : State} (h : Inv s) (n k id : Nat) : Inv (cleanup n k id s) := by
  unfold cleanup
  split
  · rename_i l hl
    split
    · rename_i hid
      refine ⟨fun k' l' hl' => ?_, fun k' k'' l₁ l₂ h1 h2 he => ?_, fun n' k' i t' hq => ?_, fun n' k' v hg => ?_, h.cached, h.uncached,
        h.setting⟩
      · by_cases hk : k' = k
        · subst hk; simp only [upd_self] at hl'; cases hl'
        · simp only [upd_other _ _ hk] at hl'; exact h.ids k' l' hl'
      · by_cases hk : k' = k
        · subst hk; simp only [upd_self] at h1; cases h1
        · by_cases hk' : k'' = k
          · subst hk'; simp only [upd_self] at h2; cases h2
          · simp only [upd_other _ _ hk] at h1
            simp only [upd_other _ _ hk'] at h2
            exact h.distinct _ _ _ _ h1 h2 he
      · by_cases hn : n' = n
        · subst hn; simp only [upd_self] at hq; cases hq
        · simp only [upd_other _ _ hn] at hq
          obtain ⟨hq, hne⟩ := drop_queued (n := n) hq
          obtain ⟨l', h1, h2, h3⟩ := h.queued n' k' i t' hq
          have hk : k' ≠ k := by
            rintro rfl
            rw [hl] at h1
            cases h1
            exact hne (h2.symm.trans hid)
          exact ⟨l', (upd_other _ _ hk).trans h1, h2, h3⟩
      · by_cases hn : n' = n
        · subst hn; simp only [upd_self] at hg; cases hg
        · simp only [upd_other _ _ hn] at hg
          exact h.value n' k' v (drop_done hg)
    · exact inv_go h n k _ (by simp) (by simp)
  · exact inv_go h n k _ (by simp) (by simp)

theorem inv_put {s : State} (h : Inv s) (k v : Nat) (ttl : Option Nat) : Inv (put k v ttl s) := by
  unfold put
  refine ⟨h.ids, h.distinct, h.queued, fun n' k' v' hg => ?_, fun k' e' hc => ?_, fun k' e' hc hl => ?_, fun k' v' hs => ?_⟩
  · obtain ⟨e, h1, h2⟩ := h.value n' k' v' hg
    exact ⟨e, List.mem_cons_of_mem _ h1, h2⟩
  · by_cases hk : k' = k
    · subst hk
      simp only [upd_self] at hc
      cases hc
      exact ⟨[], s.puts, rfl, fun _ hp => (nomatch hp)⟩
    · simp only [upd_other _ _ hk] at hc
      obtain ⟨a, b, h1, h2⟩ := h.cached k' e' hc
      refine ⟨_ :: a, b, congrArg (List.cons _) h1, fun p hp => ?_⟩
      rcases List.mem_cons.1 hp with rfl | hp
      · exact fun he => hk he.symm
      · exact h2 p hp
  · by_cases hk : k' = k
    · subst hk
      simp only [upd_self] at hc
      cases hc
    · simp only [upd_other _ _ hk] at hc
      obtain ⟨a, b, h1, h2⟩ := hl
      cases a with
      | nil =>
        simp only [List.nil_append, List.cons.injEq, Prod.mk.injEq] at h1
        exact absurd h1.1.1.symm hk
      | cons x a =>
        simp only [List.cons_append, List.cons.injEq] at h1
        exact h.uncached k' e' hc ⟨a, b, h1.2, fun p hp => h2 p (List.mem_cons_of_mem _ hp)⟩
  · rcases List.mem_append.1 hs with hs | hs
    · obtain ⟨e, h1, h2⟩ := h.setting k' v' hs
      exact ⟨e, List.mem_cons_of_mem _ h1, h2⟩
    · cases List.mem_singleton.1 hs
      exact ⟨_, List.mem_cons_self, rfl⟩

theorem deliver_queued {id v n : Nat} {q : List Nat} {g : Option Getter} {k i t : Nat} (h : deliver id q v n g = some ⟨k, .queued i t⟩) :
    g = some ⟨k, .queued i t⟩ ∧ i ≠ id := by
  unfold deliver at h
  split at h
  · split at h
    · split at h <;> cases h
    · rename_i hne
      cases h
      exact ⟨rfl, hne⟩
  · rename_i hno
    exact absurd h (hno k i t)

theorem deliver_done {id v n : Nat} {q : List Nat} {g : Option Getter} {k w : Nat} (h : deliver id q v n g = some ⟨k, .done (some w)⟩) :
    g = some ⟨k, .done (some w)⟩ ∨ (w = v ∧ ∃ t, g = some ⟨k, .queued id t⟩) := by
  unfold deliver at h
  split at h
  · rename_i k' i t
    split at h
    · rename_i hi
      split at h
      · cases h
        subst hi
        exact .inr ⟨rfl, t, rfl⟩
      · cases h
    · cases h
  · exact .inl h

theorem inv_notify {s : State} (h : Inv s) (k v : Nat) : Inv (notify k v s) := by
  unfold notify
  split
  · rename_i hs
    have hset : ∀ k' v', (k', v') ∈ s.setting.erase (k, v) → ∃ e, (k', e) ∈ s.puts ∧ e.value = v' :=
      fun k' v' hm => h.setting k' v' (List.mem_of_mem_erase hm)
    split
    · rename_i l hl
      refine ⟨fun k' l' hl' => ?_, fun k' k'' l₁ l₂ h1 h2 he => ?_, fun n' k' i t' hq => ?_, fun n' k' v hg => ?_, h.cached, h.uncached, hset⟩
      · by_cases hk : k' = k
        · subst hk; simp only [upd_self] at hl'; cases hl'
        · simp only [upd_other _ _ hk] at hl'; exact h.ids k' l' hl'
      · by_cases hk : k' = k
        · subst hk; simp only [upd_self] at h1; cases h1
        · by_cases hk' : k'' = k
          · subst hk'; simp only [upd_self] at h2; cases h2
          · simp only [upd_other _ _ hk] at h1
            simp only [upd_other _ _ hk'] at h2
            exact h.distinct _ _ _ _ h1 h2 he
      · obtain ⟨hq, hne⟩ := deliver_queued hq
        obtain ⟨l', h1, h2, h3⟩ := h.queued n' k' i t' hq
        have hk : k' ≠ k := by
          rintro rfl
          rw [hl] at h1
          cases h1
          exact hne h2.symm
        exact ⟨l', (upd_other _ _ hk).trans h1, h2, h3⟩
      · rcases deliver_done hg with hg | ⟨rfl, t, hg⟩
        · exact h.value n' k' v hg
        · obtain ⟨l', h1, h2, _⟩ := h.queued n' k' _ t hg
          have := h.distinct _ _ _ _ h1 hl h2
          subst this
          exact h.setting _ _ hs
    · exact ⟨h.ids, h.distinct, h.queued, h.value, h.cached, h.uncached, hset⟩
  · exact h

theorem inv_step {s : State} (h : Inv s) (a : Action) : Inv (step s a) := by
  cases a with
  | tick d =>
    refine ⟨h.ids, h.distinct, h.queued, h.value, h.cached, fun k e hc hl => ?_, h.setting⟩
    obtain ⟨t, h1, h2⟩ := h.uncached k e hc hl
    exact ⟨t, h1, Nat.lt_of_lt_of_le h2 (Nat.le_add_right _ _)⟩
  | call n k =>
    simp only [step]
    split
    · exact inv_go h n k _ (by simp) (by simp)
    · exact h
  | look n =>
    simp only [step]
    split
    · exact inv_look h n _
    · exact h
  | enlist n =>
    simp only [step]
    split
    · exact inv_enlist h n _
    · exact h
  | send n =>
    simp only [step]
    split
    · exact inv_send h n _ _ _
    · exact h
  | expire n =>
    simp only [step]
    split
    · exact inv_expire h n _ _ _
    · exact inv_expire h n _ _ _
    · exact h
  | cleanup n =>
    simp only [step]
    split
    · exact inv_cleanup h n _ _
    · exact h
  | put k v ttl => exact inv_put h k v ttl
  | notify k v => exact inv_notify h k v

theorem inv_run (acts : List Action) : ∀ {s : State}, Inv s → Inv (run acts s) := by
  induction acts with
  | nil => exact fun h => h
  | cons a acts ih => exact fun h => ih (inv_step h a)

theorem inv_init : Inv {} := by
  refine ⟨fun _ _ h => (nomatch h), fun _ _ _ _ h => (nomatch h), fun _ _ _ _ h => (nomatch h), fun _ _ _ h => (nomatch h),
    fun _ _ h => (nomatch h), fun k e _ h => ?_, fun _ _ h => (nomatch h)⟩
  exact (nomatch h.mem)

end Verif.ExtCache
