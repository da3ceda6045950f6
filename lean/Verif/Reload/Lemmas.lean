import Verif.Reload.Spec
/-! # Lemmas -/
namespace Verif.Reload

open Spec

variable {κ γ : Type}

theorem run_append (s : Loop κ γ) (a b : List (Event κ γ)) : s.run (a ++ b) = (s.run a).run b := by
  simp [Loop.run]

theorem run_cons (s : Loop κ γ) (e : Event κ γ) (b : List (Event κ γ)) : s.run (e :: b) = (s.step e).run b := rfl

theorem run_nil (s : Loop κ γ) : s.run [] = s := rfl

/-! ## The wait for the first graph -/

theorem await_some (c : κ) (us : List (Update κ γ)) {c' : κ} {g : γ} {rest : List (Update κ γ)} :
    awaitGraph c us = some (c', g, rest) ↔
      ∃ pre : List κ, us = pre.map Update.config ++ Update.graph g :: rest ∧ c' = pre.getLast?.getD c := by
  induction us generalizing c with
  | nil =>
    simp only [awaitGraph]
    constructor
    · intro h; cases h
    · rintro ⟨pre, h, -⟩
      cases pre <;> simp at h
  | cons u us ih =>
    cases u with
    | graph g' =>
      simp only [awaitGraph, Option.some.injEq, Prod.mk.injEq]
      constructor
      · rintro ⟨rfl, rfl, rfl⟩
        exact ⟨[], rfl, rfl⟩
      · rintro ⟨pre, h, rfl⟩
        cases pre with
        | nil => simp at h; simp [h]
        | cons p ps => simp at h
    | config c1 =>
      simp only [awaitGraph, ih]
      constructor
      · rintro ⟨pre, rfl, rfl⟩
        refine ⟨c1 :: pre, rfl, ?_⟩
        rw [List.getLast?_cons]
        rfl
      · rintro ⟨pre, h, rfl⟩
        cases pre with
        | nil => simp at h
        | cons p ps =>
          simp only [List.map_cons, List.cons_append, List.cons.injEq, Update.config.injEq] at h
          obtain ⟨rfl, rfl⟩ := h
          refine ⟨ps, rfl, ?_⟩
          rw [List.getLast?_cons]
          rfl

theorem await_none (c : κ) (us : List (Update κ γ)) : awaitGraph c us = none ↔ graphs us = [] := by
  induction us generalizing c with
  | nil => simp [awaitGraph, graphs]
  | cons u us ih => cases u <;> simp_all [awaitGraph, graphs]

/-! ## What is in force -/

theorem inForce_nil (c : κ) (g : γ) : inForce c g [] = (c, g) := rfl

theorem inForce_snoc (c : κ) (g : γ) (us : List (Update κ γ)) (u : Update κ γ) :
    inForce c g (us ++ [u]) =
      (match u with | .config x => x | .graph _ => (inForce c g us).1,
       match u with | .graph x => x | .config _ => (inForce c g us).2) := by
  cases u <;> simp [inForce, configs, graphs]

theorem updates_append (a b : List (Event κ γ)) : updates (a ++ b) = updates a ++ updates b := by
  simp [updates]

theorem updates_none {b : List (Event κ γ)} (h : NoUpdate b) : updates b = [] := by
  unfold updates
  rw [List.filterMap_eq_nil_iff]
  intro e he
  cases e with
  | update u l => exact absurd he (h u l)
  | finish _ => rfl
  | finishLate _ _ => rfl

/-- What always holds of the loop. -/
structure Inv (c : κ) (g : γ) (us : List (Update κ γ)) (s : Loop κ γ) : Prop where
  current : (s.config, s.graph) = inForce c g us
  running : ∀ p, s.running = some p → p = inForce c g us
  late : ∀ p ∈ s.late, ∃ pre, pre <+: us ∧ p = inForce c g pre
  engine : ∃ pre, pre <+: us ∧ s.engine = inForce c g pre

theorem inv_init (c : κ) (g : γ) : Inv c g [] (Loop.init c g) :=
  ⟨rfl, by intro p h; simp [Loop.init] at h, by intro p h; simp [Loop.init] at h, [], List.prefix_refl _, rfl⟩

theorem inv_publish {c : κ} {g : γ} {us : List (Update κ γ)} {s : Loop κ γ} (h : Inv c g us s) {p : κ × γ}
    (hp : ∃ pre, pre <+: us ∧ p = inForce c g pre) (ok : Bool) : Inv c g us (s.publish p ok) := by
  unfold Loop.publish
  split
  · exact ⟨h.current, h.running, h.late, hp⟩
  · exact h

theorem inv_step {c : κ} {g : γ} {us : List (Update κ γ)} {s : Loop κ γ} (h : Inv c g us s) (e : Event κ γ) :
    Inv c g (us ++ updates [e]) (s.step e) := by
  cases e with
  | update u l =>
    have hu : updates [Event.update u l] = [u] := rfl
    rw [hu]
    have hpre : ∀ {pre : List (Update κ γ)}, pre <+: us → pre <+: us ++ [u] := fun hp =>
      hp.trans (List.prefix_append _ _)
    have hab : (s.abort l).config = s.config ∧ (s.abort l).graph = s.graph ∧ (s.abort l).engine = s.engine ∧
        ∀ p ∈ (s.abort l).late, p ∈ s.late ∨ s.running = some p := by
      unfold Loop.abort
      split
      · exact ⟨rfl, rfl, rfl, fun p hp => Or.inl hp⟩
      · rename_i q hq
        refine ⟨rfl, rfl, rfl, ?_⟩
        intro p hp
        cases l
        · exact Or.inl hp
        · simp only [if_true, List.mem_append, List.mem_singleton] at hp
          rcases hp with hp | hp
          · exact Or.inl hp
          · subst hp; exact Or.inr hq
    obtain ⟨h1, h2, h3, h4⟩ := hab
    have hc := h.current
    rw [Prod.mk.injEq] at hc
    have hcur : ((((s.abort l).assign u)).config, (((s.abort l).assign u)).graph) = inForce c g (us ++ [u]) := by
      rw [inForce_snoc]
      cases u with
      | graph x => simp only [Loop.assign, h1, hc.1, Prod.mk.injEq, and_self]
      | config x => simp only [Loop.assign, h2, hc.2, Prod.mk.injEq, and_self]
    have hlate : ((s.abort l).assign u).late = (s.abort l).late := by cases u <;> rfl
    have heng : ((s.abort l).assign u).engine = s.engine := by cases u <;> exact h3
    refine ⟨hcur, ?_, ?_, ?_⟩
    · intro p hp
      simp only [Loop.step, Loop.spawn, Option.some.injEq] at hp
      rw [← hp]; exact hcur
    · intro p hp
      simp only [Loop.step, Loop.spawn, hlate] at hp
      rcases h4 p hp with hp | hp
      · obtain ⟨pre, h5, h6⟩ := h.late p hp
        exact ⟨pre, hpre h5, h6⟩
      · exact ⟨us, hpre (List.prefix_refl _), h.running p hp⟩
    · obtain ⟨pre, h5, h6⟩ := h.engine
      refine ⟨pre, hpre h5, ?_⟩
      simp only [Loop.step, Loop.spawn, heng, h6]
  | finish ok =>
    have hu : updates [(Event.finish ok : Event κ γ)] = [] := rfl
    rw [hu, List.append_nil]
    simp only [Loop.step]
    split
    · exact h
    · rename_i p hp
      refine inv_publish (s := { s with running := none }) ⟨h.current, ?_, h.late, h.engine⟩ ⟨us, List.prefix_refl _, h.running p hp⟩ ok
      intro q hq; cases hq
  | finishLate i ok =>
    have hu : updates [(Event.finishLate i ok : Event κ γ)] = [] := rfl
    rw [hu, List.append_nil]
    simp only [Loop.step]
    split
    · exact h
    · rename_i p hp
      refine inv_publish (s := { s with late := s.late.eraseIdx i }) ⟨h.current, h.running, ?_, h.engine⟩ (h.late p (List.mem_of_getElem? hp)) ok
      intro q hq
      exact h.late q (List.mem_of_mem_eraseIdx hq)

theorem inv_run {c : κ} {g : γ} (es : List (Event κ γ)) : ∀ {us : List (Update κ γ)} {s : Loop κ γ}, Inv c g us s →
    Inv c g (us ++ updates es) (s.run es) := by
  induction es with
  | nil => intro us s h; simpa [updates, run_nil] using h
  | cons e es ih =>
    intro us s h
    have := ih (inv_step h e)
    rw [run_cons]
    have he : updates (e :: es) = updates [e] ++ updates es := updates_append [e] es
    rw [he, ← List.append_assoc]
    exact this

theorem inv (c : κ) (g : γ) (es : List (Event κ γ)) : Inv c g (updates es) ((Loop.init c g).run es) := by
  simpa using inv_run es (inv_init c g)

/-! ## Without late reloads -/

theorem late_step {s : Loop κ γ} (h : s.late = []) {e : Event κ γ} (he : ∀ u, e ≠ .update u true) :
    (s.step e).late = [] := by
  cases e with
  | update u l =>
    cases l with
    | true => exact absurd rfl (he u)
    | false =>
      have : (s.abort false).late = [] := by
        unfold Loop.abort
        split
        · exact h
        · simpa using h
      cases u <;> simpa [Loop.step, Loop.spawn, Loop.assign] using this
  | finish ok =>
    simp only [Loop.step]
    split
    · exact h
    · cases ok <;> simpa [Loop.publish] using h
  | finishLate i ok => simp [Loop.step, h]

theorem late_run (es : List (Event κ γ)) : ∀ {s : Loop κ γ}, s.late = [] → NoLate es → (s.run es).late = [] := by
  induction es with
  | nil => intro s h _; exact h
  | cons e es ih =>
    intro s h hn
    rw [run_cons]
    refine ih (late_step h ?_) (fun u hu => hn u (List.mem_cons_of_mem _ hu))
    intro u hu
    exact hn u (hu ▸ List.mem_cons_self)

/-- Without reload in progress nothing changes. -/
theorem idle_run (es : List (Event κ γ)) : ∀ {s : Loop κ γ}, s.late = [] → s.running = none → NoUpdate es →
    s.run es = s := by
  induction es with
  | nil => intro s _ _ _; rfl
  | cons e es ih =>
    intro s h1 h2 hn
    have hs : s.step e = s := by
      cases e with
      | update u l => exact absurd List.mem_cons_self (hn u l)
      | finish ok => simp [Loop.step, h2]
      | finishLate i ok => simp [Loop.step, h1]
    rw [run_cons, hs]
    exact ih h1 h2 (fun u l hu => hn u l (List.mem_cons_of_mem _ hu))

theorem outcome_run (es : List (Event κ γ)) : ∀ {s : Loop κ γ} {p : κ × γ}, s.late = [] → s.running = some p →
    NoUpdate es → (s.run es).engine = if outcome es = some true then p else s.engine := by
  induction es with
  | nil => intro s p _ _ _; rfl
  | cons e es ih =>
    intro s p h1 h2 hn
    have hn' : NoUpdate es := fun u l hu => hn u l (List.mem_cons_of_mem _ hu)
    cases e with
    | update u l => exact absurd List.mem_cons_self (hn u l)
    | finish ok =>
      have ho : outcome (Event.finish ok :: es) = some ok := rfl
      rw [run_cons, ho]
      have hst : s.step (.finish ok) = ({ s with running := none } : Loop κ γ).publish p ok := by
        simp [Loop.step, h2]
      rw [hst, idle_run es _ _ hn']
      · cases ok <;> simp [Loop.publish]
      · cases ok <;> simp [Loop.publish, h1]
      · cases ok <;> simp [Loop.publish]
    | finishLate i ok =>
      have ho : outcome (Event.finishLate i ok :: es) = outcome es := rfl
      have hst : s.step (.finishLate i ok) = s := by simp [Loop.step, h1]
      rw [run_cons, hst, ho]
      exact ih h1 h2 hn'

/-! ## The bridge -/

theorem bridge_append (b : Bridge κ) (x y : List (BridgeEvent κ)) : b.run (x ++ y) = (b.run x).run y := by
  simp [Bridge.run]

theorem bridge_cons (b : Bridge κ) (e : BridgeEvent κ) (y : List (BridgeEvent κ)) :
    b.run (e :: y) = (b.step e).run y := rfl

theorem sends_append (x y : List (BridgeEvent κ)) : sends (x ++ y) = sends x ++ sends y := by simp [sends]

theorem value_run (es : List (BridgeEvent κ)) : ∀ (b : Bridge κ), (b.run es).value = (sends es).getLast?.getD b.value := by
  induction es with
  | nil => intro b; rfl
  | cons e es ih =>
    intro b
    rw [bridge_cons, ih]
    cases e with
    | send c =>
      have : sends (BridgeEvent.send c :: es) = c :: sends es := rfl
      rw [this, List.getLast?_cons]
      rfl
    | poll =>
      have : sends (BridgeEvent.poll :: es) = sends es := rfl
      rw [this]
      have hv : (b.step .poll).value = b.value := by
        simp only [Bridge.step]
        split <;> (try split) <;> rfl
      rw [hv]

/-- What holds of the bridge. -/
structure BInv (b : Bridge κ) : Prop where
  le : b.seen ≤ b.version
  fresh : b.phase = .dropping → b.seen = 0 ∧ b.sent = []
  /-- what was sent last is the value of the version seen -/
  last : b.phase = .waiting → b.seen = b.version → b.sent ≠ [] → b.sent.getLast? = some b.value

theorem binv_init (c : κ) : BInv (Bridge.init c) :=
  ⟨Nat.le_refl _, fun _ => ⟨rfl, rfl⟩, fun h => by simp [Bridge.init] at h⟩

theorem binv_step {b : Bridge κ} (h : BInv b) (e : BridgeEvent κ) : BInv (b.step e) := by
  have hle := h.le
  cases e with
  | send c =>
    refine ⟨by simp only [Bridge.step]; omega, h.fresh, ?_⟩
    intro _ hs
    simp only [Bridge.step] at hs
    omega
  | poll =>
    cases hp : b.phase with
    | dropping =>
      simp only [Bridge.step, hp]
      split
      · exact h
      · refine ⟨Nat.le_refl _, by simp, ?_⟩
        intro _ _ hs
        exact absurd (h.fresh hp).2 hs
    | waiting =>
      simp only [Bridge.step, hp]
      split
      · exact h
      · exact ⟨Nat.le_refl _, by simp, by simp⟩
    | woken =>
      simp only [Bridge.step, hp]
      exact ⟨hle, by simp, by simp⟩

theorem binv_run (es : List (BridgeEvent κ)) : ∀ {b : Bridge κ}, BInv b → BInv (b.run es) := by
  induction es with
  | nil => intro b h; exact h
  | cons e es ih => intro b h; exact ih (binv_step h e)

/-- A bridge that has dropped a change and is behind has something to do, or has sent something. -/
theorem awake_run (es : List (BridgeEvent κ)) : ∀ {b : Bridge κ}, BInv b → b.phase ≠ .dropping →
    (b.seen < b.version ∨ b.phase = .woken ∨ b.sent ≠ []) →
    ((b.run es).phase ≠ .dropping ∧ ((b.run es).seen < (b.run es).version ∨ (b.run es).phase = .woken ∨ (b.run es).sent ≠ [])) := by
  induction es with
  | nil => intro b _ h1 h2; exact ⟨h1, h2⟩
  | cons e es ih =>
    intro b h h1 h2
    rw [bridge_cons]
    have hle := h.le
    apply ih (binv_step h e)
    · cases e with
      | send c => exact h1
      | poll =>
        cases hp : b.phase with
        | dropping => exact absurd hp h1
        | waiting =>
          simp only [Bridge.step, hp]
          split <;> simp [hp]
        | woken => simp [Bridge.step, hp]
    · cases e with
      | send c =>
        left
        simp only [Bridge.step]
        omega
      | poll =>
        cases hp : b.phase with
        | dropping => exact absurd hp h1
        | waiting =>
          simp only [Bridge.step, hp]
          split
          · exact h2
          · simp
        | woken => simp [Bridge.step, hp]

theorem left_dropping (es : List (BridgeEvent κ)) : ∀ {b : Bridge κ}, b.phase ≠ .dropping → (b.run es).phase ≠ .dropping := by
  induction es with
  | nil => intro b h; exact h
  | cons e es ih =>
    intro b h
    rw [bridge_cons]
    apply ih
    cases e with
    | send c => exact h
    | poll =>
      cases hp : b.phase with
      | dropping => exact absurd hp h
      | waiting =>
        simp only [Bridge.step, hp]
        split <;> simp [hp]
      | woken => simp [Bridge.step, hp]

theorem version_run (es : List (BridgeEvent κ)) : ∀ (b : Bridge κ), (b.run es).version = b.version + (sends es).length := by
  induction es with
  | nil => intro b; rfl
  | cons e es ih =>
    intro b
    rw [bridge_cons, ih]
    cases e with
    | send c =>
      have : sends (BridgeEvent.send c :: es) = c :: sends es := rfl
      rw [this]
      simp only [Bridge.step, List.length_cons]
      omega
    | poll =>
      have : sends (BridgeEvent.poll :: es) = sends es := rfl
      rw [this]
      have hv : (b.step .poll).version = b.version := by
        simp only [Bridge.step]
        split <;> (try split) <;> rfl
      rw [hv]

theorem no_sends (es : List (BridgeEvent κ)) : ∀ {b : Bridge κ}, b.phase = .dropping → b.version = b.seen →
    sends es = [] → b.run es = b := by
  induction es with
  | nil => intro b _ _ _; rfl
  | cons e es ih =>
    intro b h1 h2 h3
    cases e with
    | send c => cases h3
    | poll =>
      rw [bridge_cons]
      have : b.step .poll = b := by simp [Bridge.step, h1, h2]
      rw [this]
      exact ih h1 h2 h3

theorem caught_up (n : Nat) : ∀ {b : Bridge κ}, b.phase = .waiting → b.version = b.seen →
    b.run (List.replicate n .poll) = b := by
  induction n with
  | zero => intro b _ _; rfl
  | succ n ih =>
    intro b h1 h2
    rw [List.replicate_succ, bridge_cons]
    have : b.step .poll = b := by simp [Bridge.step, h1, h2]
    rw [this]
    exact ih h1 h2

/-! ## The file -/

section File

variable {α σ : Type} [DecidableEq σ]

theorem file_cons (l : Life α σ) (s : FileState α σ) (e : FileEvent) (es : List FileEvent) :
    s.run l (e :: es) = (s.step l e).run l es := rfl

theorem file_append (l : Life α σ) (s : FileState α σ) (a b : List FileEvent) :
    s.run l (a ++ b) = (s.run l a).run l b := by
  simp [FileState.run]

/-- What holds of the updater: the fingerprint is that of a version, and what was sent last is that version or a
newer one, unless the file has changed since. -/
structure FInv (l : Life α σ) (s : FileState α σ) : Prop where
  started : s.phase ≠ .starting
  some_sent : s.sent ≠ []
  known : ∀ f, s.fingerprint = some f → ∃ v, v ≤ s.now ∧ f = l.stamp v ∧ l.content v ≠ none ∧
    (s.phase = .idle → v < s.now ∨ ∃ w c, v ≤ w ∧ w ≤ s.now ∧ l.content w = some c ∧ s.sent.getLast? = some c)

theorem finv_step {l : Life α σ} {s : FileState α σ} (h : FInv l s) {e : FileEvent} (he : e ≠ .fail) :
    FInv l (s.step l e) := by
  cases e with
  | fail => exact absurd rfl he
  | write =>
    refine ⟨h.started, h.some_sent, ?_⟩
    intro f hf
    obtain ⟨v, h1, h2, h3, -⟩ := h.known f hf
    exact ⟨v, Nat.le_succ_of_le h1, h2, h3, fun _ => Or.inl (Nat.lt_succ_of_le h1)⟩
  | poll =>
    cases hp : s.phase with
    | starting => exact absurd hp h.started
    | idle =>
      simp only [FileState.step, FileState.poll, hp]
      cases hm : l.metadata s.now with
      | none => simpa [hm] using h
      | some f =>
        simp only []
        split
        · exact h
        · refine ⟨by simp, h.some_sent, ?_⟩
          intro f' hf'
          simp only [Option.some.injEq] at hf'
          unfold Life.metadata at hm
          split at hm
          · cases hm
          · rename_i c hc
            simp only [Option.some.injEq] at hm
            exact ⟨s.now, Nat.le_refl _, by rw [← hf', ← hm], by rw [hc]; simp, by simp⟩
    | reading =>
      simp only [FileState.step, FileState.poll, hp]
      cases hc : l.content s.now with
      | none =>
        refine ⟨by simp, h.some_sent, ?_⟩
        intro f hf
        obtain ⟨v, h1, h2, h3, -⟩ := h.known f hf
        refine ⟨v, h1, h2, h3, fun _ => Or.inl (Nat.lt_of_le_of_ne h1 ?_)⟩
        intro hv
        exact h3 (hv ▸ hc)
      | some c =>
        refine ⟨by simp, by simp, ?_⟩
        intro f hf
        obtain ⟨v, h1, h2, h3, -⟩ := h.known f hf
        exact ⟨v, h1, h2, h3, fun _ => Or.inr ⟨s.now, c, h1, Nat.le_refl _, hc, by simp⟩⟩

theorem finv_run {l : Life α σ} (es : List FileEvent) : ∀ {s : FileState α σ}, FInv l s → FileEvent.fail ∉ es →
    FInv l (s.run l es) := by
  induction es with
  | nil => intro s h _; exact h
  | cons e es ih =>
    intro s h hn
    rw [file_cons]
    exact ih (finv_step h (fun he => hn (he ▸ List.mem_cons_self))) (fun he => hn (List.mem_cons_of_mem _ he))

/-- After the start the invariant holds if the file was not written before its fingerprint was taken. -/
theorem finv_start {l : Life α σ} {s : FileState α σ} (h : l.start = some s) {e : FileEvent} (he : e ≠ .write) :
    FInv l (s.step l e) := by
  unfold Life.start at h
  split at h
  · cases h
  · rename_i c hc
    cases h
    have hm : l.metadata 0 = some (l.stamp 0) := by simp [Life.metadata, hc]
    cases e with
    | write => exact absurd rfl he
    | poll =>
      simp only [FileState.step, FileState.poll, hm]
      refine ⟨by simp, by simp, ?_⟩
      intro f hf
      simp only [Option.some.injEq] at hf
      exact ⟨0, Nat.le_refl _, hf.symm, by rw [hc]; simp, fun _ => Or.inr ⟨0, c, Nat.le_refl _, Nat.le_refl _, hc, rfl⟩⟩
    | fail =>
      simp only [FileState.step, FileState.poll]
      exact ⟨by simp, by simp, by simp⟩

/-- Three polls of a file that is there catch up with it. -/
theorem catch_up {l : Life α σ} {s : FileState α σ} (hi : ∀ a b, l.stamp a = l.stamp b → a = b) (h : FInv l s) {c : α}
    (hc : l.content s.now = some c) : (s.run l [.poll, .poll, .poll]).sent.getLast? = some c := by
  have hm : l.metadata s.now = some (l.stamp s.now) := by simp [Life.metadata, hc]
  have key : ∀ t : FileState α σ, FInv l t → t.now = s.now → t.phase = .idle → t.fingerprint = some (l.stamp s.now) →
      t.sent.getLast? = some c := by
    intro t ht hn hp hf
    obtain ⟨v, h1, h2, -, h4⟩ := ht.known _ hf
    have hv := hi _ _ h2
    rw [hn] at h4
    rcases h4 hp with h4 | ⟨w, c', h5, h6, h7, h8⟩
    · omega
    · have : w = s.now := by omega
      subst this
      rw [hc] at h7
      cases h7
      exact h8
  cases hp : s.phase with
  | starting => exact absurd hp h.started
  | idle =>
    by_cases hf : s.fingerprint = some (l.stamp s.now)
    · have : s.step l .poll = s := by simp [FileState.step, FileState.poll, hp, hm, hf]
      simp only [FileState.run, List.foldl_cons, List.foldl_nil, this]
      exact key s h rfl hp hf
    · simp [FileState.run, FileState.step, FileState.poll, hp, hm, hf, hc]
  | reading =>
    by_cases hf : s.fingerprint = some (l.stamp s.now)
    · simp [FileState.run, FileState.step, FileState.poll, hp, hm, hf, hc]
    · simp [FileState.run, FileState.step, FileState.poll, hp, hm, hf, hc]

/-- An updater that is idle with the fingerprint of the file does nothing. -/
theorem settled (l : Life α σ) (n : Nat) : ∀ {s : FileState α σ}, s.phase = .idle → s.fingerprint = l.metadata s.now →
    s.run l (List.replicate n .poll) = s := by
  induction n with
  | zero => intro s _ _; rfl
  | succ n ih =>
    intro s h1 h2
    rw [List.replicate_succ, file_cons]
    have : s.step l .poll = s := by
      simp only [FileState.step, FileState.poll, h1]
      cases hm : l.metadata s.now with
      | none => simp
      | some f => simp [h2, hm]
    rw [this]
    exact ih h1 h2

/-- One if the file may be read once more without a change. -/
def owed (l : Life α σ) (s : FileState α σ) : Nat :=
  (if s.phase = .reading then 1 else 0) +
    (if s.phase = .starting ∨ s.fingerprint ≠ some (l.stamp s.now) then 1 else 0)

theorem owed_poll {l : Life α σ} (s : FileState α σ) (m : Option σ) (c : Option α) (hm : m = none ∨ m = some (l.stamp s.now)) :
    (s.poll m c).sent.length + owed l (s.poll m c) ≤ s.sent.length + owed l s ∧ (s.poll m c).now = s.now := by
  obtain ⟨now, fp, phase, sent⟩ := s
  simp only at hm
  cases phase with
  | starting =>
    rcases hm with rfl | rfl
    · simp [FileState.poll, owed]
    · simp [FileState.poll, owed]
  | idle =>
    rcases hm with rfl | rfl
    · simp [FileState.poll]
    · simp only [FileState.poll]
      split
      · exact ⟨Nat.le_refl _, rfl⟩
      · rename_i h
        simp [owed, h]
  | reading =>
    cases c with
    | none => simp [FileState.poll, owed]
    | some c =>
      simp only [FileState.poll, owed, List.length_append, List.length_singleton]
      simp
      omega

theorem owed_run {l : Life α σ} (es : List FileEvent) : ∀ {s : FileState α σ}, s.sent.length + owed l s ≤ s.now + 2 →
    (s.run l es).sent.length + owed l (s.run l es) ≤ (s.run l es).now + 2 := by
  induction es with
  | nil => intro s h; exact h
  | cons e es ih =>
    intro s h
    rw [file_cons]
    apply ih
    cases e with
    | write =>
      obtain ⟨now, fp, phase, sent⟩ := s
      simp only [FileState.step, owed] at h ⊢
      cases phase <;> simp at h ⊢ <;> (repeat' split at h) <;> (repeat' split) <;> omega
    | poll =>
      have := owed_poll (l := l) s (l.metadata s.now) (l.content s.now) (by
        unfold Life.metadata; split
        · exact Or.inl rfl
        · exact Or.inr rfl)
      simp only [FileState.step]
      rw [this.2]
      exact Nat.le_trans this.1 h
    | fail =>
      have := owed_poll (l := l) s none none (Or.inl rfl)
      simp only [FileState.step]
      rw [this.2]
      exact Nat.le_trans this.1 h

/-- All that is sent was in the file. -/
theorem sent_sound {l : Life α σ} (es : List FileEvent) : ∀ {s : FileState α σ},
    (∀ c ∈ s.sent, ∃ v, v ≤ s.now ∧ l.content v = some c) →
    ∀ c ∈ (s.run l es).sent, ∃ v, v ≤ (s.run l es).now ∧ l.content v = some c := by
  induction es with
  | nil => intro s h; exact h
  | cons e es ih =>
    intro s h
    rw [file_cons]
    apply ih
    have hfail : ∀ m : Option σ, ∀ c ∈ (s.poll m none).sent, ∃ v, v ≤ (s.poll m none).now ∧ l.content v = some c := by
      intro m
      unfold FileState.poll
      split
      · exact h
      · split
        · exact h
        · split <;> exact h
      · exact h
    cases e with
    | write =>
      intro c hc
      obtain ⟨v, h1, h2⟩ := h c hc
      exact ⟨v, Nat.le_succ_of_le h1, h2⟩
    | fail => exact hfail none
    | poll =>
      simp only [FileState.step]
      cases hn : l.content s.now with
      | none => exact hfail _
      | some c0 =>
        unfold FileState.poll
        split
        · exact h
        · split
          · exact h
          · split <;> exact h
        · intro c hc
          simp only [List.mem_append, List.mem_singleton] at hc
          rcases hc with hc | rfl
          · exact h c hc
          · exact ⟨s.now, Nat.le_refl _, hn⟩

end File

/-! ## Limits -/

theorem limits_cons (s : Limits κ) (e : LimitEvent κ) (es : List (LimitEvent κ)) : s.run (e :: es) = (s.step e).run es := rfl

/-- When the first engine is the one watched: it has what was read last, the others what they were built from. -/
theorem limits_run (es : List (LimitEvent κ)) : ∀ (s : Limits κ) (c : κ) (cs : List κ), s.engines = c :: cs →
    s.watched = some 0 →
    (s.run es).engines = (reads es).getLast?.getD c :: (cs ++ builds es) ∧ (s.run es).watched = some 0 := by
  induction es with
  | nil => intro s c cs h1 h2; exact ⟨by simpa [Limits.run, reads, builds] using h1, h2⟩
  | cons e es ih =>
    intro s c cs h1 h2
    rw [limits_cons]
    cases e with
    | build c' hot =>
      have hb : builds (LimitEvent.build c' hot :: es) = c' :: builds es := rfl
      have hr : reads (LimitEvent.build c' hot :: es) = reads es := rfl
      rw [hb, hr]
      have := ih (s.step (.build c' hot)) c (cs ++ [c']) (by simp [Limits.step, h1]) (by simp [Limits.step, h2])
      rw [List.append_assoc] at this
      exact this
    | file kind parsed =>
      have hb : builds (LimitEvent.file kind parsed :: es) = builds es := rfl
      rw [hb]
      cases parsed with
      | none =>
        have hr : reads (LimitEvent.file kind none :: es) = reads es := by cases kind <;> rfl
        rw [hr]
        have hs : s.step (.file kind none) = s := by simp [Limits.step]
        rw [hs]
        exact ih s c cs h1 h2
      | some c' =>
        by_cases hk : kind.reloads
        · have hr : reads (LimitEvent.file kind (some c') :: es) = c' :: reads es := by
            cases kind <;> first | rfl | cases hk
          rw [hr]
          have := ih (s.step (.file kind (some c'))) c' cs (by simp [Limits.step, h1, h2, hk]) (by simp [Limits.step, h2, hk])
          rw [List.getLast?_cons]
          exact this
        · have hr : reads (LimitEvent.file kind (some c') :: es) = reads es := by
            cases kind <;> first | rfl | exact absurd rfl hk
          rw [hr]
          have hs : s.step (.file kind (some c')) = s := by simp [Limits.step, h2, hk]
          rw [hs]
          exact ih s c cs h1 h2

end Verif.Reload
