import Verif.Reload.Lemmas
/-!
# C90: what a running gateway serves when its graph, its configuration and its files change
-/
namespace Verif.Reload

open Spec

variable {κ γ : Type}

/-! ## The engine -/

/-- The first engine is built from the first graph and the newest configuration before it. -/
theorem C90_initial (c : κ) (us : List (Update κ γ)) (c' : κ) (g : γ) (rest : List (Update κ γ)) :
    awaitGraph c us = some (c', g, rest) ↔
      ∃ pre : List κ, us = pre.map Update.config ++ Update.graph g :: rest ∧ c' = pre.getLast?.getD c :=
  await_some c us

/-- There is no engine exactly when there is no graph. -/
theorem C90_initial_none (c : κ) (us : List (Update κ γ)) : awaitGraph c us = none ↔ graphs us = [] :=
  await_none c us

theorem C90_initial_case : awaitGraph 0 [.config 1, .config 2, .graph 'g', .config 3] = some (2, 'g', [.config 3]) := by
  decide

/-- Whatever happens, in whatever order reloads end, fail or are aborted: what is served was built from the graph and
the configuration that were in force after some of the updates received, in order. A graph never meets a
configuration it was not in force with. -/
theorem C90_sound (c : κ) (g : γ) (es : List (Event κ γ)) :
    ∃ pre, pre <+: updates es ∧ ((Loop.init c g).run es).engine = inForce c g pre :=
  (inv c g es).engine

/-- If aborted reloads do not go on: after an update the engine is the one of all updates as soon as its reload ends
well, and until then, or if it fails, it is the engine that was served before the update. -/
theorem C90_latest_partial (c : κ) (g : γ) (a b : List (Event κ γ)) (u : Update κ γ) (ha : NoLate a) (hb : NoUpdate b) :
    ((Loop.init c g).run (a ++ .update u false :: b)).engine =
      if outcome b = some true then inForce c g (updates a ++ [u]) else ((Loop.init c g).run a).engine := by
  rw [run_append, run_cons]
  have h1 : ((Loop.init c g).run a).late = [] := late_run a rfl ha
  have h2 : (((Loop.init c g).run a).step (.update u false)).late = [] := late_step h1 (by intro v hv; cases hv)
  have hi := inv_step (inv c g a) (.update u false)
  have hu : updates [(Event.update u false : Event κ γ)] = [u] := rfl
  rw [hu] at hi
  have h3 : ∃ p, (((Loop.init c g).run a).step (.update u false)).running = some p := ⟨_, rfl⟩
  obtain ⟨p, h3⟩ := h3
  rw [outcome_run b h2 h3 hb, hi.running p h3]
  have h4 : (((Loop.init c g).run a).step (.update u false)).engine = ((Loop.init c g).run a).engine := by
    cases hr : ((Loop.init c g).run a).running <;> cases u <;> simp [Loop.step, Loop.spawn, Loop.assign, Loop.abort, hr]
  rw [h4]

/-- Two updates, of which the first is overtaken; a reload that fails; and the hypotheses hold. -/
theorem C90_latest_case :
    ((Loop.init 0 'a').run ([.update (.graph 'b') false] ++ .update (.config 1) false :: [.finish true])).engine = (1, 'b') ∧
    ((Loop.init 0 'a').run ([.update (.graph 'b') false] ++ .update (.config 1) false :: [.finish false])).engine = (0, 'a') ∧
    NoLate ([.update (.graph 'b') false] : List (Event Nat Char)) ∧ NoUpdate ([.finish true] : List (Event Nat Char)) := by
  refine ⟨by decide, by decide, ?_, ?_⟩
  · intro u h; simp at h
  · intro u l h; simp at h

/-- A reload that was aborted in its last poll can still replace the newer engine, and then the older graph stays in
service. -/
theorem C90_latest_false : ∃ es : List (Event Nat Char), outcome (es.drop 2) = some true ∧
    inForce 0 'a' (updates es) = (0, 'c') ∧ ((Loop.init 0 'a').run es).engine = (0, 'b') ∧
    ((Loop.init 0 'a').run es).running = none ∧ ((Loop.init 0 'a').run es).late = [] :=
  ⟨[.update (.graph 'b') false, .update (.graph 'c') true, .finish true, .finishLate 0 true], by decide, by decide,
    by decide, by decide, by decide⟩

/-- A failed reload is not tried again: once no reload runs, nothing changes until the next update. -/
theorem C90_no_retry (s : Loop κ γ) (es : List (Event κ γ)) (h1 : s.running = none) (h2 : s.late = [])
    (h3 : NoUpdate es) : (s.run es).engine = s.engine := by
  rw [idle_run es h2 h1 h3]

theorem C90_no_retry_case : ((Loop.init 0 'a').run [.update (.graph 'b') false, .finish false]).running = none ∧
    ((Loop.init 0 'a').run [.update (.graph 'b') false, .finish false]).late = [] ∧
    ((Loop.init 0 'a').run [.update (.graph 'b') false, .finish false]).engine = (0, 'a') := by decide

/-! ## The configuration -/

/-- After a change was taken, later changes arrive: when nothing is left to do, the configuration sent last to the
loop is the newest. -/
theorem C90_bridge_partial (c x y : κ) (a1 a2 a3 a4 : List (BridgeEvent κ)) {es : List (BridgeEvent κ)}
    (he : es = (a1 ++ .send x :: a2) ++ .poll :: (a3 ++ .send y :: a4))
    (hq : ((Bridge.init c).run es).step .poll = (Bridge.init c).run es) :
    ((Bridge.init c).run es).sent.getLast? = (sends es).getLast? := by
  have hb : ∀ z : List (BridgeEvent κ), BInv ((Bridge.init c).run z) := fun z => binv_run z (binv_init c)
  -- the first change is taken by the poll
  have h1 : (((Bridge.init c).run (a1 ++ .send x :: a2)).step .poll).phase ≠ .dropping := by
    have hv : 0 < ((Bridge.init c).run (a1 ++ .send x :: a2)).version := by
      rw [version_run, sends_append]
      have : sends (BridgeEvent.send x :: a2) = x :: sends a2 := rfl
      rw [this]
      simp only [List.length_append, List.length_cons]
      omega
    have hi := hb (a1 ++ .send x :: a2)
    cases hp : ((Bridge.init c).run (a1 ++ .send x :: a2)).phase with
    | dropping =>
      have hs := (hi.fresh hp).1
      simp only [Bridge.step, hp]
      split
      · omega
      · simp
    | waiting =>
      simp only [Bridge.step, hp]
      split <;> simp [hp]
    | woken => simp [Bridge.step, hp]
  -- then the second one is not lost
  have h2 : ((Bridge.init c).run ((a1 ++ .send x :: a2) ++ .poll :: a3)).phase ≠ .dropping := by
    rw [bridge_append, bridge_cons]
    exact left_dropping a3 h1
  have hi := hb ((a1 ++ .send x :: a2) ++ .poll :: a3)
  have h3 := awake_run a4 (binv_step hi (.send y)) (b := ((Bridge.init c).run ((a1 ++ .send x :: a2) ++ .poll :: a3)).step (.send y))
    h2 (Or.inl (by have := hi.le; simp only [Bridge.step]; omega))
  have hr : (((Bridge.init c).run ((a1 ++ .send x :: a2) ++ .poll :: a3)).step (.send y)).run a4 = (Bridge.init c).run es := by
    rw [he, ← bridge_cons, ← bridge_append]
    simp
  rw [hr] at h3
  have hf := hb es
  have hle := hf.le
  have hval := value_run es (Bridge.init c)
  have hne : sends es ≠ [] := by
    rw [he, sends_append, sends_append]
    have : sends (BridgeEvent.send x :: a2) = x :: sends a2 := rfl
    rw [this]
    simp
  generalize hB : (Bridge.init c).run es = B at *
  have hl : B.sent.getLast? = some B.value := by
    cases hp : B.phase with
    | dropping => exact absurd hp h3.1
    | waiting =>
      simp only [Bridge.step, hp] at hq
      split at hq
      · rename_i hv
        refine hf.last hp hv.symm ?_
        rcases h3.2 with h | h | h
        · omega
        · rw [hp] at h; cases h
        · exact h
      · have := congrArg Bridge.phase hq
        simp [hp] at this
    | woken =>
      simp only [Bridge.step, hp] at hq
      have := congrArg Bridge.phase hq
      simp [hp] at this
  rw [hl, hval]
  cases hs : (sends es).getLast? with
  | none => exact absurd (List.getLast?_eq_none_iff.mp hs) hne
  | some v => rfl

theorem C90_bridge_case : ((Bridge.init 0).run ((([] ++ .send 1 :: []) ++ .poll :: ([] ++ .send 2 :: [.poll, .poll])))).sent = [2] ∧
    ((Bridge.init 0).run ([.send 1, .poll, .send 2, .poll, .poll])).step .poll =
      (Bridge.init 0).run [.send 1, .poll, .send 2, .poll, .poll] := by decide

/-- The first change is taken for the initial value, which a new receiver does not report, and is lost. -/
theorem C90_bridge_false (c x : κ) (n : Nat) :
    ((Bridge.init c).run (.send x :: List.replicate n .poll)).sent = [] ∧
    ((Bridge.init c).run (.send x :: List.replicate n .poll)).value = x := by
  refine ⟨?_, ?_⟩
  · cases n with
    | zero => rfl
    | succ n =>
      rw [List.replicate_succ, bridge_cons, bridge_cons]
      have h1 : (((Bridge.init c).step (.send x)).step .poll).phase = .waiting := by simp [Bridge.init, Bridge.step]
      have h2 : (((Bridge.init c).step (.send x)).step .poll).version = (((Bridge.init c).step (.send x)).step .poll).seen := by
        simp [Bridge.init, Bridge.step]
      rw [caught_up n h1 h2]
      rfl
  · rw [value_run]
    have : sends (BridgeEvent.send x :: List.replicate n .poll) = x :: sends (List.replicate n (BridgeEvent.poll : BridgeEvent κ)) := rfl
    rw [this]
    have h0 : sends (List.replicate n (BridgeEvent.poll : BridgeEvent κ)) = [] := by
      unfold sends
      rw [List.filterMap_eq_nil_iff]
      intro e he
      rw [(List.mem_replicate.mp he).2]
    rw [h0]
    rfl

/-- In the gateway nothing is sent over the channel, so no change of the configuration ever becomes an update. -/
theorem C90_gateway (c : κ) (es : List (BridgeEvent κ)) (h : sends es = gatewaySends) :
    ((Bridge.init c).run es).sent = [] := by
  rw [no_sends es rfl rfl h]
  rfl

/-- Then all engines have the configuration of the start. -/
theorem C90_gateway_config (c : κ) (g : γ) (es : List (Event κ γ)) (h : configs (updates es) = []) :
    ((Loop.init c g).run es).engine.1 = c := by
  obtain ⟨pre, ⟨t, ht⟩, h2⟩ := C90_sound c g es
  rw [h2]
  have : configs pre = [] := by
    rw [← ht] at h
    simp only [configs, List.filterMap_append, List.append_eq_nil_iff] at h
    exact h.1
  simp [inForce, this]

theorem C90_gateway_case : sends ([.poll, .poll] : List (BridgeEvent Nat)) = gatewaySends ∧
    configs (updates ([.update (.graph 'b') false, .finish true] : List (Event Nat Char))) = [] ∧
    ((Loop.init 0 'a').run [.update (.graph 'b') false, .finish true]).engine = (0, 'b') := by decide

/-! ## The file with the graph -/

section File

variable {α σ : Type} [DecidableEq σ]

/-- If every version of the file has its own fingerprint, the file is not written between its first reading and the
first look at its fingerprint (`e` is not a write), and nothing that is asked of the file system afterwards fails:
after any changes, three polls without a change suffice for what was sent last to be what is in the file. -/
theorem C90_file_partial (l : Life α σ) (s : FileState α σ) (hs : l.start = some s)
    (hi : ∀ a b, l.stamp a = l.stamp b → a = b) (e : FileEvent) (he : e ≠ .write) (es : List FileEvent)
    (hf : FileEvent.fail ∉ es) (c : α) (hc : l.content (s.run l (e :: es)).now = some c) :
    (s.run l (e :: es ++ [.poll, .poll, .poll])).sent.getLast? = some c := by
  rw [file_append]
  refine catch_up hi ?_ hc
  rw [file_cons]
  exact finv_run es (finv_start hs he) hf

/-- All that is sent was in the file, whatever fails. -/
theorem C90_file_sound (l : Life α σ) (s : FileState α σ) (hs : l.start = some s) (es : List FileEvent) (c : α)
    (hc : c ∈ (s.run l es).sent) : ∃ v, v ≤ (s.run l es).now ∧ l.content v = some c := by
  refine sent_sound es ?_ c hc
  unfold Life.start at hs
  split at hs
  · cases hs
  · rename_i c0 h0
    cases hs
    intro c' hc'
    simp only [List.mem_singleton] at hc'
    subst hc'
    exact ⟨0, Nat.le_refl _, h0⟩

/-- A file which does not change is not read again and again: apart from the first reading, and from one more if the first look
at the fingerprint fails, there is at most one for each change. -/
theorem C90_file_quiet (l : Life α σ) (s : FileState α σ) (hs : l.start = some s) (es : List FileEvent) :
    (s.run l es).sent.length ≤ (es.filter (fun e => e == .write)).length + 2 := by
  have hnow : ∀ es : List FileEvent, ∀ s : FileState α σ, (s.run l es).now = s.now + (es.filter (fun e => e == .write)).length := by
    intro es
    induction es with
    | nil => intro s; rfl
    | cons e es ih =>
      intro s
      rw [file_cons, ih]
      have hp : ∀ m c, (s.poll m c).now = s.now := by
        intro m c
        unfold FileState.poll
        split
        · rfl
        · split
          · rfl
          · split <;> rfl
        · split <;> rfl
      cases e with
      | write => simp [FileState.step]; omega
      | poll =>
        have : (FileEvent.poll == FileEvent.write) = false := by decide
        simp [FileState.step, hp, this]
      | fail =>
        have : (FileEvent.fail == FileEvent.write) = false := by decide
        simp [FileState.step, hp, this]
  have h0 : s.sent.length + owed l s ≤ s.now + 2 ∧ s.now = 0 := by
    unfold Life.start at hs
    split at hs
    · cases hs
    · cases hs
      exact ⟨by simp [owed], rfl⟩
  have := owed_run es h0.1
  rw [hnow, h0.2] at this
  omega

/-- A file that is removed for a while. -/
def caseLife : Life Nat Nat := { content := fun n => if n = 1 then none else some n, stamp := fun n => n }

theorem C90_file_case : ∃ s, caseLife.start = some s ∧
    (s.run caseLife [.poll, .write, .poll, .write, .poll, .write]).now = 3 ∧
    (s.run caseLife ([.poll, .write, .poll, .write, .poll, .write] ++ [.poll, .poll, .poll])).sent = [0, 3, 3] :=
  ⟨_, rfl, by decide, by decide⟩

/-- A change between the first reading and the first look at the fingerprint is never seen. -/
theorem C90_file_start_false (l : Life α σ) (s : FileState α σ) (hs : l.start = some s) (n : Nat) :
    (s.run l ([.write, .poll] ++ List.replicate n .poll)).sent = s.sent ∨ l.content 1 = none := by
  cases h1 : l.content 1 with
  | none => exact Or.inr rfl
  | some c =>
    left
    unfold Life.start at hs
    split at hs
    · cases hs
    · cases hs
      rw [file_append, settled]
      · rfl
      · rfl
      · rfl

/-- A change whose reading fails is not read again when it is possible. -/
theorem C90_file_read_false (l : Life α σ) (s : FileState α σ) (hs : l.start = some s) (n : Nat) (c : α)
    (h1 : l.content 1 = some c) (h2 : l.stamp 0 ≠ l.stamp 1) :
    (s.run l ([.poll, .write, .poll, .fail] ++ List.replicate n .poll)).sent = s.sent := by
  unfold Life.start at hs
  split at hs
  · cases hs
  · rename_i c0 h0
    cases hs
    have hm0 : l.metadata 0 = some (l.stamp 0) := by simp [Life.metadata, h0]
    have hm1 : l.metadata 1 = some (l.stamp 1) := by simp [Life.metadata, h1]
    rw [file_append, settled]
    · simp [FileState.run, FileState.step, FileState.poll, hm0, hm1, h1, h2]
    · simp [FileState.run, FileState.step, FileState.poll, hm0, hm1, h1, h2]
    · simp [FileState.run, FileState.step, FileState.poll, hm0, hm1, h1, h2]

/-- A change that keeps the time of modification is never seen. -/
theorem C90_file_stamp_false (l : Life α σ) (s : FileState α σ) (hs : l.start = some s) (n : Nat) (c : α)
    (h1 : l.content 1 = some c) (h2 : l.stamp 0 = l.stamp 1) :
    (s.run l ([.poll, .write] ++ List.replicate n .poll)).sent = s.sent := by
  unfold Life.start at hs
  split at hs
  · cases hs
  · rename_i c0 h0
    cases hs
    have hm0 : l.metadata 0 = some (l.stamp 0) := by simp [Life.metadata, h0]
    have hm1 : l.metadata 1 = some (l.stamp 1) := by simp [Life.metadata, h1]
    rw [file_append, settled]
    · simp [FileState.run, FileState.step, FileState.poll, hm0]
    · simp [FileState.run, FileState.step, FileState.poll, hm0]
    · simp [FileState.run, FileState.step, FileState.poll, hm0, hm1, h2]

theorem C90_file_false_case : caseLife.content 2 = some 2 ∧
    (∃ l : Life Nat Nat, ∃ s, l.start = some s ∧ l.content 1 = some 1 ∧ l.stamp 0 ≠ l.stamp 1 ∧ s.sent = [0]) ∧
    (∃ l : Life Nat Nat, ∃ s, l.start = some s ∧ l.content 1 = some 1 ∧ l.stamp 0 = l.stamp 1 ∧ s.sent = [0]) :=
  ⟨by decide, ⟨⟨some, id⟩, _, rfl, rfl, by decide, rfl⟩, ⟨⟨some, fun _ => 0⟩, _, rfl, rfl, rfl, rfl⟩⟩

end File

/-! ## The limits of rates -/

/-- With hot reloads: the limiter of the first engine has the limits of the configuration read last, or of the one it
was built from; all others have the limits they were built from. -/
theorem C90_limits (c : κ) (es : List (LimitEvent κ)) :
    (Limits.init.run (.build c true :: es)).engines = (reads es).getLast?.getD c :: builds es := by
  rw [limits_cons]
  have := (limits_run es (Limits.init.step (.build c true)) c [] rfl rfl).1
  simpa using this

/-- As long as there is only one engine, changes of the file are in force. -/
theorem C90_limits_partial (c : κ) (es : List (LimitEvent κ)) (h : builds es = []) :
    (Limits.init.run (.build c true :: es)).inForce = some ((reads es).getLast?.getD c) := by
  unfold Limits.inForce
  rw [C90_limits, h]
  rfl

/-- With the next graph the limits of the start are in force again, and changes of the file have no effect any more. -/
theorem C90_limits_false (c x : κ) (es : List (LimitEvent κ)) (h : builds es = []) :
    (Limits.init.run ([.build c true, .file .modify (some x)])).inForce = some x ∧
    (Limits.init.run ([.build c true, .file .modify (some x), .build c true] ++ es)).inForce = some c := by
  refine ⟨rfl, ?_⟩
  unfold Limits.inForce
  have := C90_limits c ([.file .modify (some x), .build c true] ++ es)
  have hb : builds ([LimitEvent.file .modify (some x), .build c true] ++ es) = [c] := by
    have : builds ([LimitEvent.file .modify (some x), .build c true] ++ es) = c :: builds es := rfl
    rw [this, h]
  rw [hb] at this
  simp only [List.cons_append, List.nil_append] at this ⊢
  rw [this]
  rfl

/-- Without hot reloads every engine has the limits it was built from. -/
theorem C90_limits_cold (es : List (LimitEvent κ)) (h : ∀ c, LimitEvent.build c true ∉ es) :
    (Limits.init.run es).engines = builds es := by
  have key : ∀ (es : List (LimitEvent κ)) (s : Limits κ), s.watched = none → (∀ c, LimitEvent.build c true ∉ es) →
      (s.run es).engines = s.engines ++ builds es := by
    intro es
    induction es with
    | nil => intro s _ _; simp [Limits.run, builds]
    | cons e es ih =>
      intro s h1 h2
      rw [limits_cons]
      have h3 : ∀ c, LimitEvent.build c true ∉ es := fun c hc => h2 c (List.mem_cons_of_mem _ hc)
      cases e with
      | build c hot =>
        cases hot with
        | true => exact absurd List.mem_cons_self (h2 c)
        | false =>
          have hb : builds (LimitEvent.build c false :: es) = c :: builds es := rfl
          rw [ih _ (by simp [Limits.step, h1]) h3, hb]
          simp [Limits.step]
      | file kind parsed =>
        have hs : s.step (.file kind parsed) = s := by simp [Limits.step, h1]
        rw [hs]
        exact ih s h1 h3
  have := key es Limits.init rfl h
  simpa [Limits.init] using this

theorem C90_limits_case : (Limits.init.run [.build 1 true, .file .modify none, .file .modify (some 2), .file .remove (some 3)]).inForce = some 2 ∧
    builds ([.file .modify (some 2)] : List (LimitEvent Nat)) = [] ∧
    (Limits.init.run [.build 1 false, .file .modify (some 2)]).inForce = some 1 := by decide

end Verif.Reload
