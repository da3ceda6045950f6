import Verif.WsServer.Witness

/-!
# C76: websocket connections
-/
namespace Verif.WsServer

variable {P Q R S T : Type}

/-- What a server writes is what the protocol lets it: before the acknowledgement only pings and a close, no second
acknowledgement, and nothing after a close. An acknowledgement follows the creation of a session, and an operation, or a
message about one, follows the acknowledgement. -/
theorem C76_protocol (c : Cfg P Q R T) (is : List (In R S T)) (st : St P Q R S) (h : run c is = some st) :
    (∃ p, follow .connecting (written st) = some p) ∧
    (Msg.ack ∈ written st → ∃ s, In.created (some s) ∈ is) ∧
    (st.tasks ≠ [] → Msg.ack ∈ written st) ∧ (∀ m ∈ written st, about m ≠ none → Msg.ack ∈ written st) := by
  have hsh := run_shape h
  have hack := run_acked h
  have hopen : (seen c is).opened = false → st.tasks = [] := fun ho => (hsh.empty ho).1
  have htasks : st.tasks ≠ [] → Msg.ack ∈ written st := by
    intro hne
    cases ho : (seen c is).opened with
    | true => exact hack.opened ho
    | false => exact absurd (hopen ho) hne
  obtain ⟨p, hp, _⟩ := hsh.place
  refine ⟨⟨p, hp⟩, hack.only, htasks, ?_⟩
  intro m hm hab
  apply htasks
  intro hnil
  obtain ⟨x, hx, e⟩ := List.mem_map.mp hm
  subst e
  have hfl : x ∈ flow st := by simp [flow, hx]
  cases ho : x.origin with
  | none => exact hab ((run_counted h).plain x hfl ho)
  | some t =>
    have hfr := ((run_conserve h).fresh t (by simp [hnil])).1
    have : x.msg ∈ byTask t (flow st) := List.mem_map.mpr ⟨x, List.mem_filter.mpr ⟨hfl, by simp [ho]⟩, rfl⟩
    rw [hfr] at this
    simp at this

/-- The operations executed are those the client has asked for after the acknowledgement, in that order, each once; only
the last one may be missing, and then the connection is being closed. -/
theorem C76_operations (c : Cfg P Q R T) (is : List (In R S T)) (st : St P Q R S) (h : run c is = some st) :
    (∃ rest, subscribes (events c is) = st.tasks.map (fun k => (k.id, k.request)) ++ rest ∧ rest.length ≤ 1 ∧
      (rest ≠ [] → st.at_ = .over ∨ ∃ s, st.at_ = .sending s (.close 4409))) := by
  have hb := run_books h
  have hsh := run_shape h
  obtain ⟨rest, e, h1, h2, h3⟩ := hb.ops
  refine ⟨rest, e, h1, ?_⟩
  intro hne
  have hbefore : (accepting st.at_ = true ∨ st.at_ = .timedOut) → rest = [] := by
    intro ha
    have := (hsh.empty (hsh.unopened ha)).2.2.2.2
    rw [this] at e
    simp only [subscribes, List.filterMap_nil] at e
    exact (List.append_eq_nil_iff.mp e.symm).2
  cases ha : st.at_ with
  | over => exact .inl rfl
  | recv s => exact absurd (h2 s ha) hne
  | timedOut => exact absurd (hbefore (.inr ha)) hne
  | sending s m =>
    by_cases hm : m = .close 4409
    · subst hm; exact .inr ⟨s, rfl⟩
    · exact absurd (h3 s m ha hm) hne
  | accRecv => exact absurd (hbefore (.inl (by simp [ha, accepting]))) hne
  | accCreating p => exact absurd (hbefore (.inl (by simp [ha, accepting]))) hne
  | accSending m a => exact absurd (hbefore (.inl (by simp [ha, accepting]))) hne

/-- What is written for an operation is, in order, what it yields: a message for each response, and `complete` after the
last one; after `complete` there is nothing. -/
theorem C76_messages (c : Cfg P Q R T) (is : List (In R S T)) (st : St P Q R S) (h : run c is = some st) (t : Nat)
    (k : Task Q R) (hk : st.tasks[t]? = some k) :
    writtenBy st t <+: script c k.id t is ∧ ∀ a b, writtenBy st t = a ++ .complete k.id :: b → b = [] := by
  have hcon := run_conserve h
  have hpre : writtenBy st t <+: script c k.id t is := by
    by_cases hd : st.pump = .dead
    · exact hcon.lost t k hk hd
    · refine List.IsPrefix.trans ?_ (hcon.kept t k hk hd).prefix
      rw [flow, byTask_append, byTask_append, List.append_assoc]
      exact List.prefix_append _ _
  refine ⟨hpre, ?_⟩
  intro a b e
  obtain ⟨d, hd⟩ := hpre
  rw [e, List.append_assoc, List.cons_append] at hd
  have := (run_final h hk a (b ++ d) hd.symm).1
  exact (List.append_eq_nil_iff.mp this).1

/-- While writing succeeds nothing is lost: once the server has nothing left to do by itself, all that an operation has
yielded has been written, unless its end was asked for, and every ping has been answered. -/
theorem C76_nothing_lost (c : Cfg P Q R T) (is : List (In R S T)) (st : St P Q R S) (h : run c is = some st)
    (hs : Settled c st) (hp : st.pump ≠ .dead) :
    (∀ t k, st.tasks[t]? = some k → k.aborted = false → writtenBy st t = script c k.id t is) ∧
    pongs (written st) = pings (events c is) := by
  obtain ⟨h1, h2, h3⟩ := settled_flow hs hp
  refine ⟨?_, ?_⟩
  · intro t k hk hb
    rcases (run_conserve h).kept t k hk hp with ⟨e, _⟩ | ⟨_, e⟩
    · have := (run_acked h).cancelled k (List.mem_of_getElem? hk) e
      rw [hb] at this
      cases this
    · rw [h3 k (List.mem_of_getElem? hk), List.append_nil, h1] at e
      exact e
  · have := (run_counted h).exact hp
    rw [h1, h2] at this
    simpa [pongs, written, events] using this

/-- The server comes to an end with what it does by itself, whatever the order. -/
theorem C76_settles (c : Cfg P Q R T) (st : St P Q R S) :
    (∃ (js : List (In R S T)) (st' : St P Q R S), (∀ j ∈ js, internal j = true) ∧ runFrom c st js = some st' ∧
      Settled c st') ∧
    ∃ n, ∀ (js : List (In R S T)) (st' : St P Q R S), (∀ j ∈ js, internal j = true) → runFrom c st js = some st' →
      js.length ≤ n := by
  refine ⟨settles (work st) st (Nat.le_refl _), work st, ?_⟩
  intro js
  suffices hmain : ∀ (st st' : St P Q R S), (∀ j ∈ js, internal j = true) → runFrom c st js = some st' →
      js.length + work st' ≤ work st by
    intro st' h1 h2
    have := hmain st st' h1 h2
    omega
  induction js with
  | nil =>
    intro st st' _ h
    simp only [runFrom] at h
    injection h with h
    subst h
    simp
  | cons j js ih =>
    intro st st' hi h
    rw [runFrom] at h
    cases hj : step c st j with
    | none => simp [hj] at h
    | some st1 =>
      simp only [hj] at h
      have h1 := internal_work (hi j (by simp)) hj
      have h2 := ih st1 st' (fun x hx => hi x (by simp [hx])) h
      simp only [List.length_cons]
      omega

/-- At most one operation is wanted with an id, and the end of one is asked for only when the client does or when the
connection ends. Nothing is wanted once it has ended, and then no frame is read. -/
theorem C76_ids (c : Cfg P Q R T) (is : List (In R S T)) (st : St P Q R S) (h : run c is = some st) :
    (∀ (t u : Nat) (k l : Task Q R), st.tasks[t]? = some k → st.tasks[u]? = some l → k.id = l.id → k.aborted = false → l.aborted = false →
      t = u) ∧
    (∀ k ∈ st.tasks, k.aborted = true → st.at_ = .over ∨ Event.complete k.id ∈ events c is) ∧
    (st.at_ = .over → (∀ k ∈ st.tasks, k.aborted = true) ∧ ∀ f, step c st (.frame f) = none) := by
  have hb := run_books h
  have hsh := run_shape h
  refine ⟨?_, hb.stopped, fun ha => ⟨hsh.ended ha, fun f => by simp [step, ha]⟩⟩
  intro t u k l hk hl hid hka hla
  have hserv : serving st.at_ = true := by
    have hne : st.tasks ≠ [] := by intro e; simp [e] at hk
    have hbefore : ¬ (accepting st.at_ = true ∨ st.at_ = .timedOut) := by
      intro ha
      exact hne (hsh.empty (hsh.unopened ha)).1
    cases ha : st.at_ with
    | over =>
      have := hsh.ended ha k (List.mem_of_getElem? hk)
      rw [hka] at this
      cases this
    | recv s => rfl
    | sending s m => rfl
    | timedOut => exact absurd (.inr ha) hbefore
    | _ => exact absurd (.inl (by simp [ha, accepting])) hbefore
  have h1 := (hb.subs hserv k.id t).mpr ⟨k, hk, rfl, hka⟩
  have h2 := (hb.subs hserv k.id u).mpr ⟨l, hl, hid.symm, hla⟩
  rw [h1] at h2
  injection h2

/-- When an operation is asked for with an id, the connection is closed exactly when the client has already used the id
and has not itself completed that operation; otherwise it is executed. Partial: the id should be free also when the
operation has ended by itself (`Demo.C76_reuse_false`). -/
theorem C76_duplicate_partial (c : Cfg P Q R T) (is : List (In R S T)) (st : St P Q R S) (h : run c is = some st)
    (s : S) (hr : st.at_ = .recv s) (f : Frame T) (id : Id) (q : Q)
    (hf : (content f).bind c.parse = some (.subscribe id q)) :
    ∃ st', step c st (.frame f) = some st' ∧
      (inUse (events c is) id = true → st'.at_ = .sending s (.close 4409) ∧ st'.tasks = st.tasks) ∧
      (inUse (events c is) id = false → st'.at_ = .recv s ∧
        st'.tasks = st.tasks ++ [{ id := id, request := q, at_ := .next, aborted := false }]) := by
  have hb := run_books h
  have hu := hb.uses (by simp [hr, serving]) id
  have hrm : ∃ t, recvMessage f = .text t ∧ c.parse t = some (.subscribe id q) := by
    cases f with
    | text t => exact ⟨t, rfl, hf⟩
    | binary b =>
      cases b with
      | none => simp [content] at hf
      | some t => exact ⟨t, rfl, hf⟩
    | _ => simp [content] at hf
  obtain ⟨t, h1, h2⟩ := hrm
  refine ⟨serveFrame c st s f, by simp [step, hr], ?_, ?_⟩
  · intro hin
    rw [show events c is = (seen c is).events from rfl, hu] at hin
    obtain ⟨u, hl⟩ := Option.isSome_iff_exists.mp hin
    simp [serveFrame, h1, h2, handle, hl]
  · intro hin
    rw [show events c is = (seen c is).events from rfl, hu] at hin
    have hl : lookup id st.subs = none := by
      cases hl : lookup id st.subs with
      | none => rfl
      | some u => simp [hl] at hin
    simp [serveFrame, h1, h2, handle, hl, hr]

/-- A client that uses no id twice reads for an id the messages of its operation only. Partial: otherwise it may read
those of another one (`Demo.C76_stale_false`). -/
theorem C76_own_messages_partial (c : Cfg P Q R T) (is : List (In R S T)) (st : St P Q R S) (h : run c is = some st)
    (hn : ((subscribes (events c is)).map (·.1)).Nodup) :
    (∀ t k, st.tasks[t]? = some k →
      (written st).filter (fun m => decide (about m = some k.id)) <+: script c k.id t is) ∧
    ∀ id, id ∉ (subscribes (events c is)).map (·.1) → ∀ m ∈ written st, about m ≠ some id := by
  have hcon := run_conserve h
  have hcount := run_counted h
  obtain ⟨rest, e, _⟩ := (run_books h).ops
  have hids : (st.tasks.map (·.id)).Nodup := by
    rw [show subscribes (events c is) = _ from e, List.map_append, List.map_map] at hn
    exact (List.nodup_append.mp hn).1
  have horigin : ∀ x ∈ st.out, about x.msg ≠ none → ∃ u l, x.origin = some u ∧ st.tasks[u]? = some l ∧
      about x.msg = some l.id := by
    intro x hx hab
    have hfl : x ∈ flow st := by simp [flow, hx]
    cases ho : x.origin with
    | none => exact absurd (hcount.plain x hfl ho) hab
    | some u =>
      have hmem : x.msg ∈ byTask u st.out := List.mem_map.mpr ⟨x, List.mem_filter.mpr ⟨hx, by simp [ho]⟩, rfl⟩
      cases hl : st.tasks[u]? with
      | none =>
        have hfr := (hcon.fresh u hl).1
        rw [flow, byTask_append, byTask_append, List.append_assoc] at hfr
        rw [(List.append_eq_nil_iff.mp hfr).1] at hmem
        simp at hmem
      | some l =>
        have hpre := (C76_messages c is st h u l hl).1
        exact ⟨u, l, rfl, hl, script_about (hpre.subset hmem)⟩
  refine ⟨?_, ?_⟩
  · intro t k hk
    refine List.IsPrefix.trans ?_ (C76_messages c is st h t k hk).1
    have : (written st).filter (fun m => decide (about m = some k.id)) = writtenBy st t := by
      unfold written writtenBy
      rw [List.filter_map]
      congr 1
      apply List.filter_congr
      intro x hx
      simp only [Function.comp_apply]
      apply decide_eq_decide.mpr
      constructor
      · intro hab
        obtain ⟨u, l, ho, hl, hid⟩ := horigin x hx (by rw [hab]; simp)
        rw [hab] at hid
        injection hid with hid
        have hut : u = t := by
          have h1 : (st.tasks.map (·.id))[u]? = some k.id := by simp [hl, hid]
          have h2 : (st.tasks.map (·.id))[t]? = some k.id := by simp [hk]
          have hul : u < (st.tasks.map (·.id)).length := (List.getElem?_eq_some_iff.mp h1).1
          exact (List.getElem?_inj hul hids).mp (h1.trans h2.symm)
        rw [ho, hut]
      · intro ho
        have hmem : x.msg ∈ byTask t st.out := List.mem_map.mpr ⟨x, List.mem_filter.mpr ⟨hx, by simp [ho]⟩, rfl⟩
        exact script_about ((C76_messages c is st h t k hk).1.subset hmem)
    rw [this]
    exact List.prefix_refl _
  · intro id hid m hm hab
    obtain ⟨x, hx, e'⟩ := List.mem_map.mp hm
    subst e'
    obtain ⟨u, l, _, hl, he⟩ := horigin x hx (by rw [hab]; simp)
    rw [hab] at he
    injection he with he
    subst he
    apply hid
    rw [show subscribes (events c is) = _ from e]
    simp only [List.map_append, List.map_map, List.mem_append]
    exact .inl (List.mem_map.mpr ⟨l, List.mem_of_getElem? hl, rfl⟩)

/-- There are never more pongs than pings, and the channel holds a bounded number of messages. -/
theorem C76_bounds (c : Cfg P Q R T) (is : List (In R S T)) (st : St P Q R S) (h : run c is = some st) :
    pongs (written st) ≤ pings (events c is) ∧ st.queue.length ≤ 16 :=
  ⟨(run_counted h).most, (run_counted h).room⟩

/-- A session that is refused gets a close, and nothing is executed. -/
theorem C76_refused (c : Cfg P Q R T) (is : List (In R S T)) (st : St P Q R S) (h : run c is = some st)
    (hno : ∀ s, In.created (some s) ∉ is) :
    st.tasks = [] ∧ ∀ m ∈ written st, m = .ping ∨ ∃ n, m = .close n := by
  obtain ⟨⟨p, hp⟩, h1, h2, h3⟩ := C76_protocol c is st h
  have hack : Msg.ack ∉ written st := by
    intro ha
    obtain ⟨s, hs⟩ := h1 ha
    exact hno s hs
  refine ⟨?_, ?_⟩
  · cases ht : st.tasks with
    | nil => rfl
    | cons x xs => exact absurd (h2 (by simp [ht])) hack
  · intro m hm
    have hpong : m ≠ .pong := by
      intro e
      subst e
      have hc := (run_counted h).most
      have hz : (seen c is).opened = false := by
        cases ho : (seen c is).opened with
        | false => rfl
        | true => exact absurd ((run_acked h).opened ho) hack
      have he := ((run_shape h).empty hz).2.2.2.2
      rw [he] at hc
      have hpos : 0 < pongs (written st) := List.countP_pos_iff.mpr ⟨_, hm, rfl⟩
      simp [pings] at hc
      omega
    cases m with
    | ping => exact .inl rfl
    | close n => exact .inr ⟨n, rfl⟩
    | ack => exact absurd hm hack
    | pong => exact absurd rfl hpong
    | next id r => exact absurd (h3 _ hm (by simp [about])) hack
    | error id r => exact absurd (h3 _ hm (by simp [about])) hack
    | complete id => exact absurd (h3 _ hm (by simp [about])) hack

/-- The connection is closed with the code of the protocol: 4401 when an operation is asked for before the connection is
initialised, 4403 when there is no session, 4408 when the client has not initialised it in time, 4429 when it does so
again. Whatever else is sent, the connection stays open; the pings and pongs of websockets are no messages. It ends when the
client closes it, or something is sent that is not text. -/
theorem C76_closes (c : Cfg P Q R T) (is : List (In R S T)) (st : St P Q R S) (h : run c is = some st) :
    (∀ t id q, st.at_ = .accRecv → c.parse t = some (.subscribe id q) →
      ∃ st', runFrom c st [.frame (.text t), .accSent true] = some st' ∧ written st' = written st ++ [.close 4401] ∧
        st'.at_ = .over) ∧
    (∀ t p, st.at_ = .accRecv → c.parse t = some (.init p) →
      ∃ st', runFrom c st [.frame (.text t), .created none, .accSent true] = some st' ∧
        written st' = written st ++ [.close 4403] ∧ st'.at_ = .over) ∧
    (∀ t p s, st.at_ = .accRecv → c.parse t = some (.init p) →
      ∃ st', runFrom c st [.frame (.text t), .created (some s), .accSent true] = some st' ∧
        written st' = written st ++ [.ack] ∧ st'.at_ = .recv s) ∧
    (st.at_ = .accRecv →
      ∃ st', runFrom c st [.timeout false, .accSent true] = some st' ∧ written st' = written st ++ [.close 4408] ∧
        st'.at_ = .over) ∧
    (∀ t s p, st.at_ = .recv s → c.parse t = some (.init p) →
      ∃ st', step c st (.frame (.text t)) = some st' ∧ st'.at_ = .sending s (.close 4429)) ∧
    (∀ t s id, st.at_ = .recv s → (c.parse t = some (.complete id) ∨ c.parse t = some .pong ∨ c.parse t = none) →
      ∃ st', step c st (.frame (.text t)) = some st' ∧ st'.at_ = .recv s) ∧
    (∀ t s, st.at_ = .recv s → c.parse t = some .ping →
      ∃ st', step c st (.frame (.text t)) = some st' ∧ st'.at_ = .sending s .pong) ∧
    (∀ f, (st.at_ = .accRecv ∨ ∃ s, st.at_ = .recv s) → (f = .ping ∨ f = .pong) → step c st (.frame f) = some st) ∧
    (∀ f, (st.at_ = .accRecv ∨ ∃ s, st.at_ = .recv s) → (f = .close ∨ f = .error ∨ f = .eof ∨ f = .binary none) →
      ∃ st', step c st (.frame f) = some st' ∧ st'.at_ = .over) ∧
    (∀ s m st', st.at_ = .sending s m → step c st .loopSent = some st' →
      st'.at_ = if isClose m then .over else .recv s) := by
  have hc : st.at_ = .accRecv → st.closed = false := by
    intro ha
    exact (run_shape h).unclosed (by simp [ha, accepting])
  refine ⟨?_, ?_, ?_, ?_, ?_, ?_, ?_, ?_, ?_, ?_⟩
  · intro t id q ha hp
    exact ⟨_, by simp only [runFrom, step, ha, acceptFrame, recvMessage, hp, accSent, write, hc ha]; rfl,
      by simp [written], rfl⟩
  · intro t p ha hp
    exact ⟨_, by simp only [runFrom, step, ha, acceptFrame, recvMessage, hp, accSent, write, hc ha]; rfl,
      by simp [written], rfl⟩
  · intro t p s ha hp
    exact ⟨_, by simp only [runFrom, step, ha, acceptFrame, recvMessage, hp, accSent, write, hc ha]; rfl,
      by simp [written], rfl⟩
  · intro ha
    exact ⟨_, by simp only [runFrom, step, timeout, ha, accSent, write, hc ha]; rfl, by simp [written], rfl⟩
  · intro t s p ha hp
    exact ⟨serveFrame c st s (.text t), by simp only [step, ha], by simp [serveFrame, recvMessage, hp, handle]⟩
  · intro t s id ha hp
    refine ⟨serveFrame c st s (.text t), by simp only [step, ha], ?_⟩
    rcases hp with hp | hp | hp
    · simp only [serveFrame, recvMessage, hp, handle]
      cases lookup id st.subs <;> simp [ha]
    · simp [serveFrame, recvMessage, hp, handle, ha]
    · simp [serveFrame, recvMessage, hp, ha]
  · intro t s ha hp
    exact ⟨serveFrame c st s (.text t), by simp only [step, ha], by simp [serveFrame, recvMessage, hp, handle]⟩
  · rintro f (ha | ⟨s, ha⟩) (rfl | rfl) <;> simp [step, ha, acceptFrame, serveFrame, recvMessage]
  · rintro f (ha | ⟨s, ha⟩) (rfl | rfl | rfl | rfl) <;> simp [step, ha, acceptFrame, serveFrame, recvMessage, finish]
  · intro s m st' ha hs
    simp only [step, ha] at hs
    by_cases hcan : canSend st = true
    · simp only [hcan, if_true] at hs
      injection hs with hs
      subst hs
      by_cases hm : isClose m = true <;> simp [hm, finish]
    · simp [hcan] at hs

namespace Demo

/-- The hypotheses are met: two responses, then `complete`, and a pong. -/
example : ∃ st, run cfg one = some st ∧
    written st = [.ack, .next a 7, .next a 8, .complete a, .pong] ∧ events cfg one = [.subscribe a 1, .ping] ∧
    st.at_ = .recv () ∧ (∃ k, st.tasks[0]? = some k ∧ k.aborted = false) ∧ (∃ p, st.pump = p ∧ p ≠ .dead) :=
  ⟨_, rfl, rfl, rfl, rfl, ⟨_, rfl, rfl⟩, ⟨_, rfl, by simp⟩⟩

/-- An operation has ended, the client has read its `complete`, and uses the id again: the connection is closed. -/
theorem C76_reuse_false : ∃ st, run cfg reused = some st ∧ events cfg reused = [.subscribe a 1, .subscribe a 2] ∧
    written st = [.ack, .complete a, .close 4409] :=
  ⟨_, rfl, rfl, rfl⟩

/-- A ping before the acknowledgement is answered with a ping. -/
theorem C76_ping_false : ∃ st, run cfg early = some st ∧ written st = [.ping] :=
  ⟨_, rfl, rfl⟩

/-- A `complete` follows the `error` of a refused request. -/
theorem C76_error_false : ∃ st, run cfg refused = some st ∧ written st = [.ack, .error a 0, .complete a] :=
  ⟨_, rfl, rfl⟩

/-- The client completes an operation and uses its id for another one: it then reads a `complete`, and after it a
response. -/
theorem C76_stale_false : ∃ st, run cfg stale = some st ∧
    events cfg stale = [.subscribe a 1, .complete a, .subscribe a 2] ∧ written st = [.ack, .complete a, .next a 9] :=
  ⟨_, rfl, rfl, rfl⟩

/-- What is not a message of the protocol is ignored, and before the acknowledgement ends the connection without a close. -/
theorem C76_invalid_false : (∃ st, run cfg invalid = some st ∧ st.at_ = .recv () ∧ written st = [.ack]) ∧
    ∃ st, run cfg invalidFirst = some st ∧ st.at_ = .over ∧ written st = [] :=
  ⟨⟨_, rfl, rfl, rfl⟩, ⟨_, rfl, rfl, rfl⟩⟩

end Demo

end Verif.WsServer
