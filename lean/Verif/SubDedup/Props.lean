import Verif.SubDedup.Lemmas

/-!
# C96: subscriptions shared by several clients
-/
namespace Verif.SubDedup

/-- The states of the program: what is reached by any actions in any order. -/
def Reached (cap : Nat) (s : State) : Prop := ∃ acts, s = run cap acts {}

theorem Reached.inv {cap : Nat} {s : State} (h : Reached cap s) : Inv cap s := by
  obtain ⟨acts, rfl⟩ := h
  exact inv_run acts (inv_init cap)

/-- C96. A client gets what was sent since it came, in order, from a task for its key; what is lost is always told, and only lost
if as many messages as the channel holds were waiting for it. -/
theorem C96_received {cap : Nat} {s : State} (h : Reached cap s) {c : Client} (hc : c ∈ s.clients) :
    ∃ task, s.tasks[c.task]? = some task ∧ task.key = c.key ∧ Told (task.sent.drop c.since) c.out ∧
      c.pending.length ≤ cap ∧ (c.lagged = true → c.pending.length = cap) := by
  obtain ⟨task, h1, h2, _, h4, h5, h6, _⟩ := h.inv.clients c hc
  exact ⟨task, h1, h2, h4, h5, h6⟩

/-- C96. A client which was never behind has got everything but what still waits for it. -/
theorem C96_all {cap : Nat} {s : State} (h : Reached cap s) {c : Client} (hc : c ∈ s.clients) (hl : c.lagged = false)
    (got : List Msg) (hg : c.got = got.map Out.msg) :
    ∃ task, s.tasks[c.task]? = some task ∧ got ++ c.pending = task.sent.drop c.since := by
  obtain ⟨task, h1, _, _, h4, _⟩ := h.inv.clients c hc
  refine ⟨task, h1, ?_⟩
  have : c.out = (got ++ c.pending).map Out.msg := by
    unfold Client.out
    rw [hg, hl]
    simp
  rw [this] at h4
  exact (Told.none h4).symm

/-- C96. What a task sends is what the extension has given, in order, but for what it is about to send; it may only leave something
out when it has ended and there is no client for it. -/
theorem C96_sent {cap : Nat} {s : State} (h : Reached cap s) {t : Nat} {task : Task} (ht : s.tasks[t]? = some task) :
    (task.phase ≠ .done → ∃ left, task.sent ++ left = task.given ∧ (task.phase = .waiting → left = [])) ∧
    (∀ c ∈ s.clients, c.task = t → task.phase = .done → task.sent = task.given) := by
  refine ⟨fun hd => ⟨task.phase.left, (h.inv.tasks task (List.mem_of_getElem? ht)).2.2.2 hd, fun hw => by rw [hw]; rfl⟩, ?_⟩
  rintro c hc rfl hd
  obtain ⟨task', h1, _, _, _, _, _, _, h8⟩ := h.inv.clients c hc
  rw [ht] at h1
  cases h1
  exact h8 hd

/-- C96. When the stream of a client ends, the task has ended, and the client has been told of everything the extension has given
since it came. -/
theorem C96_ended {cap : Nat} {s : State} (h : Reached cap s) {c : Client} (hc : c ∈ s.clients) (he : c.ended = true) :
    ∃ task, s.tasks[c.task]? = some task ∧ task.phase = .done ∧ Told (task.given.drop c.since) c.got := by
  obtain ⟨task, h1, _, _, h4, _, _, h7, h8⟩ := h.inv.clients c hc
  obtain ⟨hd, hl, hp⟩ := h7 he
  refine ⟨task, h1, hd, ?_⟩
  rw [← h8 hd]
  unfold Client.out at h4
  rw [hl, hp] at h4
  simpa using h4

/-- C96. When the task has ended, a client for which nothing waits any more sees the end when it polls. -/
theorem C96_ends {cap : Nat} {s : State} (h : Reached cap s) {c : Client} (hc : c ∈ s.clients) (hl : c.lagged = false)
    (hp : c.pending = []) {task : Task} (ht : s.tasks[c.task]? = some task) (hd : task.phase = .done) :
    { c with ended := true } ∈ (step cap s (.recv c.name)).clients := by
  refine List.mem_map.2 ⟨c, hc, ?_⟩
  rw [if_pos rfl]
  unfold recv
  rw [hl, hp, ht]
  have : s.map.all (fun p => p.2 != c.task) = true := by
    rw [List.all_eq_true]
    rintro ⟨k, t⟩ hm
    simp only [bne_iff_ne]
    rintro rfl
    obtain ⟨task', h1, _, h2⟩ := (h.inv.map _ _).1 hm
    rw [ht] at h1
    cases h1
    exact h2.2 hd
  simp [this, hd]

/-- C96. A key is in the map exactly if there is a task for it which takes clients, and there is one such task at most. In
particular no task removes the key of another. -/
theorem C96_registered {cap : Nat} {s : State} (h : Reached cap s) :
    (∀ k t, (k, t) ∈ s.map ↔ ∃ task, s.tasks[t]? = some task ∧ task.key = k ∧ task.closed = false ∧ task.phase ≠ .done) ∧
    (∀ (t t' : Nat) (task task' : Task), s.tasks[t]? = some task → s.tasks[t']? = some task' → task.key = task'.key →
      task.closed = false → task.phase ≠ .done → task'.closed = false → task'.phase ≠ .done → t = t') := by
  refine ⟨h.inv.map, fun t t' task task' h1 h2 hk h3 h4 h5 h6 => ?_⟩
  exact h.inv.one task.key t t' ((h.inv.map _ _).2 ⟨task, h1, rfl, h3, h4⟩) ((h.inv.map _ _).2 ⟨task', h2, hk.symm, h5, h6⟩)

/-- C96. Who comes joins the task for the key if there is one which takes clients, and gets what it sends from then on; otherwise
there is a new task, and all it sends is for them too. -/
theorem C96_join {cap : Nat} {s : State} (h : Reached cap s) (name ext key : Nat) :
    (∀ t task, s.tasks[t]? = some task → task.key = key → task.closed = false → task.phase ≠ .done →
      step cap s (.join name ext key) =
        { s with clients := s.clients ++ [⟨name, key, ext, t, [], false, false, [], task.sent.length⟩] }) ∧
    ((∀ task ∈ s.tasks, task.key = key → task.closed = true ∨ task.phase = .done) →
      (step cap s (.join name ext key)).clients = s.clients ++ [⟨name, key, ext, s.tasks.length, [], false, false, [], 0⟩] ∧
      (step cap s (.join name ext key)).tasks = s.tasks ++ [⟨key, ext, .waiting, false, [], [], 0⟩]) := by
  constructor
  · intro t task h1 h2 h3 h4
    have hm := (h.inv.map key t).2 ⟨task, h1, h2, h3, h4⟩
    show join name ext key s = _
    unfold join
    cases hf : find key s.map with
    | none => exact absurd rfl (find_none hf _ hm)
    | some t' =>
      have := h.inv.one _ _ _ hm (find_some hf)
      subst this
      simp only [h1]
  · intro hno
    show (join name ext key s).clients = _ ∧ (join name ext key s).tasks = _
    unfold join
    cases hf : find key s.map with
    | none => exact ⟨rfl, rfl⟩
    | some t' =>
      obtain ⟨task, h1, h2, h3, h4⟩ := (h.inv.map _ _).1 (find_some hf)
      rcases hno task (List.mem_of_getElem? h1) h2 with h5 | h5
      · rw [h3] at h5; cases h5
      · exact absurd h5 h4

/-- C96. The subscription of a task is dropped in the extension once, when the task ends. -/
theorem C96_drops {cap : Nat} {s : State} (h : Reached cap s) {task : Task} (ht : task ∈ s.tasks) :
    task.drops ≤ 1 ∧ (task.phase = .done → task.drops = 1) ∧
      (task.phase = .waiting ∨ (∃ l, task.phase = .sending l) ∨ (∃ l, task.phase = .removing l) → task.drops = 0) := by
  rw [(h.inv.tasks task ht).2.2.1]
  refine ⟨?_, fun hd => by rw [hd]; rfl, ?_⟩
  · cases task.phase <;> simp [Phase.drops]
  · rintro (hd | ⟨l, hd⟩ | ⟨l, hd⟩) <;> rw [hd] <;> rfl

theorem alone_next {cap : Nat} {s : State} {t k e d a : Nat} {cl : Bool} {g n : List Msg}
    (ht : s.tasks[t]? = some ⟨k, e, .waiting, cl, g, n, d⟩) :
    (step cap s (.next t (.items [a]))).clients = s.clients ∧
    (step cap s (.next t (.items [a]))).tasks[t]? = some ⟨k, e, .sending [a], cl, g ++ [.item a], n, d⟩ := by
  have : step cap s (.next t (.items [a])) = { s with tasks := s.tasks.set t ⟨k, e, .sending [a], cl, g ++ [.item a], n, d⟩ } := by
    simp only [step, ht]
    rfl
  rw [this]
  exact ⟨rfl, get_set_self ht⟩

theorem alone_send {cap : Nat} {s : State} {t k e d a : Nat} {cl : Bool} {g n : List Msg}
    (ht : s.tasks[t]? = some ⟨k, e, .sending [a], cl, g, n, d⟩) (hh : heard t s.clients = false) :
    (step cap s (.send t)).clients = s.clients ∧
    (step cap s (.send t)).tasks[t]? = some (if cl then ⟨k, e, .done, cl, g, n ++ [.item a], d + 1⟩
      else ⟨k, e, .removing [], cl, g, n ++ [.item a], d⟩) := by
  have : step cap s (.send t) = { s with tasks := s.tasks.set t (if cl then ⟨k, e, .done, cl, g, n ++ [.item a], d + 1⟩
      else ⟨k, e, .removing [], cl, g, n ++ [.item a], d⟩) } := by
    show send cap t s = _
    unfold send
    simp only [ht, hh, Bool.false_eq_true, if_false]
    cases cl <;> rfl
  rw [this]
  exact ⟨rfl, get_set_self ht⟩

theorem alone_unregister {cap : Nat} {s : State} {t k e d : Nat} {cl : Bool} {g n : List Msg}
    (ht : s.tasks[t]? = some ⟨k, e, .removing [], cl, g, n, d⟩) :
    (step cap s (.unregister t)).clients = s.clients ∧
    (step cap s (.unregister t)).tasks[t]? = some ⟨k, e, .waiting, true, g, n, d⟩ := by
  have : step cap s (.unregister t) = { s with map := remove k s.map, tasks := s.tasks.set t ⟨k, e, .waiting, true, g, n, d⟩ } := by
    show unregister t s = _
    unfold unregister
    simp only [ht]
    rfl
  rw [this]
  exact ⟨rfl, get_set_self ht⟩

theorem alone_done {cap : Nat} {s : State} {t k e d : Nat} {cl : Bool} {g n : List Msg}
    (ht : s.tasks[t]? = some ⟨k, e, .done, cl, g, n, d⟩) (r : Next) :
    (step cap s (.unregister t)).tasks[t]? = s.tasks[t]? ∧ (step cap s (.send t)).tasks[t]? = s.tasks[t]? ∧
    (step cap s (.next t r)).tasks[t]? = s.tasks[t]? := by
  refine ⟨?_, ?_, ?_⟩
  · show (unregister t s).tasks[t]? = _
    unfold unregister
    simp only [ht]
  · show (send cap t s).tasks[t]? = _
    unfold send
    simp only [ht]
  · simp only [step, ht]
    exact get_set_self ht

/-- C96, not in general. When all clients have gone, the subscription is dropped after two more items. -/
theorem C96_gone_partial (cap : Nat) (s : State) {t : Nat} {task : Task} (ht : s.tasks[t]? = some task) (hw : task.phase = .waiting)
    (hno : ∀ c ∈ s.clients, c.task ≠ t) (a b : Nat) :
    ∃ task', (run cap [.next t (.items [a]), .send t, .unregister t, .next t (.items [b]), .send t] s).tasks[t]? = some task' ∧
      task'.phase = .done ∧ task'.drops = task.drops + 1 := by
  have hh : heard t s.clients = false := by
    unfold heard
    rw [List.any_eq_false]
    intro c hc
    simpa using hno c hc
  obtain ⟨k, e, ph, cl, g, n, d⟩ := task
  cases hw
  simp only [run, List.foldl_cons, List.foldl_nil]
  obtain ⟨c1, t1⟩ := alone_next (cap := cap) (a := a) ht
  obtain ⟨c2, t2⟩ := alone_send (cap := cap) t1 (by rw [c1]; exact hh)
  cases cl with
  | true =>
    simp only [if_true] at t2
    have t3 := (alone_done (cap := cap) t2 .finished).1.trans t2
    have t4 := (alone_done (cap := cap) t3 (.items [b])).2.2.trans t3
    have t5 := (alone_done (cap := cap) t4 .finished).2.1.trans t4
    exact ⟨_, t5, rfl, rfl⟩
  | false =>
    simp only [Bool.false_eq_true, if_false] at t2
    obtain ⟨c3, t3⟩ := alone_unregister (cap := cap) t2
    obtain ⟨c4, t4⟩ := alone_next (cap := cap) (a := b) t3
    obtain ⟨-, t5⟩ := alone_send (cap := cap) t4 (by rw [c4, c3, c2, c1]; exact hh)
    exact ⟨_, t5, rfl, rfl⟩

/-- C96, false in general: the subscription is dropped when all clients have gone. It waits for the extension. -/
theorem C96_gone_false :
    let s := run capacity [.join 1 7 5, .leave 1] {}
    s.clients = [] ∧ s.tasks = [⟨5, 7, .waiting, false, [], [], 0⟩] ∧ s.map = [(5, 0)] ∧
      step capacity s (.send 0) = s ∧ step capacity s (.unregister 0) = s := by decide +kernel

/-- C96, false in general: there is one subscription of an extension for a key. A client who comes between the failing send and the
removal of the key stays with the first, and the next one gets another; both get items. -/
theorem C96_single_false :
    let s := run capacity [.join 1 7 5, .leave 1, .next 0 (.items [3]), .send 0, .join 2 7 5, .unregister 0, .join 3 7 5,
      .next 0 (.items [8]), .send 0, .next 1 (.items [9]), .send 1, .recv 2, .recv 3] {}
    s.tasks.map (fun t => (t.key, t.phase)) = [(5, .waiting), (5, .waiting)] ∧
      s.clients.map (fun c => (c.name, c.task, c.got)) = [(2, 0, [.msg (.item 8)]), (3, 1, [.msg (.item 9)])] := by decide +kernel

/-- C96, false in general: an error of the extension is told to all clients. Who comes between the error and the removal of the key
sees a stream which ends without anything. -/
theorem C96_error_false :
    let s := run capacity [.join 1 7 5, .next 0 (.error 4), .send 0, .join 2 7 5, .unregister 0, .recv 1, .recv 1, .recv 2] {}
    s.clients.map (fun c => (c.name, c.got, c.ended)) = [(1, [.msg (.error 4)], true), (2, [], true)] := by decide +kernel

/-- C96, false in general: a client gets items of the extension it asked. Keys of all extensions are in one map: a client of the
extension 8 gets an item of the extension 7, which has given the same key. -/
theorem C96_extension_false :
    let s := run capacity [.join 1 7 5, .join 2 8 5, .next 0 (.items [3]), .send 0, .recv 2] {}
    s.tasks.map (·.ext) = [7] ∧ s.clients.map (fun c => (c.name, c.ext, c.got)) = [(1, 7, []), (2, 8, [.msg (.item 3)])] := by
  decide +kernel

/-- The extension goes by the key. -/
def ByKey (f : Nat → Nat) (s : State) : Prop := (∀ task ∈ s.tasks, task.ext = f task.key) ∧ ∀ c ∈ s.clients, c.ext = f c.key

theorem byKey_set {f : Nat → Nat} {l : List Task} {t : Nat} {x y : Task} (h : ∀ task ∈ l, task.ext = f task.key) (hx : l[t]? = some x)
    (he : y.ext = x.ext) (hk : y.key = x.key) : ∀ task ∈ l.set t y, task.ext = f task.key := by
  intro task hm
  rcases List.mem_or_eq_of_mem_set hm with hm | rfl
  · exact h _ hm
  · rw [he, hk]
    exact h x (List.mem_of_getElem? hx)

theorem byKey_map {f : Nat → Nat} {cs : List Client} (g : Client → Client) (h : ∀ c ∈ cs, c.ext = f c.key)
    (hg : ∀ c, (g c).ext = c.ext ∧ (g c).key = c.key) : ∀ c ∈ cs.map g, c.ext = f c.key := by
  intro c hc
  obtain ⟨c', hc', rfl⟩ := List.mem_map.1 hc
  rw [(hg c').1, (hg c').2]
  exact h c' hc'

theorem byKey_step {f : Nat → Nat} {cap : Nat} {s : State} (h : ByKey f s) (a : Action) (ha : ∀ n e k, a = .join n e k → e = f k) :
    ByKey f (step cap s a) := by
  have hb : ∀ t m, ∀ c ∈ broadcast cap t m s.clients, c.ext = f c.key := by
    intro t m
    refine byKey_map _ h.2 (fun c => ?_)
    split
    · unfold push
      split <;> exact ⟨rfl, rfl⟩
    · exact ⟨rfl, rfl⟩
  cases a with
  | join n e k =>
    have he := ha n e k rfl
    show ByKey f (join n e k s)
    unfold join
    split
    · split
      · refine ⟨h.1, fun c hc => ?_⟩
        rcases List.mem_append.1 hc with hc | hc
        · exact h.2 c hc
        · cases List.mem_singleton.1 hc
          exact he
      · exact h
    · refine ⟨fun t hm => ?_, fun c hc => ?_⟩
      · rcases List.mem_append.1 hm with hm | hm
        · exact h.1 t hm
        · cases List.mem_singleton.1 hm
          exact he
      · rcases List.mem_append.1 hc with hc | hc
        · exact h.2 c hc
        · cases List.mem_singleton.1 hc
          exact he
  | leave n => exact ⟨h.1, fun c hc => h.2 c (List.mem_filter.1 hc).1⟩
  | recv n =>
    refine ⟨h.1, byKey_map _ h.2 (fun c => ?_)⟩
    split
    · unfold recv
      split
      · exact ⟨rfl, rfl⟩
      · split
        · exact ⟨rfl, rfl⟩
        · split <;> exact ⟨rfl, rfl⟩
    · exact ⟨rfl, rfl⟩
  | next t r =>
    unfold step
    simp only
    split
    · rename_i task ht
      refine ⟨byKey_set h.1 ht ?_ ?_, h.2⟩ <;> unfold next <;> split <;> rfl
    · exact h
  | send t =>
    show ByKey f (send cap t s)
    unfold send
    split
    · exact h
    · rename_i task ht
      split
      · split
        · exact ⟨byKey_set h.1 ht rfl rfl, hb _ _⟩
        · split <;> exact ⟨byKey_set h.1 ht rfl rfl, h.2⟩
      · exact ⟨byKey_set h.1 ht rfl rfl, hb _ _⟩
      · exact h
  | unregister t =>
    show ByKey f (unregister t s)
    unfold unregister
    split
    · exact h
    · rename_i task ht
      split
      · exact ⟨byKey_set h.1 ht rfl rfl, h.2⟩
      · exact ⟨byKey_set h.1 ht rfl rfl, h.2⟩
      · exact h

/-- C96, not in general. If extensions never give the same key, a client gets items of the extension it asked. -/
theorem C96_extension_partial (cap : Nat) (acts : List Action) (f : Nat → Nat) (hf : ∀ n e k, .join n e k ∈ acts → e = f k)
    {c : Client} (hc : c ∈ (run cap acts {}).clients) :
    ∃ task, (run cap acts {}).tasks[c.task]? = some task ∧ task.ext = c.ext := by
  have hb : ∀ (acts : List Action) (s : State), (∀ n e k, .join n e k ∈ acts → e = f k) → ByKey f s → ByKey f (run cap acts s) := by
    intro acts
    induction acts with
    | nil => exact fun _ _ h => h
    | cons a acts ih =>
      intro s hf h
      refine ih _ (fun n e k hm => hf n e k (List.mem_cons_of_mem _ hm)) (byKey_step h a ?_)
      rintro n e k rfl
      exact hf n e k List.mem_cons_self
  have h := hb acts {} hf ⟨fun _ h => (nomatch h), fun _ h => (nomatch h)⟩
  obtain ⟨task, h1, h2, _⟩ := (inv_run acts (inv_init cap)).clients c hc
  exact ⟨task, h1, by rw [h.1 task (List.mem_of_getElem? h1), h2, ← h.2 c hc]⟩

/-- The hypotheses of the theorems are met: two clients share a subscription; one is behind in a channel for two, and is told. -/
theorem C96_case :
    let s := run 2 [.join 1 7 5, .join 2 7 5, .next 0 (.items [1, 2, 3]), .send 0, .recv 1, .send 0, .send 0, .next 0 .finished,
      .unregister 0, .recv 1, .recv 1, .recv 1, .recv 2, .recv 2, .recv 2, .recv 2] {}
    Reached 2 s ∧ s.map = [] ∧ s.tasks = [⟨5, 7, .done, false, [.item 1, .item 2, .item 3], [.item 1, .item 2, .item 3], 1⟩] ∧
    s.clients.map (fun c => (c.got, c.ended)) =
      [([.msg (.item 1), .msg (.item 2), .msg (.item 3)], true), ([.lag, .msg (.item 2), .msg (.item 3)], true)] :=
  ⟨⟨_, rfl⟩, by decide +kernel, by decide +kernel, by decide +kernel⟩

end Verif.SubDedup
