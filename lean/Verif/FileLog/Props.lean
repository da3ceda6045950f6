import Verif.FileLog.Lemmas
/-! C98: log files of extensions. -/
namespace Verif.FileLog

/-- C98: the lines in the file, then those in the channel, are in the order they were sent, each as often as it was, but for those
whose write failed. -/
theorem C98_order {l : Logger} (h : Lives l) :
    (l.file ++ pending l.queue).Sublist l.sent ∧
      l.file.length + (pending l.queue).length + l.lost.length = l.sent.length ∧
      (∀ d, d ∈ l.lost → d ∈ l.sent) :=
  ⟨(lives_inv h).sub, (lives_inv h).len, (lives_inv h).lostOf⟩

/-- C98: if no write failed all lines are in the file or in the channel. -/
theorem C98_complete {l : Logger} (h : Lives l) (hl : l.lost = []) : l.file ++ pending l.queue = l.sent := by
  have i := lives_inv h
  refine i.sub.eq_of_length ?_
  have := i.len
  rw [hl] at this
  simpa using this

/-- C98: who has the logger adds the line behind all others, and it is not refused. -/
theorem C98_send (l : Logger) (d : Nat) (h : 0 < l.refs) :
    (l.act (.send d)).sent = l.sent ++ [d] ∧ pending (l.act (.send d)).queue = pending l.queue ++ [d] ∧
      (l.act (.send d)).file = l.file ∧ (l.act (.send d)).refs = l.refs := by
  have : l.refs ≠ 0 := by omega
  simp [Logger.act, this, Logger.send, pending_append, pending]

/-- C98: the task writes the oldest line first. -/
theorem C98_writes {l : Logger} {d : Nat} {q : List Msg} (h : l.queue = .data d :: q) :
    (l.act (.work true)).file = l.file ++ [d] ∧ (l.act (.work true)).queue = q ∧
      (l.act (.work false)).file = l.file ∧ (l.act (.work false)).lost = l.lost ++ [d] ∧ (l.act (.work false)).queue = q := by
  simp [Logger.act, Logger.work, h]

/-- C98 (partial: only for who alone has the logger): when `graceful_shutdown` returns, whatever happens meanwhile, all lines sent
before it are written but for those whose write failed; they are flushed unless a flush failed. -/
theorem C98_shutdown_partial {l : Logger} (h : Lives l) (h1 : l.refs = 1) (acts : List Act)
    (hret : l.calls ∈ (Logger.run acts (l.act .shutdown)).returned) :
    let l' := Logger.run acts (l.act .shutdown)
    l.sent.length ≤ l'.file.length + l'.lost.length ∧
      (l'.flushFailed = false → l.sent.length ≤ l'.flushed + l'.lost.length) ∧
      (l'.lost = [] → l.sent <+: l'.file) := by
  intro l'
  have i := lives_inv h
  have r := after_run (inv_act i .shutdown) (after_call (lives_old h) i h1) acts
  have hw := r.written hret
  refine ⟨hw, ?_, ?_⟩
  · intro hf
    rcases r.done hret with hd | hd
    · rw [hf] at hd; cases hd
    · exact hd
  · intro hl
    have hl' : Lives l' := by
      obtain ⟨rot, as, rfl⟩ := h
      exact ⟨rot, as ++ .shutdown :: acts, by simp [l', Logger.run, List.foldl_append]⟩
    have hc := C98_complete hl' hl
    have hp : l.sent <+: l'.sent := by
      have : ∀ (acts : List Act) (x : Logger), x.sent <+: (Logger.run acts x).sent := by
        intro acts
        induction acts with
        | nil => exact fun _ => List.prefix_rfl
        | cons a acts ih =>
          intro x
          refine List.IsPrefix.trans ?_ (ih (x.act a))
          cases a with
          | clone => simp only [Logger.act]; split <;> exact List.prefix_rfl
          | forget => exact List.prefix_rfl
          | send d =>
            simp only [Logger.act]
            split
            · exact List.prefix_rfl
            · exact List.prefix_append _ _
          | shutdown =>
            simp only [Logger.act, Logger.shutdown]
            split
            · exact List.prefix_rfl
            · split <;> exact List.prefix_rfl
          | work ok =>
            simp only [Logger.act, Logger.work]
            split
            · exact List.prefix_rfl
            · split <;> exact List.prefix_rfl
            · split <;> exact List.prefix_rfl
      exact this (.shutdown :: acts) l
    rw [← hc] at hp
    refine List.prefix_of_prefix_length_le hp (List.prefix_append _ _) ?_
    have := hw
    change l.sent.length ≤ l'.file.length + l'.lost.length at this
    rw [hl] at this
    simpa using this

/-- A sole holder whose call returns after its two lines are written and flushed. -/
theorem C98_shutdown_case :
    let l := Logger.run [.send 7, .work true, .send 8] {}
    let l' := Logger.run [.work true, .work true] (l.act .shutdown)
    l.refs = 1 ∧ l.calls ∈ l'.returned ∧ l'.flushFailed = false ∧ l'.lost = [] ∧ l'.file = [7, 8] ∧ l'.flushed = 2 := by
  decide +kernel

/-- C98: no call waits for ever: all have returned, and all lines are out of the channel, when the task has had its turns; also when
nobody has the logger any more. -/
theorem C98_returns {l : Logger} (h : Lives l) (oks : List Bool) (hn : l.queue.length ≤ oks.length) :
    let l' := Logger.run (oks.map .work) l
    l'.queue = [] ∧ ∀ c, c < l'.calls → c ∈ l'.returned := by
  intro l'
  have hq : l'.queue = [] := by
    have : ∀ (oks : List Bool) (l : Logger), l.queue.length ≤ oks.length → (Logger.run (oks.map .work) l).queue = [] := by
      intro oks
      induction oks with
      | nil => intro l hl; exact List.length_eq_zero_iff.mp (Nat.le_zero.mp hl)
      | cons ok oks ih =>
        intro l hl
        refine ih (l.act (.work ok)) ?_
        rw [work_queue, List.length_tail]
        simp only [List.length_cons] at hl
        omega
    exact this oks l hn
  refine ⟨hq, ?_⟩
  intro c hc
  rcases (inv_run (lives_inv h) (oks.map .work)).calls c hc with hr | hr
  · exact hr
  · change Msg.shutdown c ∈ l'.queue at hr
    rw [hq] at hr
    cases hr

/-- C98: with another holder `graceful_shutdown` returns at once and changes nothing. -/
theorem C98_early {l : Logger} (h : 1 < l.refs) :
    l.calls ∈ (l.act .shutdown).returned ∧ (l.act .shutdown).queue = l.queue ∧ (l.act .shutdown).file = l.file ∧
      (l.act .shutdown).flushed = l.flushed := by
  have : l.refs ≠ 0 := by omega
  simp [Logger.act, Logger.shutdown, this, h]

/-- C98 is false in general: a call of `graceful_shutdown` returns while a line sent before is not in the file. -/
theorem C98_early_false :
    ¬ ∀ l, Lives l → ∀ acts, l.calls ∈ (Logger.run acts (l.act .shutdown)).returned →
      l.sent.length ≤ (Logger.run acts (l.act .shutdown)).file.length + (Logger.run acts (l.act .shutdown)).lost.length := by
  intro h
  have := h (Logger.run [.clone, .send 7] {}) ⟨0, _, rfl⟩ [] (by decide +kernel)
  revert this
  decide +kernel

/-- C98: one logger per path: each resource refers to one logger, which is there and of one path; each path has one logger. -/
theorem C98_shared {h : Host} (r : Reached h) :
    (∀ res id, Refers h res id → ∃ l p, h.logs id = some l ∧ Lives l ∧ (p, id) ∈ h.paths) ∧
      (∀ res i j, Refers h res i → Refers h res j → i = j) ∧
      (∀ p i j, (p, i) ∈ h.paths → (p, j) ∈ h.paths → i = j) ∧
      (∀ p q i, (p, i) ∈ h.paths → (q, i) ∈ h.paths → p = q) := by
  have i := reached_inv r
  refine ⟨?_, i.uniq, i.fn, i.one⟩
  intro res id hr
  obtain ⟨p, hp⟩ := i.tab res id hr
  obtain ⟨l, hl, lv, _⟩ := i.refs p id hp
  exact ⟨l, p, hl, lv, hp⟩

/-- C98: `init` gives a new resource for the logger of the path, which is made if there is none; other loggers and resources are
left alone. If the file cannot be opened nothing changes. -/
theorem C98_init {h : Host} (r : Reached h) (p rot : Nat) (opens : Bool) :
    let h' := h.step (.init p rot opens)
    (∀ id, (p, id) ∈ h.paths → Refers h' h.nextRes id ∧ h'.paths = h.paths) ∧
      ((∀ id, (p, id) ∉ h.paths) → opens = true →
        ∃ id l, Refers h' h.nextRes id ∧ h'.logs id = some l ∧ l.rotate = rot ∧ l.queue = [] ∧ l.file = [] ∧
          (∀ res, ¬ Refers h res id) ∧ (p, id) ∈ h'.paths) ∧
      ((∀ id, (p, id) ∉ h.paths) → opens = false → h' = h) ∧
      (∀ res id, Refers h res id → res ≠ h.nextRes ∧ Refers h' res id) ∧
      (∀ q id l, (q, id) ∈ h.paths → h.logs id = some l → ∃ l', h'.logs id = some l' ∧ l'.queue = l.queue ∧ l'.file = l.file ∧
        l'.rotate = l.rotate ∧ (q, id) ∈ h'.paths) := by
  intro h'
  have i := reached_inv r
  have hk : ∀ (l : Logger), (l.act .clone).queue = l.queue ∧ (l.act .clone).file = l.file ∧ (l.act .clone).rotate = l.rotate := by
    intro l
    simp only [Logger.act]
    split <;> exact ⟨rfl, rfl, rfl⟩
  cases hf : find p h.paths with
  | some id =>
    have hp := find_mem hf
    have e : h' = (h.on id .clone).push id := by simp only [h', Host.step, Host.init, hf]
    rw [e]
    refine ⟨?_, fun hn => absurd hp (hn id), fun hn => absurd hp (hn id), ?_, ?_⟩
    · intro j hj
      rw [i.fn p j id hj hp]
      exact ⟨List.mem_cons_self, rfl⟩
    · intro res j hr
      exact ⟨Nat.ne_of_lt (i.names res j hr), List.mem_cons_of_mem _ hr⟩
    · intro q j l hq hl
      by_cases ej : j = id
      · exact ⟨l.act .clone, by simp [Host.push, Host.on, ej ▸ hl, ej], (hk l).1, (hk l).2.1, (hk l).2.2, hq⟩
      · exact ⟨l, by simp [Host.push, Host.on, ej, hl], rfl, rfl, rfl, hq⟩
  | none =>
    refine ⟨fun j hj => absurd hj (find_none hf), ?_, ?_, ?_, ?_⟩
    · intro _ ho
      refine ⟨h.next, { rotate := rot, refs := 2 }, ?_, ?_, rfl, rfl, rfl, ?_, ?_⟩
      · simp [h', Host.step, Host.init, hf, ho, Refers, Host.push, Host.on]
      · simp [h', Host.step, Host.init, hf, ho, Host.push, Host.on, Logger.act]
      · intro res hr
        obtain ⟨q, hq⟩ := i.tab res h.next hr
        exact absurd (i.ids q _ hq) (Nat.lt_irrefl _)
      · simp [h', Host.step, Host.init, hf, ho, Host.push, Host.on]
    · intro _ ho
      simp [h', Host.step, Host.init, hf, ho]
    · intro res j hr
      refine ⟨Nat.ne_of_lt (i.names res j hr), ?_⟩
      cases opens with
      | false => simpa [h', Host.step, Host.init, hf] using hr
      | true =>
        have e : h'.table = (h.nextRes, h.next) :: h.table := by simp [h', Host.step, Host.init, hf, Host.push, Host.on]
        show (res, j) ∈ h'.table
        rw [e]
        exact List.mem_cons_of_mem _ hr
    · intro q j l hq hl
      have hj : j ≠ h.next := Nat.ne_of_lt (i.ids q j hq)
      cases opens with
      | false => exact ⟨l, by simp [h', Host.step, Host.init, hf, hl], rfl, rfl, rfl, by simpa [h', Host.step, Host.init, hf] using hq⟩
      | true =>
        exact ⟨l, by simp [h', Host.step, Host.init, hf, Host.push, Host.on, hj, hl], rfl, rfl, rfl,
          by simp [h', Host.step, Host.init, hf, Host.push, Host.on, hq]⟩

/-- C98: a line logged with a resource goes to its logger, behind all others, and to no other logger. -/
theorem C98_log {h : Host} (r : Reached h) {res id : Nat} (hr : Refers h res id) (d : Nat) :
    ∃ l l', h.logs id = some l ∧ (h.step (.log res d)).logs id = some l' ∧ l'.sent = l.sent ++ [d] ∧
      pending l'.queue = pending l.queue ++ [d] ∧ (∀ j, j ≠ id → (h.step (.log res d)).logs j = h.logs j) ∧
      (h.step (.log res d)).table = h.table ∧ (h.step (.log res d)).paths = h.paths := by
  have i := reached_inv r
  obtain ⟨p, hp⟩ := i.tab res id hr
  obtain ⟨l, hl, _, hc⟩ := i.refs p id hp
  have hs := C98_send l d (by omega)
  have e : h.step (.log res d) = h.on id (.send d) := by
    simp only [Host.step, Host.log, find_of_mem i.uniq hr]
  rw [e]
  exact ⟨l, l.act (.send d), hl, by simp [Host.on, hl], hs.1, hs.2.1, fun j hj => by simp [Host.on, hj], rfl, rfl⟩

/-- C98 (what happens instead of a shutdown): in every state, for every resource of an extension, `drop` returns at once: neither
the channel nor the file changes and nothing is flushed. -/
theorem C98_drop_returns {h : Host} (r : Reached h) {res id : Nat} (hr : Refers h res id) :
    ∃ l l', h.logs id = some l ∧ (h.step (.drop res)).logs id = some l' ∧ l.calls ∈ l'.returned ∧ l'.queue = l.queue ∧
      l'.file = l.file ∧ l'.flushed = l.flushed ∧ l'.refs = l.refs ∧ (∀ j, j ≠ id → (h.step (.drop res)).logs j = h.logs j) := by
  have i := reached_inv r
  obtain ⟨p, hp⟩ := i.tab res id hr
  obtain ⟨l, hl, _, hc⟩ := i.refs p id hp
  have hu := uses_pos hr
  have hs := C98_early (l := l) (by omega)
  have e : h.step (.drop res) = h.on id .shutdown := by
    simp only [Host.step, Host.drop, find_of_mem i.uniq hr]
  rw [e]
  exact ⟨l, l.act .shutdown, hl, by simp [Host.on, hl], hs.1, hs.2.1, hs.2.2.1, hs.2.2.2, refs_shutdown l,
    fun j hj => by simp [Host.on, hj]⟩

/-- C98: when an instance is gone its resource is, and no other; the lines sent stay in the channel and in the file, also when it was
the last resource for the file, and later resources for the path get the same logger. -/
theorem C98_free {h : Host} (r : Reached h) {res id : Nat} (hr : Refers h res id) :
    let h' := h.step (.free res)
    (∀ res' j, Refers h' res' j ↔ Refers h res' j ∧ res' ≠ res) ∧ h'.paths = h.paths ∧
      (∃ l l', h.logs id = some l ∧ h'.logs id = some l' ∧ l'.queue = l.queue ∧ l'.file = l.file ∧ l'.returned = l.returned ∧
        l'.refs + 1 = l.refs ∧ 0 < l'.refs) ∧
      (∀ j, j ≠ id → h'.logs j = h.logs j) := by
  intro h'
  have i := reached_inv r
  obtain ⟨p, hp⟩ := i.tab res id hr
  obtain ⟨l, hl, _, hc⟩ := i.refs p id hp
  have hu := uses_pos hr
  have e : h' = { h.on id .forget with table := h.table.filter (fun e => e.1 != res) } := by
    simp only [h', Host.step, Host.free, find_of_mem i.uniq hr]
  rw [e]
  refine ⟨?_, rfl, ⟨l, l.act .forget, hl, by simp [Host.on, hl], rfl, rfl, rfl, ?_, ?_⟩, fun j hj => by simp [Host.on, hj]⟩
  · intro res' j
    simp [Refers, List.mem_filter]
  · show l.refs - 1 + 1 = l.refs
    omega
  · show 0 < l.refs - 1
    omega

/-- C98: no extension ever asks for a flush: a flush is never in the channel. -/
theorem C98_never_flushes {h : Host} (r : Reached h) {id c : Nat} {l : Logger} (hl : h.logs id = some l) :
    Msg.shutdown c ∉ l.queue ∧ l.flushed = 0 := by
  obtain ⟨calls, rfl⟩ := r
  have : ∀ (calls : List Call) (h : Host), HInv h →
      (∀ id l, h.logs id = some l → (∀ c, Msg.shutdown c ∉ l.queue) ∧ l.flushed = 0) →
      ∀ id l, (Host.run calls h).logs id = some l → (∀ c, Msg.shutdown c ∉ l.queue) ∧ l.flushed = 0 := by
    intro calls
    induction calls with
    | nil => exact fun _ _ hh => hh
    | cons a calls ih =>
      intro h i hh
      refine ih (h.step a) (hinv_step i a) ?_
      have hon : ∀ (h : Host) (id : Nat) (b : Act), (∀ id l, h.logs id = some l → (∀ c, Msg.shutdown c ∉ l.queue) ∧ l.flushed = 0) →
          (∀ l : Logger, h.logs id = some l → ((∀ c, Msg.shutdown c ∉ l.queue) ∧ l.flushed = 0) →
            (∀ c, Msg.shutdown c ∉ (l.act b).queue) ∧ (l.act b).flushed = 0) →
          ∀ j l, (h.on id b).logs j = some l → (∀ c, Msg.shutdown c ∉ l.queue) ∧ l.flushed = 0 := by
        intro h id b hh hb j l hj
        simp only [Host.on] at hj
        split at hj
        · rename_i e
          subst e
          cases hx : h.logs j with
          | none => rw [hx] at hj; cases hj
          | some x =>
            rw [hx] at hj
            injection hj with hj
            exact hj ▸ hb x hx (hh j x hx)
        · exact hh j l hj
      have hclone : ∀ l : Logger, ((∀ c, Msg.shutdown c ∉ l.queue) ∧ l.flushed = 0) →
          (∀ c, Msg.shutdown c ∉ (l.act .clone).queue) ∧ (l.act .clone).flushed = 0 := by
        intro l hx
        simp only [Logger.act]
        split <;> exact hx
      cases a with
      | log res d =>
        simp only [Host.step, Host.log]
        split
        · refine hon h _ _ hh ?_
          intro l _ hx
          simp only [Logger.act]
          split
          · exact hx
          · exact ⟨fun c hc => hx.1 c (by simpa [Logger.send] using hc), hx.2⟩
        · exact hh
      | drop res =>
        simp only [Host.step, Host.drop]
        split
        · rename_i id hf
          refine hon h _ _ hh ?_
          intro l hl hx
          have hm := find_mem hf
          obtain ⟨p, hp⟩ := i.tab res id hm
          obtain ⟨l2, hl2, _, hc⟩ := i.refs p id hp
          rw [hl] at hl2
          injection hl2 with hl2
          subst hl2
          have hu := uses_pos hm
          have hs := C98_early (l := l) (by omega)
          rw [hs.2.1, hs.2.2.2]
          exact hx
        · exact hh
      | free res =>
        simp only [Host.step, Host.free]
        split
        · exact hon h _ .forget hh (fun l _ hx => hx)
        · exact hh
      | work id ok =>
        refine hon h id _ hh ?_
        intro l _ hx
        simp only [Logger.act, Logger.work]
        split
        · exact hx
        · rename_i d q hq
          rw [hq] at hx
          split <;> exact ⟨fun c hc => hx.1 c (List.mem_cons_of_mem _ hc), hx.2⟩
        · rename_i c0 q hq
          rw [hq] at hx
          exact absurd List.mem_cons_self (hx.1 c0)
      | init p rot opens =>
        simp only [Host.step, Host.init]
        split
        · exact hon h _ .clone hh (fun l _ hx => hclone l hx)
        · split
          · refine hon _ h.next .clone ?_ (fun l _ hx => hclone l hx)
            intro j l hj
            change (if j = h.next then some ({ rotate := rot, refs := 1 } : Logger) else h.logs j) = some l at hj
            split at hj
            · injection hj with hj
              subst hj
              exact ⟨fun c hc => (by cases hc), rfl⟩
            · exact hh j l hj
          · exact hh
  have := this calls {} hinv_init (fun _ _ hx => by cases hx) id l hl
  exact ⟨this.1 c, this.2⟩

/-- C98 is false of extensions: the one resource for a file is dropped, the call has returned, and its line is not in the file. -/
theorem C98_drop_false :
    ∃ calls l, (Host.run calls {}).logs 0 = some l ∧ l.calls = 1 ∧ 0 ∈ l.returned ∧ l.sent = [7] ∧ l.file = [] ∧ l.lost = [] :=
  ⟨[.init 1 0 true, .log 0 7, .drop 0], _, rfl, by decide +kernel⟩

/-- C98: `drop` does not remove the resource: it stays in the table, and its logger in use, until the instance is gone. -/
theorem C98_drop_keeps {h : Host} (r : Reached h) {res id : Nat} (hr : Refers h res id) :
    Refers (h.step (.drop res)) res id ∧ (h.step (.drop res)).table = h.table := by
  have e : h.step (.drop res) = h.on id .shutdown := by
    simp only [Host.step, Host.drop, find_of_mem (reached_inv r).uniq hr]
  rw [e]
  exact ⟨hr, rfl⟩

/-- C98: the rotation asked for by the second who opens a path is not used. -/
theorem C98_rotation_false :
    ∃ l, (Host.run [.init 1 5 true, .init 1 6 true] {}).logs 0 = some l ∧ l.rotate = 5 ∧ l.refs = 3 ∧
      (Host.run [.init 1 5 true, .init 1 6 true] {}).table = [(1, 0), (0, 0)] :=
  ⟨_, rfl, by decide +kernel⟩

end Verif.FileLog
