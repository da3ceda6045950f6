import Verif.StreamJoin.Model

/-!
# C93: a stream of responses gives what was sent, and ends after the future behind it
-/
namespace Verif.StreamJoin

variable {α : Type}

/-! ## What a poll keeps -/

/-- What holds of the stream: what was sent was given or is in the channel, in order; the channel of a future which has ended is
closed; and the stream has only ended with an empty channel. -/
structure Inv (s : St α) : Prop where
  order : s.sent = s.out ++ s.queue
  closed : s.finished = true → s.closed = true
  ended : s.ended = true → s.queue = [] ∧ s.closed = true

theorem inv_receive {s t : St α} (h : Inv s) (hr : s.receive = some t) : Inv t := by
  unfold St.receive at hr
  split at hr
  · rename_i a rest hq
    cases hr
    refine ⟨?_, h.closed, ?_⟩
    · simp only [h.order, hq, List.append_assoc, List.cons_append, List.nil_append]
    · intro he
      have := (h.ended he).1
      rw [hq] at this; cases this
  · rename_i hq
    split at hr
    · rename_i hc
      cases hr
      exact ⟨h.order, h.closed, fun _ => ⟨hq, hc⟩⟩
    · cases hr

theorem inv_produce {s : St α} (h : Inv s) (he : s.ended = false) : Inv s.produce := by
  unfold St.produce
  split
  · exact h
  · refine ⟨?_, ?_, ?_⟩
    · simp only [h.order, List.append_assoc]
    · intro hf; simp only at hf; simp [hf]
    · intro h'; simp only [he] at h'; cases h'

theorem produce_ended (s : St α) : s.produce.ended = s.ended := by
  unfold St.produce; split <;> rfl

theorem inv_getD {s : St α} (h : Inv s) : Inv (s.receive.getD s) := by
  cases hr : s.receive with
  | none => exact h
  | some t => exact inv_receive h hr

theorem inv_poll {s : St α} (h : Inv s) (first : Bool) : Inv (s.poll first) := by
  unfold St.poll
  split
  · exact h
  · rename_i he
    have he : s.ended = false := by simpa using he
    split
    · exact inv_getD h
    · split
      · split
        · rename_i hr; exact inv_receive h hr
        · split
          · exact inv_getD (inv_produce h he)
          · exact inv_produce h he
      · exact inv_getD (inv_produce h he)

theorem inv_run (orders : List Bool) : ∀ {s : St α}, Inv s → Inv (s.run orders) := by
  induction orders with
  | nil => intro s h; exact h
  | cons o rest ih => intro s h; exact ih (inv_poll h o)

theorem inv_start (script : List (Step α)) : Inv (start script) :=
  ⟨rfl, (by intro h; cases h), (by intro h; cases h)⟩

/-- What was sent is what the polled part of the script sends. -/
def Sent (all : List (Step α)) (s : St α) : Prop :=
  ∃ polled, all = polled ++ s.script ∧ s.sent = polled.flatMap (·.sends)

theorem sent_receive {all : List (Step α)} {s t : St α} (h : Sent all s) (hr : s.receive = some t) : Sent all t := by
  unfold St.receive at hr
  split at hr
  · cases hr; exact h
  · split at hr
    · cases hr; exact h
    · cases hr

theorem sent_produce {all : List (Step α)} {s : St α} (h : Sent all s) : Sent all s.produce := by
  unfold St.produce
  split
  · exact h
  · rename_i step rest hs
    obtain ⟨polled, h1, h2⟩ := h
    refine ⟨polled ++ [step], ?_, ?_⟩
    · rw [h1, hs]; simp
    · simp [h2]

theorem sent_getD {all : List (Step α)} {s : St α} (h : Sent all s) : Sent all (s.receive.getD s) := by
  cases hr : s.receive with
  | none => exact h
  | some t => exact sent_receive h hr

theorem sent_poll {all : List (Step α)} {s : St α} (h : Sent all s) (first : Bool) : Sent all (s.poll first) := by
  unfold St.poll
  split
  · exact h
  · split
    · exact sent_getD h
    · split
      · split
        · rename_i hr; exact sent_receive h hr
        · split
          · exact sent_getD (sent_produce h)
          · exact sent_produce h
      · exact sent_getD (sent_produce h)

theorem sent_run {all : List (Step α)} (orders : List Bool) : ∀ {s : St α}, Sent all s → Sent all (s.run orders) := by
  induction orders with
  | nil => intro s h; exact h
  | cons o rest ih => intro s h; exact ih (sent_poll h o)

/-- What a stream has given is the beginning of what the future sends, in its order, whatever is polled first. -/
theorem C93_order (script : List (Step α)) (orders : List Bool) :
    ∃ later, ((start script).run orders).out ++ later = script.flatMap (·.sends) := by
  have h1 := inv_run orders (inv_start script)
  obtain ⟨polled, h2, h3⟩ := sent_run (all := script) orders (s := start script) ⟨[], rfl, rfl⟩
  refine ⟨((start script).run orders).queue ++ ((start script).run orders).script.flatMap (·.sends), ?_⟩
  rw [← List.append_assoc, ← h1.order, h3]
  conv => rhs; rw [h2]
  rw [List.flatMap_append]

/-- A stream which has ended has given all that was sent. -/
theorem C93_all (script : List (Step α)) (orders : List Bool) (h : ((start script).run orders).ended = true) :
    ∃ polled later, script = polled ++ later ∧ ((start script).run orders).out = polled.flatMap (·.sends) := by
  have h1 := inv_run orders (inv_start script)
  obtain ⟨polled, h2, h3⟩ := sent_run (all := script) orders (s := start script) ⟨[], rfl, rfl⟩
  refine ⟨polled, _, h2, ?_⟩
  have := h1.order
  rw [(h1.ended h).1, List.append_nil] at this
  rw [← this, h3]

/-! ## The end -/

/-- The sender is dropped only in the poll in which the future ends. -/
def Last (script : List (Step α)) : Prop := ∀ step ∈ script, step.closes = true → step.done = true

/-- What holds then. -/
structure Fin (s : St α) : Prop where
  script : Last s.script
  closed : s.closed = true → s.finished = true
  ended : s.ended = true → s.finished = true

theorem fin_receive {s t : St α} (h : Fin s) (hr : s.receive = some t) : Fin t := by
  unfold St.receive at hr
  split at hr
  · cases hr; exact ⟨h.script, h.closed, h.ended⟩
  · split at hr
    · rename_i hc
      cases hr
      exact ⟨h.script, h.closed, fun _ => h.closed hc⟩
    · cases hr

theorem fin_produce {s : St α} (h : Fin s) (hf : s.finished = false) (he : s.ended = false) : Fin s.produce := by
  unfold St.produce
  split
  · exact h
  · rename_i step rest hs
    have hsc := h.script
    rw [hs] at hsc
    refine ⟨fun x hx => hsc x (List.mem_cons_of_mem _ hx), ?_, ?_⟩
    · intro hc
      simp only [Bool.or_eq_true_iff] at hc
      rcases hc with (hc | hc) | hc
      · rw [h.closed hc] at hf; cases hf
      · exact hsc step List.mem_cons_self hc
      · exact hc
    · intro h'; simp only [he] at h'; cases h'

theorem fin_getD {s : St α} (h : Fin s) : Fin (s.receive.getD s) := by
  cases hr : s.receive with
  | none => exact h
  | some t => exact fin_receive h hr

theorem fin_poll {s : St α} (h : Fin s) (first : Bool) : Fin (s.poll first) := by
  unfold St.poll
  split
  · exact h
  · rename_i he
    have he : s.ended = false := by simpa using he
    split
    · exact fin_getD h
    · rename_i hf
      have hf : s.finished = false := by simpa using hf
      split
      · split
        · rename_i hr; exact fin_receive h hr
        · split
          · exact fin_getD (fin_produce h hf he)
          · exact fin_produce h hf he
      · exact fin_getD (fin_produce h hf he)

theorem fin_run (orders : List Bool) : ∀ {s : St α}, Fin s → Fin (s.run orders) := by
  induction orders with
  | nil => intro s h; exact h
  | cons o rest ih => intro s h; exact ih (fin_poll h o)

/-- If the sender is dropped only when the future ends, the future has ended before the stream. Missing: a sender which is
dropped before. -/
theorem C93_end_partial (script : List (Step α)) (h : Last script) (orders : List Bool)
    (he : ((start script).run orders).ended = true) : ((start script).run orders).finished = true :=
  (fin_run orders (s := start script) ⟨h, (by intro h; cases h), (by intro h; cases h)⟩).ended he

/-- It is so for a subscription without work in the background left when its stream ends. -/
theorem C93_subscription_partial (sub : List (List α)) (n : Nat) (h : n ≤ sub.length) (h1 : sub ≠ []) (orders : List Bool)
    (he : ((start (joinScript sub n)).run orders).ended = true) : ((start (joinScript sub n)).run orders).finished = true := by
  refine C93_end_partial _ ?_ orders he
  have gen : ∀ (sub : List (List α)) (n : Nat), n ≤ sub.length → Last (joinScript sub n) := by
    intro sub
    induction sub with
    | nil =>
      intro n hn
      simp only [List.length_nil, Nat.le_zero] at hn
      subst hn
      intro x hx; simp [joinScript] at hx
    | cons s rest ih =>
      intro n hn
      cases rest with
      | nil =>
        simp only [List.length_singleton] at hn
        have h0 : n - 1 = 0 := by omega
        intro x hx
        simp only [joinScript, h0, List.mem_singleton] at hx
        subst hx
        intro _; simpa using hn
      | cons t rest =>
        intro x hx
        simp only [joinScript, List.mem_cons] at hx
        rcases hx with hx | hx
        · subst hx; intro h; cases h
        · exact ih (n - 1) (by simp only [List.length_cons] at hn ⊢; omega) x hx
  exact gen sub n h

theorem drain : ∀ (q : List α) (t : St α), t.queue = q → t.closed = true → t.finished = false → t.ended = false →
    (t.run (List.replicate (q.length + 1) true)).ended = true ∧
      (t.run (List.replicate (q.length + 1) true)).finished = false ∧
      (t.run (List.replicate (q.length + 1) true)).out = t.out ++ q := by
  intro q
  induction q with
  | nil =>
    intro t hq hc hf he
    simp [St.run, St.poll, St.receive, hq, hc, hf, he]
  | cons a rest ih =>
    intro t hq hc hf he
    have hp : t.poll true = { t with queue := rest, out := t.out ++ [a] } := by
      simp [St.poll, St.receive, hq, hf, he]
    have := ih { t with queue := rest, out := t.out ++ [a] } rfl hc hf he
    simp only [List.length_cons, List.replicate_succ (n := rest.length + 1), St.run, List.foldl_cons, hp]
    simp only [St.run] at this
    refine ⟨this.1, this.2.1, ?_⟩
    rw [this.2.2]; simp

/-- Work in the background which takes longer than the subscription is dropped with the rest of the future, and nothing is
recorded of the subscription: the client gets all the responses and the end, but the future has not ended. -/
theorem C93_end_false (s : List α) (n : Nat) (hn : 2 ≤ n) :
    ((start (joinScript [s] n)).run (List.replicate (s.length + 2) true)).ended = true ∧
      ((start (joinScript [s] n)).run (List.replicate (s.length + 2) true)).finished = false ∧
      ((start (joinScript [s] n)).run (List.replicate (s.length + 2) true)).out = s := by
  have hn' : decide (n ≤ 1) = false := by simp; omega
  have hp : (start (joinScript [s] n)).poll true =
      { script := joinScript [] (n - 1), queue := s, closed := true, finished := false, sent := s } := by
    simp [St.poll, St.receive, St.produce, start, joinScript, hn']
  have := drain s { script := joinScript [] (n - 1), queue := s, closed := true, finished := false, sent := s } rfl rfl rfl rfl
  simp only [List.replicate_succ (n := s.length + 1), St.run, List.foldl_cons, hp]
  simp only [St.run] at this
  exact this

/-! ## Progress -/

/-- What is left to do. -/
def left (s : St α) : Nat :=
  s.script.length + (s.script.flatMap (·.sends)).length + s.queue.length + (if s.ended then 0 else 1)

/-- The future ends some time, or has dropped the sender. -/
structure Live (s : St α) : Prop where
  closes : s.closed = true ∨ ∃ x ∈ s.script, x.done = true
  finished : s.finished = true → s.closed = true

theorem live_receive {s t : St α} (h : Live s) (hr : s.receive = some t) : Live t := by
  unfold St.receive at hr
  split at hr
  · cases hr; exact ⟨h.closes, h.finished⟩
  · split at hr
    · cases hr; exact ⟨h.closes, h.finished⟩
    · cases hr

theorem live_produce {s : St α} (h : Live s) : Live s.produce := by
  unfold St.produce
  split
  · exact h
  · rename_i step rest hs
    refine ⟨?_, ?_⟩
    · rcases h.closes with hc | ⟨x, hx, hd⟩
      · left; simp [hc]
      · rw [hs] at hx
        rcases List.mem_cons.1 hx with hx | hx
        · subst hx; left; simp [hd]
        · exact .inr ⟨x, hx, hd⟩
    · intro hf; simp only at hf; simp [hf]

theorem live_getD {s : St α} (h : Live s) : Live (s.receive.getD s) := by
  cases hr : s.receive with
  | none => exact h
  | some t => exact live_receive h hr

theorem live_poll {s : St α} (h : Live s) (first : Bool) : Live (s.poll first) := by
  unfold St.poll
  split
  · exact h
  · split
    · exact live_getD h
    · split
      · split
        · rename_i hr; exact live_receive h hr
        · split
          · exact live_getD (live_produce h)
          · exact live_produce h
      · exact live_getD (live_produce h)

theorem left_receive {s t : St α} (he : s.ended = false) (hr : s.receive = some t) : left t + 1 = left s := by
  unfold St.receive at hr
  split at hr
  · rename_i a rest hq
    cases hr
    simp [left, hq, he]; omega
  · rename_i hq
    split at hr
    · cases hr
      simp [left, hq, he]
    · cases hr

theorem left_getD {s : St α} (he : s.ended = false) : left (s.receive.getD s) ≤ left s := by
  cases hr : s.receive with
  | none => exact Nat.le_refl _
  | some t =>
    have := left_receive he hr
    simp only [Option.getD_some]; omega

theorem left_produce {s : St α} (hs : s.script ≠ []) : left s.produce + 1 = left s := by
  unfold St.produce
  split
  · rename_i h; exact absurd h hs
  · rename_i step rest h
    simp only [left, h, List.length_cons, List.flatMap_cons, List.length_append]
    omega

theorem receive_closed {s : St α} (hc : s.closed = true) : s.receive ≠ none := by
  unfold St.receive
  split
  · intro h; cases h
  · simp [hc]

theorem left_poll {s : St α} (h : Live s) (he : s.ended = false) (first : Bool) : left (s.poll first) + 1 ≤ left s := by
  have closed_dec : s.closed = true → left (s.receive.getD s) + 1 = left s := by
    intro hc
    cases hr : s.receive with
    | none => exact absurd hr (receive_closed hc)
    | some t => exact left_receive he hr
  have script_ne : s.closed = false → s.script ≠ [] := by
    intro hc hn
    rcases h.closes with h | ⟨x, hx, _⟩
    · rw [hc] at h; cases h
    · rw [hn] at hx; cases hx
  have hpe : s.produce.ended = false := by rw [produce_ended]; exact he
  unfold St.poll
  rw [if_neg (by simp [he])]
  by_cases hf : s.finished = true
  · rw [if_pos hf]
    exact Nat.le_of_eq (closed_dec (h.finished hf))
  · rw [if_neg hf]
    cases first with
    | true =>
      rw [if_pos rfl]
      cases hr : s.receive with
      | some t => exact Nat.le_of_eq (left_receive he hr)
      | none =>
        have hc : s.closed = false := by
          cases hc : s.closed with
          | false => rfl
          | true => exact absurd hr (receive_closed hc)
        have hl := left_produce (script_ne hc)
        simp only
        split
        · have := left_getD hpe; omega
        · omega
    | false =>
      rw [if_neg (by simp)]
      by_cases hs : s.script = []
      · have hc : s.closed = true := by
          rcases h.closes with h | ⟨x, hx, _⟩
          · exact h
          · rw [hs] at hx; cases hx
        have : s.produce = s := by unfold St.produce; simp [hs]
        rw [this]
        exact Nat.le_of_eq (closed_dec hc)
      · have hl := left_produce hs
        have := left_getD hpe
        omega

theorem ended_run (orders : List Bool) : ∀ {s : St α}, s.ended = true → (s.run orders).ended = true := by
  induction orders with
  | nil => intro s h; exact h
  | cons o rest ih =>
    intro s h
    refine ih ?_
    unfold St.poll; rw [if_pos h]; exact h

theorem left_run (orders : List Bool) : ∀ {s : St α}, Live s → left s ≤ orders.length + (if s.ended then left s else 0) →
    (s.run orders).ended = true := by
  induction orders with
  | nil =>
    intro s _ hl
    cases he : s.ended with
    | true => exact he
    | false => simp [left, he] at hl
  | cons o rest ih =>
    intro s h hl
    cases he : s.ended with
    | true => exact ended_run _ he
    | false =>
      have h1 := left_poll h he o
      refine ih (live_poll h o) ?_
      simp only [he, Bool.false_eq_true, if_false, List.length_cons, Nat.add_zero] at hl
      omega

/-- If the future ends some time, so does the stream, whatever is polled first: after as many polls as the future takes and one
for each response and the end. -/
theorem C93_ends (script : List (Step α)) (h : ∃ x ∈ script, x.done = true) (orders : List Bool)
    (hl : script.length + (script.flatMap (·.sends)).length + 1 ≤ orders.length) :
    ((start script).run orders).ended = true := by
  refine left_run orders ⟨.inr h, (by intro h; cases h)⟩ ?_
  simp only [left, start, List.length_nil, Bool.false_eq_true, if_false, Nat.add_zero]
  exact hl

/-- A future which ends but does not drop its sender before is polled to its end, and the stream gives all it sends. -/
theorem C93_complete (pre : List (Step α)) (last : Step α) (hd : last.done = true) (hp : ∀ x ∈ pre, x.closes = false ∧ x.done = false)
    (orders : List Bool) (he : ((start (pre ++ [last])).run orders).ended = true) :
    ((start (pre ++ [last])).run orders).finished = true ∧
      ((start (pre ++ [last])).run orders).out = (pre ++ [last]).flatMap (·.sends) := by
  have hlast : Last (pre ++ [last]) := by
    intro x hx hc
    rcases List.mem_append.1 hx with hx | hx
    · rw [(hp x hx).1] at hc; cases hc
    · rw [List.mem_singleton.1 hx]; exact hd
  have hf := C93_end_partial _ hlast orders he
  refine ⟨hf, ?_⟩
  have h1 := inv_run orders (inv_start (pre ++ [last]))
  obtain ⟨polled, h2, h3⟩ := sent_run (all := pre ++ [last]) orders (s := start (pre ++ [last])) ⟨[], rfl, rfl⟩
  -- a future which has ended has no polls left
  have hempty : ∀ (orders : List Bool) (s : St α) (q : List (Step α)), (∀ x ∈ q, x.done = false) →
      (s.finished = true → s.script = []) → (s.finished = false → s.script = q ++ [last] ∨ s.script = []) →
      ((s.run orders).finished = true → (s.run orders).script = []) := by
    intro orders
    induction orders with
    | nil => intro s q _ h _; exact h
    | cons o rest ih =>
      intro s q hq ha hb
      have recv : ∀ s t : St α, s.receive = some t → t.script = s.script ∧ t.finished = s.finished := by
        intro s t hr
        unfold St.receive at hr
        split at hr
        · cases hr; exact ⟨rfl, rfl⟩
        · split at hr
          · cases hr; exact ⟨rfl, rfl⟩
          · cases hr
      have getD : ∀ s : St α, (s.receive.getD s).script = s.script ∧ (s.receive.getD s).finished = s.finished := by
        intro s
        cases hr : s.receive with
        | none => exact ⟨rfl, rfl⟩
        | some t => exact recv s t hr
      have same : ∀ t : St α, t.script = s.script → t.finished = s.finished → ((t.run rest).finished = true → (t.run rest).script = []) := by
        intro t h1 h2
        exact ih t q hq (by rw [h1, h2]; exact ha) (by rw [h1, h2]; exact hb)
      have prod : s.finished = false → ∀ t : St α, t.script = s.produce.script → t.finished = s.produce.finished →
          ((t.run rest).finished = true → (t.run rest).script = []) := by
        intro hf t h1 h2
        rcases hb hf with hs | hs
        · cases q with
          | nil =>
            have hps : s.produce.script = [] := by unfold St.produce; simp [hs]
            refine ih t [] (by intro x hx; cases hx) (fun _ => by rw [h1, hps]) (fun _ => .inr (by rw [h1, hps]))
          | cons x q =>
            have hps : s.produce.script = q ++ [last] ∧ s.produce.finished = x.done := by unfold St.produce; simp [hs]
            refine ih t q (fun y hy => hq y (List.mem_cons_of_mem _ hy)) ?_ (fun _ => .inl (by rw [h1, hps.1]))
            intro hff
            rw [h2, hps.2, hq x List.mem_cons_self] at hff; cases hff
        · have hps : s.produce = s := by unfold St.produce; simp [hs]
          rw [hps] at h1 h2
          exact same t h1 h2
      show ((s.poll o).run rest).finished = true → ((s.poll o).run rest).script = []
      unfold St.poll
      split
      · exact same s rfl rfl
      · split
        · exact same _ (getD s).1 (getD s).2
        · rename_i hf
          have hf : s.finished = false := by simpa using hf
          split
          · split
            · rename_i t hr; exact same t (recv s t hr).1 (recv s t hr).2
            · split
              · exact prod hf _ (getD _).1 (getD _).2
              · exact prod hf _ rfl rfl
          · exact prod hf _ (getD _).1 (getD _).2
  have hs := hempty orders (start (pre ++ [last])) pre (fun x hx => (hp x hx).2) (by intro h; cases h) (fun _ => .inl rfl) hf
  rw [hs, List.append_nil] at h2
  have h4 := h1.order
  rw [(h1.ended he).1, List.append_nil] at h4
  rw [← h4, h3, ← h2]

theorem join_shape : ∀ (sub : List (List α)) (last : List α) (n : Nat), n ≤ sub.length + 1 →
    joinScript (sub ++ [last]) n = sub.map (fun s => ⟨s, false, false⟩) ++ [⟨last, true, true⟩] := by
  intro sub
  induction sub with
  | nil =>
    intro last n hn
    simp only [List.length_nil] at hn
    have h0 : n - 1 = 0 := by omega
    simp [joinScript, h0]; omega
  | cons s rest ih =>
    intro last n hn
    have := ih last (n - 1) (by simp only [List.length_cons] at hn; omega)
    cases rest with
    | nil => simpa [joinScript] using this
    | cons t rest => simpa [joinScript] using this

/-- The stream of a subscription without work in the background left then gives all its responses, and all is recorded. -/
theorem C93_subscription (sub : List (List α)) (last : List α) (n : Nat) (h : n ≤ sub.length + 1) (orders : List Bool)
    (he : ((start (joinScript (sub ++ [last]) n)).run orders).ended = true) :
    ((start (joinScript (sub ++ [last]) n)).run orders).finished = true ∧
      ((start (joinScript (sub ++ [last]) n)).run orders).out = (sub ++ [last]).flatten := by
  rw [join_shape sub last n h] at he ⊢
  have := C93_complete (sub.map (fun s => ⟨s, false, false⟩)) ⟨last, true, true⟩ rfl (by
    intro x hx
    obtain ⟨s, _, rfl⟩ := List.mem_map.1 hx
    exact ⟨rfl, rfl⟩) orders he
  refine ⟨this.1, this.2.trans ?_⟩
  simp [List.flatMap_map, List.flatMap_id']

/-! ## What is sent -/

/-- The first response has the extensions, and only that one; the responses are those given. -/
theorem C93_extensions {ρ ε : Type} (e : ε) (rs : List ρ) :
    (addExtensions (some e) rs).map (·.body) = rs ∧
      ∀ i r, (addExtensions (some e) rs)[i]? = some r → r.extensions = if i = 0 then some e else none := by
  have none_case : ∀ rs : List ρ, (addExtensions (none : Option ε) rs).map (·.body) = rs ∧
      ∀ r ∈ addExtensions (none : Option ε) rs, r.extensions = none := by
    intro rs
    induction rs with
    | nil => exact ⟨rfl, by intro r hr; cases hr⟩
    | cons x rest ih =>
      refine ⟨?_, ?_⟩
      · simp only [addExtensions, List.map_cons, ih.1]
      · intro r hr
        simp only [addExtensions, List.mem_cons] at hr
        rcases hr with rfl | hr
        · rfl
        · exact ih.2 r hr
  cases rs with
  | nil => exact ⟨rfl, by intro i r h; simp [addExtensions] at h⟩
  | cons x rest =>
    refine ⟨?_, ?_⟩
    · simp only [addExtensions, List.map_cons, (none_case rest).1]
    · intro i r h
      cases i with
      | zero => simp only [addExtensions, List.getElem?_cons_zero, Option.some.injEq] at h; subst h; rfl
      | succ i =>
        simp only [addExtensions, List.getElem?_cons_succ] at h
        rw [(none_case rest).2 r (List.mem_of_getElem? h)]; rfl

/-- If all payloads can be encoded, there is an event for each and then the end; otherwise there is one for each before the first
which cannot, and no end. -/
theorem C93_events (ps : List (List Char)) (rest : List (Option (List Char))) :
    events (ps.map some) = ps.map .next ++ [.complete] ∧ events (ps.map some ++ none :: rest) = ps.map .next := by
  induction ps with
  | nil => exact ⟨rfl, rfl⟩
  | cons p ps ih =>
    refine ⟨?_, ?_⟩
    · simp only [List.map_cons, events, ih.1, List.cons_append]
    · simp only [List.map_cons, events, ih.2, List.cons_append]

/-! ## Cases -/

/-- Two responses; the future records the end in its last poll. -/
def caseScript : List (Step Nat) := [⟨[1], false, false⟩, ⟨[], false, false⟩, ⟨[2, 3], true, true⟩]

theorem C93_case : Last caseScript ∧ (∃ x ∈ caseScript, x.done = true) ∧
    ((start caseScript).run [true, false, true, true, false, true, true]).ended = true ∧
    ((start caseScript).run [true, false, true, true, false, true, true]).finished = true ∧
    ((start caseScript).run [true, false, true, true, false, true, true]).out = [1, 2, 3] ∧
    (joinScript [[1], [], [2, 3]] 2 = caseScript) := by
  refine ⟨?_, ⟨_, .tail _ (.tail _ (.head _)), rfl⟩, by decide, by decide, by decide, by simp [joinScript, caseScript]⟩
  intro x hx
  simp only [caseScript, List.mem_cons, List.not_mem_nil, or_false] at hx
  rcases hx with rfl | rfl | rfl <;> simp

end Verif.StreamJoin
