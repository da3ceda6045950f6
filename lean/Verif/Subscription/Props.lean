import Verif.Schedule.Props
import Verif.Subscription.Model

/-! # C45: subscription events are delivered in order without loss -/
namespace Verif.Subscription

open Verif.Schedule (OpPlan popSubscription runStart startSubscription Executes)

variable {E : Type} {g : OpPlan} {plan : Nat} {counts : Schedule.Exe → Nat}

/-! ## Specification -/

/-- What the upstream stream yielded. -/
def upstream : List (Input E) → List E
  | [] => []
  | .event e _ :: t => e :: upstream t
  | _ :: t => upstream t

/-- The response, if any, which was taken from the queue and was not sent (yet). -/
def Phase.unsent : Phase E → List (Sent E)
  | .sending x _ | .closed x _ => [x]
  | _ => []

/-- The responses being prepared or being sent. -/
def St.inFlight (s : St E) : List (Execution E) := s.phase.unsent.map (·.execution) ++ s.pending

/-- Nothing is left to do: all was sent. -/
def Phase.isDone : Phase E → Bool
  | .done => true
  | _ => false

/-- A response could not be sent. -/
def Phase.isClosed : Phase E → Bool
  | .closed _ _ => true
  | _ => false

/-! ## Invariant -/

theorem upstream_append (a b : List (Input E)) : upstream (a ++ b) = upstream a ++ upstream b := by
  induction a with
  | nil => rfl
  | cons i t ih => cases i <;> simp [upstream, ih]

/-- The responses taken from the queue. -/
def St.taken (s : St E) : List (Sent E) := s.sent ++ s.phase.unsent

def Valid (g : OpPlan) (plan : Nat) (counts : Schedule.Exe → Nat) (x : Execution E) : Prop :=
  ∃ hasInput, Schedule.run g.graph (runStart g.plans.length counts hasInput [plan] [.started (.plan plan)]) x.history = some x.st

/-- The number of inputs needed to come to this phase, apart from events, work and sent responses. -/
def Phase.cost : Phase E → Nat
  | .loop => 0
  | .sending _ false => 1
  | .sending _ true => 2
  | .draining => 1
  | .done => 2
  | .closed _ false => 2
  | .closed _ true => 3

def Phase.ended : Phase E → Bool
  | .loop => false
  | .sending _ b | .closed _ b => b
  | .draining | .done => true

def total (l : List (Execution E)) : Nat := (l.map (·.history.length)).sum

structure Inv (g : OpPlan) (plan : Nat) (counts : Schedule.Exe → Nat) (is : List (Input E)) (s : St E) : Prop where
  order : (s.taken.map (·.execution) ++ s.pending).map (·.event) = upstream is
  valid : ∀ x ∈ s.taken.map (·.execution) ++ s.pending, Valid g plan counts x
  finished : ∀ x ∈ s.taken, x.execution.st.phase = .finished
  bound : s.inFlight.length ≤ 3
  ext : s.extensions = s.taken.isEmpty
  exts : ∀ (i : Nat) x, s.taken[i]? = some x → x.extensions = decide (i = 0)
  ended : .streamEnd ∈ is ↔ s.phase.ended = true
  failed : .sendDone false ∈ is ↔ s.phase.isClosed = true
  drained : s.phase.isDone = true → s.pending = []
  length : is.length = total (s.taken.map (·.execution) ++ s.pending) + (upstream is).length + 2 * s.sent.length + s.phase.cost

theorem ready_iff {x : Execution E} : x.ready = true ↔ x.st.phase = .finished := by
  cases x with
  | mk e st h => cases st with
    | mk c f r p l => cases p <;> simp [Execution.ready]

theorem oldest_spec {l : List (Execution E)} {x : Execution E} {t : List (Execution E)} (h : oldest l = some (x, t)) :
    l = x :: t ∧ x.st.phase = .finished := by
  cases l with
  | nil => simp [oldest] at h
  | cons y u =>
    rw [oldest] at h
    split at h
    · rename_i hr
      simp only [Option.some.injEq, Prod.mk.injEq] at h
      obtain ⟨rfl, rfl⟩ := h
      exact ⟨rfl, ready_iff.1 hr⟩
    · cases h

theorem pollsStream_spec {l : List (Execution E)} (h : pollsStream l = true) : l.length < 3 := by
  unfold pollsStream at h
  split at h
  · rename_i hl; simp only [List.isEmpty_iff] at hl; simp [hl]
  · split at h
    · assumption
    · cases h

theorem schedule_run_snoc {gr : Schedule.Graph} {i : Schedule.Input} : ∀ {is : List Schedule.Input} {s s' s'' : Schedule.St},
    Schedule.run gr s is = some s' → Schedule.step gr s' i = some s'' → Schedule.run gr s (is ++ [i]) = some s''
  | [], s, s', s'', h, h' => by
    simp only [Schedule.run, Option.some.injEq] at h
    subst h
    simp [Schedule.run, h']
  | j :: t, s, s', s'', h, h' => by
    rw [Schedule.run, Option.bind_eq_some_iff] at h
    obtain ⟨m, h1, h2⟩ := h
    rw [List.cons_append, Schedule.run, h1]
    exact schedule_run_snoc (is := t) h2 h'

theorem workAt_spec {input : Schedule.Input} : ∀ {i : Nat} {l l' : List (Execution E)}, workAt g input i l = some l' →
    l'.map (·.event) = l.map (·.event) ∧ l'.length = l.length ∧ total l' = total l + 1 ∧
      ((∀ x ∈ l, Valid g plan counts x) → ∀ x ∈ l', Valid g plan counts x)
  | _, [], _, h => by simp [workAt] at h
  | 0, x :: t, l', h => by
    rw [workAt, Option.map_eq_some_iff] at h
    obtain ⟨st, h, rfl⟩ := h
    refine ⟨rfl, rfl, by simp [total]; omega, ?_⟩
    intro hv y hy
    rcases List.mem_cons.1 hy with rfl | hy
    · obtain ⟨f, hf⟩ := hv x List.mem_cons_self
      exact ⟨f, schedule_run_snoc hf h⟩
    · exact hv y (List.mem_cons_of_mem _ hy)
  | i + 1, x :: t, l', h => by
    rw [workAt, Option.map_eq_some_iff] at h
    obtain ⟨u, h, rfl⟩ := h
    obtain ⟨h1, h2, h3, h4⟩ := workAt_spec h
    refine ⟨by simp [h1], by simp [h2], by simp [total] at h3 ⊢; omega, ?_⟩
    intro hv y hy
    rcases List.mem_cons.1 hy with rfl | hy
    · exact hv y List.mem_cons_self
    · exact h4 (fun z hz => hv z (List.mem_cons_of_mem _ hz)) y hy

theorem total_append (a b : List (Execution E)) : total (a ++ b) = total a + total b := by simp [total]

theorem beginSend_spec {s s' : St E} {b : Bool} (h : beginSend s b = some s') : ∃ x t, s.pending = x :: t ∧
    x.st.phase = .finished ∧ s' = ⟨t, .sending ⟨x, s.extensions⟩ b, false, s.sent⟩ := by
  rw [beginSend, Option.map_eq_some_iff] at h
  obtain ⟨⟨x, t⟩, h, rfl⟩ := h
  obtain ⟨h1, h2⟩ := oldest_spec h
  refine ⟨x, t, h1, h2, ?_⟩
  cases he : s.extensions <;> simp [addExtensions]

theorem beginSend_inv {is : List (Input E)} {s s' : St E} {b : Bool} (inv : Inv g plan counts is s)
    (hu : s.phase.unsent = []) (hp : s.phase.ended = b) (hc : s.phase.isClosed = false)
    (hk : s.phase.cost = if b then 1 else 0) (h : beginSend s b = some s') : Inv g plan counts (is ++ [.next]) s' := by
  obtain ⟨x, t, h1, h2, rfl⟩ := beginSend_spec h
  obtain ⟨i1, i2, i3, i4, i5, i6, i7, i8, i9, i10⟩ := inv
  simp only [St.taken, hu, List.append_nil, St.inFlight, h1, List.map_nil, List.nil_append] at *
  have hup : upstream (is ++ [(.next : Input E)]) = upstream is := by simp [upstream_append, upstream]
  constructor
  · rw [hup, ← i1]
    simp [St.taken, Phase.unsent]
  · simpa [St.taken, Phase.unsent] using i2
  · intro y hy
    simp only [St.taken, Phase.unsent, List.mem_append, List.mem_singleton] at hy
    rcases hy with hy | rfl
    · exact i3 y hy
    · exact h2
  · simpa [St.inFlight, Phase.unsent] using i4
  · simp [St.taken, Phase.unsent]
  · intro i y hy
    simp only [St.taken, Phase.unsent] at hy
    rw [List.getElem?_append] at hy
    split at hy
    · exact i6 i y hy
    · rename_i hlt
      have : i = s.sent.length := by
        have := (List.getElem?_eq_some_iff.1 hy).1
        simp at this; omega
      subst this
      simp only [Nat.sub_self, List.getElem?_cons_zero, Option.some.injEq] at hy
      subst hy
      simp only [i5]
      cases s.sent <;> simp
  · show _ ↔ b = true
    simp [i7, hp]
  · show _ ↔ false = true
    simp [i8, hc]
  · simp [Phase.isDone]
  · rw [hup, List.length_append, i10, hk]
    simp only [St.taken, Phase.unsent, total_append, List.map_append]
    cases b <;> simp [Phase.cost, total] <;> omega

theorem step_inv {is : List (Input E)} {s s' : St E} {i : Input E} (inv : Inv g plan counts is s)
    (h : step g plan counts s i = some s') : Inv g plan counts (is ++ [i]) s' := by
  cases i with
  | event e f =>
    obtain ⟨p, ph, ex, se⟩ := s
    cases ph with
    | loop =>
      simp only [step] at h
      split at h
      · rename_i hp
        have hlt := pollsStream_spec hp
        cases h
        obtain ⟨i1, i2, i3, i4, i5, i6, i7, i8, i9, i10⟩ := inv
        simp only [St.taken, Phase.unsent, List.append_nil, St.inFlight, List.map_nil, List.nil_append] at *
        have hup : upstream (is ++ [Input.event e f]) = upstream is ++ [e] := by simp [upstream_append, upstream]
        constructor
        · simp only [St.taken, Phase.unsent, List.append_nil]
          rw [hup, ← i1]
          simp [newExecution]
        · intro x hx
          simp only [St.taken, Phase.unsent, List.append_nil, ← List.append_assoc] at hx
          rcases List.mem_append.1 hx with hx | hx
          · exact i2 x hx
          · rw [List.mem_singleton] at hx
            subst hx
            exact ⟨f, rfl⟩
        · simpa [St.taken, Phase.unsent] using i3
        · simp [St.inFlight, Phase.unsent]; omega
        · simpa [St.taken, Phase.unsent] using i5
        · simpa [St.taken, Phase.unsent] using i6
        · simpa [Phase.ended] using i7
        · simpa [Phase.isClosed] using i8
        · simp [Phase.isDone]
        · rw [hup, List.length_append, i10]
          simp [St.taken, Phase.unsent, total, newExecution]
          omega
      · cases h
    | _ => simp [step] at h
  | streamEnd =>
    obtain ⟨p, ph, ex, se⟩ := s
    cases ph with
    | loop =>
      simp only [step] at h
      split at h
      · cases h
        obtain ⟨i1, i2, i3, i4, i5, i6, i7, i8, i9, i10⟩ := inv
        have hup : upstream (is ++ [(.streamEnd : Input E)]) = upstream is := by simp [upstream_append, upstream]
        refine ⟨by rw [hup]; exact i1, i2, i3, i4, i5, i6, by simp [Phase.ended], ?_, by simp [Phase.isDone], ?_⟩
        · simpa [Phase.isClosed] using i8
        · rw [hup, List.length_append, i10]
          simp [St.taken, Phase.unsent, Phase.cost]
      · cases h
    | _ => simp [step] at h
  | work j input =>
    obtain ⟨p, ph, ex, se⟩ := s
    have key : ∀ p', workAt g input j p = some p' → ph.isDone = false → Inv g plan counts (is ++ [.work j input]) ⟨p', ph, ex, se⟩ := by
      intro p' hw hd
      obtain ⟨w1, w2, w3, w4⟩ := workAt_spec (plan := plan) (counts := counts) hw
      obtain ⟨i1, i2, i3, i4, i5, i6, i7, i8, i9, i10⟩ := inv
      have hup : upstream (is ++ [Input.work j input]) = upstream is := by simp [upstream_append, upstream]
      refine ⟨?_, ?_, i3, ?_, i5, i6, by simpa using i7, by simpa using i8, ?_, ?_⟩
      · rw [hup, ← i1]
        simp only [List.map_append, w1, St.taken]
      · intro x hx
        rcases List.mem_append.1 hx with hx | hx
        · exact i2 x (List.mem_append_left _ hx)
        · exact w4 (fun y hy => i2 y (List.mem_append_right _ hy)) x hx
      · simpa [St.inFlight, w2] using i4
      · intro h'
        rw [hd] at h'; cases h'
      · rw [hup, List.length_append, i10]
        simp only [total_append, w3, St.taken, List.length_singleton]
        omega
    cases ph with
    | loop =>
      simp only [step, Option.map_eq_some_iff] at h
      obtain ⟨p', h, rfl⟩ := h
      exact key p' h rfl
    | draining =>
      simp only [step, Option.map_eq_some_iff] at h
      obtain ⟨p', h, rfl⟩ := h
      exact key p' h rfl
    | _ => simp [step] at h
  | next =>
    have hph := h
    obtain ⟨p, ph, ex, se⟩ := s
    cases ph with
    | loop => exact beginSend_inv inv rfl rfl rfl rfl h
    | draining =>
      simp only [step] at h
      split at h
      · rename_i he
        cases h
        obtain ⟨i1, i2, i3, i4, i5, i6, i7, i8, i9, i10⟩ := inv
        have hup : upstream (is ++ [(.next : Input E)]) = upstream is := by simp [upstream_append, upstream]
        refine ⟨by rw [hup]; exact i1, i2, i3, i4, i5, i6, by simpa [Phase.ended] using i7, ?_, ?_, ?_⟩
        · simpa [Phase.isClosed] using i8
        · intro _; simpa using he
        · rw [hup, List.length_append, i10]
          simp [St.taken, Phase.unsent, Phase.cost]
      · exact beginSend_inv inv rfl rfl rfl rfl h
    | _ => simp [step] at h
  | sendDone ok =>
    obtain ⟨p, ph, ex, se⟩ := s
    cases ph with
    | sending x b =>
      obtain ⟨i1, i2, i3, i4, i5, i6, i7, i8, i9, i10⟩ := inv
      have hup : upstream (is ++ [(.sendDone ok : Input E)]) = upstream is := by simp [upstream_append, upstream]
      cases ok with
      | true =>
        simp only [step, if_true] at h
        cases h
        have hpe : (if b = true then Phase.draining else Phase.loop : Phase E).unsent = [] := by cases b <;> rfl
        have hux : (Phase.sending x b).unsent = [x] := rfl
        refine ⟨?_, ?_, ?_, ?_, ?_, ?_, ?_, ?_, ?_, ?_⟩
        · rw [hup, ← i1]; simp [St.taken, hpe, hux]
        · simpa [St.taken, hpe, hux] using i2
        · simpa [St.taken, hpe, hux] using i3
        · simp only [St.inFlight, hpe, hux, List.map_nil, List.nil_append, List.map_cons, List.cons_append,
            List.length_cons] at i4 ⊢
          omega
        · simpa [St.taken, hpe, hux] using i5
        · simpa [St.taken, hpe, hux] using i6
        · cases b <;> simpa [Phase.ended] using i7
        · cases b <;> simpa [Phase.isClosed] using i8
        · cases b <;> simp [Phase.isDone]
        · rw [hup, List.length_append, i10]
          simp only [St.taken, hpe, hux, List.append_nil]
          cases b <;> simp [Phase.cost] <;> omega
      | false =>
        simp only [step, Bool.false_eq_true, if_false] at h
        cases h
        refine ⟨by rw [hup]; exact i1, i2, i3, i4, i5, i6, by simpa [Phase.ended] using i7, by simp [Phase.isClosed],
          by simp [Phase.isDone], ?_⟩
        rw [hup, List.length_append, i10]
        simp only [St.taken, Phase.unsent]
        cases b <;> simp [Phase.cost] <;> omega
    | _ => simp [step] at h

theorem run_inv : ∀ {js is : List (Input E)} {s s' : St E}, Inv g plan counts is s → run g plan counts s js = some s' →
    Inv g plan counts (is ++ js) s'
  | [], is, s, s', inv, h => by
    simp only [run, Option.some.injEq] at h
    subst h
    simpa using inv
  | j :: t, is, s, s', inv, h => by
    rw [run, Option.bind_eq_some_iff] at h
    obtain ⟨m, h1, h2⟩ := h
    have := run_inv (js := t) (step_inv inv h1) h2
    simpa using this

theorem start_inv : Inv g plan counts ([] : List (Input E)) ⟨[], .loop, true, []⟩ :=
  ⟨rfl, by simp [St.taken, Phase.unsent], by simp [St.taken, Phase.unsent], by simp [St.inFlight, Phase.unsent], rfl,
    by simp [St.taken, Phase.unsent], by simp [Phase.ended], by simp [Phase.isClosed], by simp [Phase.isDone], rfl⟩

theorem execute_inv {is : List (Input E)} {s : St E} (h : execute g is = some s) :
    ∃ plan counts, popSubscription g.graph.parents g.plans.length = some (plan, counts) ∧
      run g plan counts ⟨[], .loop, true, []⟩ is = some s ∧ Inv g plan counts is s := by
  unfold execute at h
  split at h
  · cases h
  · rename_i p c hp
    exact ⟨p, c, hp, h, by simpa using run_inv start_inv h⟩

theorem valid_executes {x : Execution E} (hp : popSubscription g.graph.parents g.plans.length = some (plan, counts))
    (h : Valid g plan counts x) : Executes g x.history x.st := by
  obtain ⟨f, hf⟩ := h
  exact .subscription (hasInput := f) (by simp only [startSubscription, hp]) hf

/-! ## C45 -/

/-- The responses sent so far are those of the first events, one to one and in their order; those of the
other events are being prepared, in order. -/
theorem C45_in_order {is : List (Input E)} {s : St E} (h : execute g is = some s) :
    s.sent.map (·.execution.event) ++ s.inFlight.map (·.event) = upstream is := by
  obtain ⟨p, c, -, -, inv⟩ := execute_inv h
  rw [← inv.order]
  simp [St.taken, St.inFlight]

/-- When the execution has ended, every event has its response, unless a response could not be sent. -/
theorem C45_no_loss {is : List (Input E)} {s : St E} (h : execute g is = some s) (hd : s.phase.isDone = true) :
    s.sent.map (·.execution.event) = upstream is ∧ .streamEnd ∈ is := by
  have hin := C45_in_order h
  obtain ⟨p, c, -, -, inv⟩ := execute_inv h
  have he := inv.drained hd
  cases hp : s.phase <;> simp only [hp, Phase.isDone, Bool.false_eq_true] at hd
  simp only [St.inFlight, hp, he, Phase.unsent, List.map_nil, List.append_nil] at hin
  exact ⟨hin, inv.ended.2 (by simp [hp, Phase.ended])⟩

/-- At most three responses are in flight. -/
theorem C45_bounded {is : List (Input E)} {s : St E} (h : execute g is = some s) : s.inFlight.length ≤ 3 := by
  obtain ⟨p, c, -, -, inv⟩ := execute_inv h
  exact inv.bound

/-- A response is sent when the execution of its event has come to its end, and what this execution did is
what it does by itself: a response does not depend on the other events. -/
theorem C45_own_execution {is : List (Input E)} {s : St E} (h : execute g is = some s) {x : Sent E} (hx : x ∈ s.sent) :
    Executes g x.execution.history x.execution.st ∧ x.execution.st.phase = .finished := by
  obtain ⟨p, c, hp, -, inv⟩ := execute_inv h
  have hx' : x ∈ s.taken := List.mem_append_left _ hx
  exact ⟨valid_executes hp (inv.valid _ (List.mem_append_left _ (List.mem_map_of_mem hx'))), inv.finished x hx'⟩

/-- The response extensions are sent with the first response and only with it. -/
theorem C45_extensions {is : List (Input E)} {s : St E} (h : execute g is = some s) {i : Nat} {x : Sent E}
    (hx : s.sent[i]? = some x) : x.extensions = true ↔ i = 0 := by
  obtain ⟨p, c, hp, -, inv⟩ := execute_inv h
  have : s.taken[i]? = some x := by
    rw [St.taken, List.getElem?_append_left (List.getElem?_eq_some_iff.1 hx).1]; exact hx
  rw [inv.exts i x this]
  simp

/-- The execution stops early only if a response could not be sent. -/
theorem C45_closed {is : List (Input E)} {s : St E} (h : execute g is = some s) :
    s.phase.isClosed = true ↔ .sendDone false ∈ is := by
  obtain ⟨p, c, hp, -, inv⟩ := execute_inv h
  exact inv.failed.symm

theorem total_le {B : Nat} : ∀ {l : List (Execution E)}, (∀ x ∈ l, x.history.length ≤ B) → total l ≤ B * l.length
  | [], _ => by simp [total]
  | x :: t, h => by
    have h1 := h x List.mem_cons_self
    have h2 := total_le (l := t) fun y hy => h y (List.mem_cons_of_mem _ hy)
    simp only [total, List.map_cons, List.sum_cons, List.length_cons, Nat.mul_add] at *
    omega

/-- The execution does not go on forever without an event: the number of steps is bounded by the number of
events. -/
theorem C45_terminates {q : Schedule.Query} (hb : Schedule.build q = .ok g) {is : List (Input E)} {s : St E}
    (h : execute g is = some s) :
    is.length ≤ (9 * (g.plans.length + g.mods.length) + 4) * (upstream is).length + 3 := by
  obtain ⟨p, c, hp, -, inv⟩ := execute_inv h
  have h1 := total_le (B := 9 * (g.plans.length + g.mods.length) + 1) fun x hx =>
    Schedule.C12_terminates hb (valid_executes hp (inv.valid x hx))
  have h2 : (s.taken.map (·.execution) ++ s.pending).length = (upstream is).length := by
    rw [← inv.order, List.length_map]
  have h3 : s.sent.length ≤ (upstream is).length := by
    rw [← h2]; simp [St.taken]
  have h4 : s.phase.cost ≤ 3 := by
    cases s.phase <;> simp only [Phase.cost] <;> (try split) <;> (try omega)
  have h5 := inv.length
  rw [h2] at h1
  generalize 9 * (g.plans.length + g.mods.length) = B at *
  generalize (upstream is).length = n at *
  have : (B + 4) * n = (B + 1) * n + 3 * n := by rw [← Nat.add_mul]
  omega

/-- As long as there are responses in flight, and until the end once the upstream stream has ended, the
execution can go on without waiting for the upstream stream. -/
theorem C45_progress {is : List (Input E)} {s : St E} (h : execute g is = some s) (hc : s.phase.isClosed = false)
    (hne : s.inFlight ≠ [] ∨ .streamEnd ∈ is ∧ s.phase.isDone = false) :
    ∃ i s', execute g (is ++ [i]) = some s' ∧ (i = .next ∨ i = .sendDone true ∨ ∃ j input, i = .work j input) := by
  obtain ⟨p, c, hp, hrun, inv⟩ := execute_inv h
  have snoc : ∀ {js : List (Input E)} {s₀ s₁ : St E} {i : Input E} {s₂ : St E}, run g p c s₀ js = some s₁ →
      step g p c s₁ i = some s₂ → run g p c s₀ (js ++ [i]) = some s₂ := by
    intro js
    induction js with
    | nil => intro s₀ s₁ i s₂ h h'; simp only [run, Option.some.injEq] at h; subst h; simp [run, h']
    | cons j t ih =>
      intro s₀ s₁ i s₂ h h'
      rw [run, Option.bind_eq_some_iff] at h
      obtain ⟨m, h1, h2⟩ := h
      rw [List.cons_append, run, h1]
      exact ih h2 h'
  suffices hs : ∃ i s', step g p c s i = some s' ∧ (i = .next ∨ i = .sendDone true ∨ ∃ j input, i = .work j input) by
    obtain ⟨i, s', h1, h2⟩ := hs
    refine ⟨i, s', ?_, h2⟩
    simp only [execute, hp]
    exact snoc hrun h1
  have pend : ∀ x t, s.pending = x :: t → (s.phase matches .loop | .draining) →
      ∃ i s', step g p c s i = some s' ∧ (i = .next ∨ i = .sendDone true ∨ ∃ j input, i = .work j input) := by
    intro x t hpe hph
    by_cases hf : x.st.phase = .finished
    · have ho : oldest s.pending = some (x, t) := by
        rw [hpe, oldest, if_pos (ready_iff.2 hf)]
      have hb : ∀ b, ∃ s', beginSend s b = some s' := by
        intro b
        rw [beginSend, ho]
        exact ⟨_, rfl⟩
      obtain ⟨pe, ph, ex, se⟩ := s
      cases ph with
      | loop =>
        obtain ⟨s', h'⟩ := hb false
        exact ⟨.next, s', h', .inl rfl⟩
      | draining =>
        obtain ⟨s', h'⟩ := hb true
        refine ⟨.next, s', ?_, .inl rfl⟩
        simp only [step]
        simp only at hpe
        rw [if_neg (by simp [hpe])]
        exact h'
      | _ => simp at hph
    · obtain ⟨i, hi⟩ := Schedule.progress (g := g.graph) x.st hf
      obtain ⟨st, hi⟩ := Option.isSome_iff_exists.1 hi
      refine ⟨.work 0 i, ⟨{ x with st, history := x.history ++ [i] } :: t, s.phase, s.extensions, s.sent⟩, ?_,
        .inr (.inr ⟨0, i, rfl⟩)⟩
      obtain ⟨pe, ph, ex, se⟩ := s
      simp only at hpe
      subst hpe
      cases ph with
      | loop => simp [step, workAt, hi]
      | draining => simp [step, workAt, hi]
      | _ => simp at hph
  cases hph : s.phase with
  | loop =>
    cases hpe : s.pending with
    | nil =>
      rw [inv.ended, hph] at hne
      simp [St.inFlight, hph, hpe, Phase.unsent, Phase.ended] at hne
    | cons x t => exact pend x t hpe (by rw [hph])
  | draining =>
    cases hpe : s.pending with
    | nil =>
      refine ⟨.next, { s with phase := .done }, ?_, .inl rfl⟩
      simp only [step, hph, hpe]
      rfl
    | cons x t => exact pend x t hpe (by rw [hph])
  | sending x b =>
    refine ⟨.sendDone true, { s with sent := s.sent ++ [x], phase := if b then .draining else .loop }, ?_, .inr (.inl rfl)⟩
    simp only [step, hph]
    rfl
  | done =>
    have := inv.drained (by simp [hph, Phase.isDone])
    simp [St.inFlight, hph, this, Phase.unsent, Phase.isDone] at hne
  | closed x b => simp [hph, Phase.isClosed] at hc

/-- The root plan of the subscription and a plan that needs it. -/
def twoPlans : Schedule.Query :=
  { parts := [⟨[], [], none⟩, ⟨[.mk 0 []], [], some 0⟩], modifiers := [], requiredBySupergraph := fun _ => []
    mutationOrder := [] }

/-- Three events; the second and the third have completed before the first, which has another plan to
execute; the stream ends, and the responses are sent in the order of the events. -/
example : ∃ o s, Schedule.build twoPlans = .ok o ∧ execute o
    [.event 'a' fun _ => true, .work 0 (.ingest true), .event 'b' fun _ => true, .work 1 (.ingest false), .work 1 .ingested,
      .work 1 .stop, .streamEnd, .work 0 (.handle true), .work 0 .ingested, .work 0 (.complete 1), .work 0 (.ingest true),
      .work 0 .ingested, .work 0 .stop, .next, .sendDone true, .next, .sendDone true, .next] = some s ∧
    s.sent.map (fun x => (x.execution.event, x.extensions)) = [('a', true), ('b', false)] ∧ s.phase.isDone = true := by
  refine ⟨_, _, rfl, rfl, rfl, rfl⟩

/-- While the first of three executions is not ready nothing is sent and no event is taken. -/
example : ∃ o s, Schedule.build twoPlans = .ok o ∧ execute o
    [.event 'a' fun _ => true, .event 'b' fun _ => true, .event 'c' fun _ => true, .work 1 (.ingest false),
      .work 1 .ingested, .work 1 .stop] = some s ∧ s.inFlight.length = 3 ∧
    step o 0 (fun _ => 0) s .next = none ∧ step o 0 (fun _ => 0) s (.event 'd' fun _ => true) = none := by
  refine ⟨_, _, rfl, rfl, rfl, rfl, rfl⟩

end Verif.Subscription
