import Verif.SubDedup.Spec

/-!
# Lemmas
-/
namespace Verif.SubDedup

theorem Told.append {s₁ s₂ : List Msg} {o₁ o₂ : List Out} (h₁ : Told s₁ o₁) (h₂ : Told s₂ o₂) : Told (s₁ ++ s₂) (o₁ ++ o₂) := by
  induction h₁ with
  | nil => exact h₂
  | msg _ ih => exact .msg ih
  | lost hl _ ih => rw [List.append_assoc]; exact .lost hl ih

theorem Told.split : ∀ {o₁ o₂ : List Out} {s : List Msg}, Told s (o₁ ++ o₂) → ∃ s₁ s₂, s = s₁ ++ s₂ ∧ Told s₁ o₁ ∧ Told s₂ o₂
  | [], _, s, h => ⟨[], s, rfl, .nil, h⟩
  | .msg m :: o₁, o₂, s, h => by
    cases h with
    | msg h =>
      obtain ⟨s₁, s₂, rfl, h1, h2⟩ := Told.split h
      exact ⟨m :: s₁, s₂, rfl, .msg h1, h2⟩
  | .lag :: o₁, o₂, s, h => by
    cases h with
    | lost hl h =>
      obtain ⟨s₁, s₂, rfl, h1, h2⟩ := Told.split h
      exact ⟨_, s₂, (List.append_assoc _ _ _).symm, .lost hl h1, h2⟩

theorem Told.none : ∀ {out : List Msg} {s : List Msg}, Told s (out.map Out.msg) → s = out
  | [], _, h => by cases h; rfl
  | m :: out, s, h => by
    cases h with
    | msg h => rw [Told.none h]

theorem told_push (cap : Nat) (m : Msg) (c : Client) (s : List Msg) (h : Told s c.out) : Told (s ++ [m]) (push cap m c).out := by
  have h' : Told (s ++ [m]) (c.out ++ [.msg m]) := h.append (.msg .nil)
  unfold push
  split
  · unfold Client.out at h' ⊢
    simpa using h'
  · obtain ⟨s₁, s₂, hs, h1, h2⟩ := Told.split (o₁ := c.got) (o₂ := (if c.lagged then [Out.lag] else []) ++ (c.pending ++ [m]).map Out.msg)
      (by unfold Client.out at h'; simpa using h')
    rw [hs]
    refine h1.append ?_
    simp only [if_true]
    generalize hp : c.pending ++ [m] = p at h2
    cases p with
    | nil => exact absurd hp (by simp)
    | cons x p =>
      simp only [List.drop_succ_cons, List.drop_zero, List.singleton_append]
      cases hl : c.lagged with
      | true =>
        rw [hl] at h2
        cases h2 with
        | lost hn h2 =>
          cases h2 with
          | msg h2 =>
            rename_i l s
            have : l ++ x :: s = (l ++ [x]) ++ s := by simp
            rw [this]
            exact .lost (by simp) h2
      | false =>
        rw [hl] at h2
        cases h2 with
        | msg h2 => exact .lost (l := [x]) (by simp) h2

theorem find_none {k : Nat} : ∀ {m : List (Nat × Nat)}, find k m = none → ∀ p ∈ m, p.1 ≠ k
  | [], _, p, hp => by cases hp
  | (k', t) :: rest, h, p, hp => by
    unfold find at h
    split at h
    · cases h
    · rename_i hne
      rcases List.mem_cons.1 hp with rfl | hp
      · exact hne
      · exact find_none h p hp

theorem find_some {k t : Nat} : ∀ {m : List (Nat × Nat)}, find k m = some t → (k, t) ∈ m
  | [], h => by cases h
  | (k', t') :: rest, h => by
    unfold find at h
    split at h
    · rename_i he
      cases h
      subst he
      exact List.mem_cons_self
    · exact List.mem_cons_of_mem _ (find_some h)

theorem mem_remove (k : Nat) (m : List (Nat × Nat)) (p : Nat × Nat) : p ∈ remove k m ↔ p ∈ m ∧ p.1 ≠ k := by
  simp [remove]

/-- What holds of a client. -/
def ClientOk (cap : Nat) (tasks : List Task) (c : Client) : Prop :=
  ∃ task, tasks[c.task]? = some task ∧ task.key = c.key ∧ c.since ≤ task.sent.length ∧ Told (task.sent.drop c.since) c.out ∧
    c.pending.length ≤ cap ∧ (c.lagged = true → c.pending.length = cap) ∧
    (c.ended = true → task.phase = .done ∧ c.lagged = false ∧ c.pending = []) ∧ (task.phase = .done → task.sent = task.given)

/-- How often the subscription is dropped in the extension before a phase. -/
def Phase.drops : Phase → Nat
  | .done => 1
  | .closing => 1
  | .failing _ => 1
  | _ => 0

/-- What is left to send in a phase. -/
def Phase.left : Phase → List Msg
  | .sending l => l.map .item
  | .removing l => l.map .item
  | .failing e => [.error e]
  | _ => []

/-- What holds of a task. -/
def TaskOk (task : Task) : Prop :=
  (task.phase ≠ .sending []) ∧ (∀ l, task.phase = .removing l → task.closed = false) ∧ task.drops = task.phase.drops ∧
  (task.phase ≠ .done → task.sent ++ task.phase.left = task.given)

/-- Whether clients may still come to a task. -/
def Open (task : Task) : Prop := task.closed = false ∧ task.phase ≠ .done

structure Inv (cap : Nat) (s : State) : Prop where
  map : ∀ k t, (k, t) ∈ s.map ↔ ∃ task, s.tasks[t]? = some task ∧ task.key = k ∧ Open task
  one : ∀ k t t', (k, t) ∈ s.map → (k, t') ∈ s.map → t = t'
  tasks : ∀ task ∈ s.tasks, TaskOk task
  clients : ∀ c ∈ s.clients, ClientOk cap s.tasks c

theorem get_set_self {l : List Task} {t : Nat} {x y : Task} (h : l[t]? = some x) : (l.set t y)[t]? = some y := by
  obtain ⟨ht, -⟩ := List.getElem?_eq_some_iff.1 h
  rw [List.getElem?_set, if_pos rfl, if_pos ht]

theorem get_set_other {l : List Task} {t i : Nat} {y : Task} (h : i ≠ t) : (l.set t y)[i]? = l[i]? := by
  rw [List.getElem?_set, if_neg (fun he => h he.symm)]

theorem client_set {cap : Nat} {l : List Task} {t : Nat} {x y : Task} {c : Client} (h : l[t]? = some x) (hk : y.key = x.key)
    (hs : y.sent = x.sent) (hd : x.phase = .done → y.phase = .done) (hg : y.phase = .done → (x.phase = .done → x.sent = x.given) → y.sent = y.given)
    (hc : ClientOk cap l c) : ClientOk cap (l.set t y) c := by
  obtain ⟨task, h1, h2, h3, h4, h5, h6, h7, h8⟩ := hc
  by_cases he : c.task = t
  · rw [he, h] at h1
    cases h1
    refine ⟨y, by rw [he]; exact get_set_self h, hk.trans h2, by rw [hs]; exact h3, by rw [hs]; exact h4, h5, h6, fun hx => ?_, fun hx => hg hx h8⟩
    exact ⟨hd (h7 hx).1, (h7 hx).2⟩
  · exact ⟨task, by rw [get_set_other he]; exact h1, h2, h3, h4, h5, h6, h7, h8⟩

theorem client_send {cap : Nat} {l : List Task} {t : Nat} {x y : Task} {m : Msg} {c : Client} (h : l[t]? = some x) (hk : y.key = x.key)
    (hs : y.sent = x.sent ++ [m]) (hd : x.phase ≠ .done) (hn : y.phase ≠ .done) (hc : ClientOk cap l c) :
    ClientOk cap (l.set t y) (if c.task = t then push cap m c else c) := by
  obtain ⟨task, h1, h2, h3, h4, h5, h6, h7, h8⟩ := hc
  by_cases he : c.task = t
  · rw [if_pos he]
    rw [he, h] at h1
    cases h1
    have hnew : c.ended = false := by
      cases hx : c.ended
      · rfl
      · exact absurd (h7 hx).1 hd
    have ht := told_push cap m c _ h4
    rw [← List.drop_append_of_le_length h3, ← hs] at ht
    have hlen : c.since ≤ y.sent.length := by rw [hs, List.length_append]; omega
    have e1 : (push cap m c).task = t := by unfold push; split <;> exact he
    have e2 : (push cap m c).key = c.key := by unfold push; split <;> rfl
    have e3 : (push cap m c).since = c.since := by unfold push; split <;> rfl
    have e4 : (push cap m c).ended = false := by unfold push; split <;> exact hnew
    refine ⟨y, by rw [e1]; exact get_set_self h, by rw [e2]; exact hk.trans h2, by rw [e3]; exact hlen, by rw [e3]; exact ht, ?_, ?_,
      fun hx => absurd hx (by rw [e4]; simp), fun hx => absurd hx hn⟩
    · unfold push
      split
      · simp only [List.length_append, List.length_singleton]; omega
      · simp only [List.length_drop, List.length_append, List.length_singleton]; omega
    · unfold push
      split
      · rename_i hlt
        intro hl
        have := h6 hl
        omega
      · intro _
        simp only [List.length_drop, List.length_append, List.length_singleton]; omega
  · rw [if_neg he]
    exact ⟨task, by rw [get_set_other he]; exact h1, h2, h3, h4, h5, h6, h7, h8⟩

theorem client_other {cap : Nat} {l : List Task} {t : Nat} {y : Task} {c : Client} (h : c.task ≠ t) (hc : ClientOk cap l c) :
    ClientOk cap (l.set t y) c := by
  obtain ⟨task, h1, h2⟩ := hc
  exact ⟨task, by rw [get_set_other h]; exact h1, h2⟩

theorem unheard {t : Nat} {cs : List Client} (h : ¬ heard t cs = true) : ∀ c ∈ cs, c.task ≠ t := by
  intro c hc he
  exact h (List.any_eq_true.2 ⟨c, hc, by simp [he]⟩)

theorem tasks_set {l : List Task} {t : Nat} {y : Task} (hl : ∀ task ∈ l, TaskOk task) (hy : TaskOk y) : ∀ task ∈ l.set t y, TaskOk task := by
  intro task hm
  rcases List.mem_or_eq_of_mem_set hm with hm | rfl
  · exact hl _ hm
  · exact hy

theorem map_set {l : List Task} {m : List (Nat × Nat)} {t : Nat} {x y : Task} (h : l[t]? = some x) (hk : y.key = x.key)
    (ho : Open y ↔ Open x) (hm : ∀ k t, (k, t) ∈ m ↔ ∃ task, l[t]? = some task ∧ task.key = k ∧ Open task) (k i : Nat) :
    (k, i) ∈ m ↔ ∃ task, (l.set t y)[i]? = some task ∧ task.key = k ∧ Open task := by
  rw [hm]
  by_cases he : i = t
  · subst he
    rw [get_set_self h, h]
    constructor
    · rintro ⟨_, hx, h1, h2⟩
      cases hx
      exact ⟨y, rfl, hk.trans h1, ho.2 h2⟩
    · rintro ⟨_, hx, h1, h2⟩
      cases hx
      exact ⟨x, rfl, hk.symm.trans h1, ho.1 h2⟩
  · rw [get_set_other he]

theorem map_remove {l : List Task} {m : List (Nat × Nat)} {t : Nat} {x y : Task} (h : l[t]? = some x)
    (hx : Open x) (hy : ¬ Open y) (hm : ∀ k t, (k, t) ∈ m ↔ ∃ task, l[t]? = some task ∧ task.key = k ∧ Open task)
    (hone : ∀ k t t', (k, t) ∈ m → (k, t') ∈ m → t = t') (k i : Nat) :
    (k, i) ∈ remove x.key m ↔ ∃ task, (l.set t y)[i]? = some task ∧ task.key = k ∧ Open task := by
  rw [mem_remove]
  by_cases he : i = t
  · subst he
    rw [get_set_self h]
    constructor
    · rintro ⟨h1, h2⟩
      obtain ⟨_, h3, h4, -⟩ := (hm _ _).1 h1
      rw [h] at h3
      cases h3
      exact absurd h4.symm h2
    · rintro ⟨_, h1, -, h2⟩
      cases h1
      exact absurd h2 hy
  · rw [get_set_other he, ← hm]
    constructor
    · exact fun h => h.1
    · intro h1
      refine ⟨h1, fun hk => he ?_⟩
      simp only at hk
      subst hk
      exact hone _ _ _ h1 ((hm _ _).2 ⟨x, h, rfl, hx⟩)

theorem after_cases (l : List Nat) : after l = .waiting ∨ (l ≠ [] ∧ after l = .sending l) := by
  cases l with
  | nil => exact .inl rfl
  | cons a l => exact .inr ⟨by simp, rfl⟩

theorem after_done (l : List Nat) : after l ≠ .done := by
  rcases after_cases l with h | ⟨_, h⟩ <;> rw [h] <;> simp

theorem after_ok {task : Task} {l : List Nat} (hp : task.phase = after l) (hd : task.drops = 0)
    (hg : task.sent ++ l.map .item = task.given) : TaskOk task := by
  unfold TaskOk
  cases l with
  | nil =>
    have h : task.phase = .waiting := hp
    rw [h]
    exact ⟨by simp, by simp, hd, fun _ => hg⟩
  | cons a l =>
    have h : task.phase = .sending (a :: l) := hp
    rw [h]
    exact ⟨by simp, by simp, hd, fun _ => hg⟩

theorem after_open {task : Task} {l : List Nat} (hp : task.phase = after l) : Open task ↔ task.closed = false := by
  unfold Open
  rcases after_cases l with h | ⟨_, h⟩ <;> rw [hp, h] <;> simp

theorem inv_join {cap : Nat} {s : State} (h : Inv cap s) (name ext key : Nat) : Inv cap (join name ext key s) := by
  unfold join
  cases hf : find key s.map with
  | some t =>
    obtain ⟨task, h1, h2, h3⟩ := (h.map key t).1 (find_some hf)
    simp only [h1]
    refine ⟨h.map, h.one, h.tasks, fun c hc => ?_⟩
    rcases List.mem_append.1 hc with hc | hc
    · exact h.clients c hc
    · cases List.mem_singleton.1 hc
      refine ⟨task, h1, h2, Nat.le_refl _, ?_, Nat.zero_le _, fun hx => (nomatch hx), fun hx => (nomatch hx), fun hx => absurd hx h3.2⟩
      simp only [List.drop_length]
      exact .nil
  | none =>
    have hno := find_none hf
    have hlt : ∀ {i : Nat} {task : Task}, s.tasks[i]? = some task → i < s.tasks.length := fun hi => (List.getElem?_eq_some_iff.1 hi).1
    have old : ∀ {i : Nat} {task : Task}, s.tasks[i]? = some task → (s.tasks ++ [{ key := key, ext := ext }])[i]? = some task := by
      intro i task hi
      rw [List.getElem?_append_left (hlt hi)]
      exact hi
    have new : (s.tasks ++ [({ key := key, ext := ext } : Task)])[s.tasks.length]? = some { key := key, ext := ext } := by simp
    simp only
    refine ⟨fun k t => ?_, fun k t t' h1 h2 => ?_, fun task hm => ?_, fun c hc => ?_⟩
    · constructor
      · intro hm
        rcases List.mem_cons.1 hm with he | hm
        · cases he
          exact ⟨_, new, rfl, rfl, by simp⟩
        · obtain ⟨task, h1, h2⟩ := (h.map k t).1 hm
          exact ⟨task, old h1, h2⟩
      · rintro ⟨task, h1, h2, h3⟩
        by_cases he : t < s.tasks.length
        · rw [List.getElem?_append_left he] at h1
          exact List.mem_cons_of_mem _ ((h.map k t).2 ⟨task, h1, h2, h3⟩)
        · have hle : t < (s.tasks ++ [({ key := key, ext := ext } : Task)]).length := (List.getElem?_eq_some_iff.1 h1).1
          rw [List.length_append, List.length_singleton] at hle
          have : t = s.tasks.length := by omega
          subst this
          rw [new] at h1
          cases h1
          cases h2
          exact List.mem_cons_self
    · rcases List.mem_cons.1 h1 with h1 | h1
      · cases h1
        rcases List.mem_cons.1 h2 with h2 | h2
        · cases h2; rfl
        · exact absurd rfl (hno _ h2)
      · rcases List.mem_cons.1 h2 with h2 | h2
        · cases h2
          exact absurd rfl (hno _ h1)
        · exact h.one k t t' h1 h2
    · rcases List.mem_append.1 hm with hm | hm
      · exact h.tasks task hm
      · cases List.mem_singleton.1 hm
        exact ⟨by simp, by simp, rfl, fun _ => rfl⟩
    · rcases List.mem_append.1 hc with hc | hc
      · obtain ⟨task, h1, h2⟩ := h.clients c hc
        exact ⟨task, old h1, h2⟩
      · cases List.mem_singleton.1 hc
        exact ⟨_, new, rfl, Nat.le_refl _, .nil, Nat.zero_le _, fun hx => (nomatch hx), fun hx => (nomatch hx), fun hx => (nomatch hx)⟩

theorem recv_ok {cap : Nat} {s : State} {c : Client} (h : ClientOk cap s.tasks c) : ClientOk cap s.tasks (recv s c) := by
  obtain ⟨task, h1, h2, h3, h4, h5, h6, h7, h8⟩ := h
  unfold recv
  split
  · rename_i hl
    refine ⟨task, h1, h2, h3, ?_, h5, fun hx => (nomatch hx), fun hx => ?_, h8⟩
    · unfold Client.out at h4 ⊢
      simpa [hl] using h4
    · have := (h7 hx).2.1
      rw [hl] at this
      cases this
  · rename_i hl
    have hl : c.lagged = false := by simpa using hl
    split
    · rename_i m ms hp
      rw [hp] at h5
      refine ⟨task, h1, h2, h3, ?_, Nat.le_of_succ_le h5, fun hx => ?_, fun hx => ?_, h8⟩
      · unfold Client.out at h4 ⊢
        simpa [hl, hp] using h4
      · simp only [hl] at hx
        cases hx
      · have := (h7 hx).2.2
        rw [hp] at this
        cases this
    · rename_i hp
      split
      · rename_i hd
        refine ⟨task, h1, h2, h3, h4, h5, h6, fun _ => ⟨?_, hl, hp⟩, h8⟩
        have := hd.1
        rw [h1] at this
        simpa using this
      · exact ⟨task, h1, h2, h3, h4, h5, h6, h7, h8⟩

theorem inv_next {cap : Nat} {s : State} (h : Inv cap s) {t : Nat} {task : Task} (ht : s.tasks[t]? = some task) (r : Next) :
    Inv cap { s with tasks := s.tasks.set t (next r task) } := by
  have hok := h.tasks task (List.mem_of_getElem? ht)
  have hk : (next r task).key = task.key := by unfold next; split <;> rfl
  have hs : (next r task).sent = task.sent := by unfold next; split <;> rfl
  have hd : task.phase = .done → (next r task).phase = .done := by
    intro hd
    unfold next
    rw [hd]
    exact hd
  have hg : (next r task).phase = .done → (task.phase = .done → task.sent = task.given) → (next r task).sent = (next r task).given := by
    intro h1 h2
    unfold next at h1 ⊢
    split at h1
    · exact absurd h1 (after_done _)
    · cases h1
    · cases h1
    · exact h2 h1
  have key : TaskOk (next r task) ∧ (Open (next r task) ↔ Open task) := by
    unfold next
    split
    · rename_i l hp
      refine ⟨after_ok (l := l) rfl ?_ ?_, ?_⟩
      · rw [hok.2.2.1, hp]; rfl
      · show task.sent ++ _ = task.given ++ _
        rw [← hok.2.2.2 (by rw [hp]; simp), hp]
        simp [Phase.left]
      · rw [after_open (l := l) rfl]
        unfold Open
        rw [hp]
        simp
    · rename_i hp
      refine ⟨⟨by simp, by simp, ?_, fun _ => ?_⟩, ?_⟩
      · show task.drops + 1 = _
        rw [hok.2.2.1, hp]; rfl
      · have := hok.2.2.2 (by rw [hp]; simp)
        rw [hp] at this
        simpa [Phase.left] using this
      · unfold Open
        rw [hp]
        simp
    · rename_i e hp
      refine ⟨⟨by simp, by simp, ?_, fun _ => ?_⟩, ?_⟩
      · show task.drops + 1 = _
        rw [hok.2.2.1, hp]; rfl
      · have := hok.2.2.2 (by rw [hp]; simp)
        rw [hp] at this
        simpa [Phase.left] using this
      · unfold Open
        rw [hp]
        simp
    · exact ⟨hok, Iff.rfl⟩
  exact ⟨map_set ht hk key.2 h.map, h.one, tasks_set h.tasks key.1, fun c hc => client_set ht hk hs hd hg (h.clients c hc)⟩

theorem inv_send {cap : Nat} {s : State} (h : Inv cap s) (t : Nat) : Inv cap (send cap t s) := by
  unfold send
  cases ht : s.tasks[t]? with
  | none => exact h
  | some task =>
    have hok := h.tasks task (List.mem_of_getElem? ht)
    simp only
    split
    · rename_i i rest hp
      have h0 : task.drops = 0 := by rw [hok.2.2.1, hp]; rfl
      have hg := hok.2.2.2 (by rw [hp]; simp)
      rw [hp] at hg
      split
      · refine ⟨map_set ht rfl ?_ h.map, h.one, tasks_set h.tasks (after_ok (l := rest) rfl h0 (by simpa [Phase.left] using hg)), fun c hc => ?_⟩
        · rw [after_open (l := rest) rfl]
          unfold Open
          rw [hp]
          simp
        · obtain ⟨c', hc', rfl⟩ := List.mem_map.1 hc
          exact client_send ht rfl rfl (by rw [hp]; simp) (after_done _) (h.clients c' hc')
      · rename_i hun
        split
        · rename_i hcl
          refine ⟨map_set ht rfl ?_ h.map, h.one, tasks_set h.tasks ⟨by simp, by simp, ?_, by simp⟩, fun c hc =>
            client_other (unheard hun c hc) (h.clients c hc)⟩
          · unfold Open
            rw [hcl]
            simp
          · show task.drops + 1 = _
            rw [h0]; rfl
        · rename_i hcl
          have hcl : task.closed = false := by simpa using hcl
          refine ⟨map_set ht rfl ?_ h.map, h.one, tasks_set h.tasks ⟨by simp, fun _ _ => hcl, h0, fun _ => by simpa [Phase.left] using hg⟩,
            fun c hc => client_other (unheard hun c hc) (h.clients c hc)⟩
          unfold Open
          rw [hp]
          simp
    · rename_i e hp
      refine ⟨map_set ht rfl ?_ h.map, h.one, tasks_set h.tasks ⟨by simp, by simp, ?_, fun _ => ?_⟩, fun c hc => ?_⟩
      · unfold Open
        rw [hp]
        simp
      · show task.drops = _
        rw [hok.2.2.1, hp]; rfl
      · have := hok.2.2.2 (by rw [hp]; simp)
        rw [hp] at this
        simpa [Phase.left] using this
      · obtain ⟨c', hc', rfl⟩ := List.mem_map.1 hc
        exact client_send ht rfl rfl (by rw [hp]; simp) (by simp) (h.clients c' hc')
    · exact h

theorem one_remove {m : List (Nat × Nat)} (h : ∀ k t t', (k, t) ∈ m → (k, t') ∈ m → t = t') (key : Nat) :
    ∀ k t t', (k, t) ∈ remove key m → (k, t') ∈ remove key m → t = t' :=
  fun k t t' h1 h2 => h k t t' ((mem_remove _ _ _).1 h1).1 ((mem_remove _ _ _).1 h2).1

theorem inv_unregister {cap : Nat} {s : State} (h : Inv cap s) (t : Nat) : Inv cap (unregister t s) := by
  unfold unregister
  cases ht : s.tasks[t]? with
  | none => exact h
  | some task =>
    have hok := h.tasks task (List.mem_of_getElem? ht)
    simp only
    split
    · rename_i rest hp
      have h0 : task.drops = 0 := by rw [hok.2.2.1, hp]; rfl
      have hg := hok.2.2.2 (by rw [hp]; simp)
      rw [hp] at hg
      refine ⟨map_remove ht ⟨hok.2.1 _ hp, by rw [hp]; simp⟩ (fun ho => by cases ho.1) h.map h.one, one_remove h.one _,
        tasks_set h.tasks (after_ok (l := rest) rfl h0 hg), fun c hc =>
          client_set ht rfl rfl (fun hd => by rw [hp] at hd; cases hd) (fun hd => absurd hd (after_done _)) (h.clients c hc)⟩
    · rename_i hp
      have h0 : task.drops = 1 := by rw [hok.2.2.1, hp]; rfl
      have hg : task.sent = task.given := by
        have := hok.2.2.2 (by rw [hp]; simp)
        rw [hp] at this
        simpa [Phase.left] using this
      have hc := fun c hc => client_set (cap := cap) (c := c) (y := { task with phase := .done }) ht rfl rfl (fun _ => rfl) (fun _ _ => hg)
        (h.clients c hc)
      have htasks := tasks_set (t := t) (y := { task with phase := .done }) h.tasks ⟨by simp, by simp, h0, fun hd => absurd rfl hd⟩
      cases hcl : task.closed with
      | true =>
        rw [hcl] at hc htasks
        refine ⟨map_set ht rfl ?_ h.map, h.one, htasks, hc⟩
        unfold Open
        simp [hcl]
      | false =>
        rw [hcl] at hc htasks
        exact ⟨map_remove ht ⟨hcl, by rw [hp]; simp⟩ (fun ho => ho.2 rfl) h.map h.one, one_remove h.one _, htasks, hc⟩
    · exact h

theorem inv_step {cap : Nat} {s : State} (h : Inv cap s) (a : Action) : Inv cap (step cap s a) := by
  cases a with
  | join name ext key => exact inv_join h name ext key
  | leave name => exact ⟨h.map, h.one, h.tasks, fun c hc => h.clients c (List.mem_filter.1 hc).1⟩
  | recv name =>
    refine ⟨h.map, h.one, h.tasks, fun c hc => ?_⟩
    obtain ⟨c', hc', rfl⟩ := List.mem_map.1 hc
    split
    · exact recv_ok (h.clients c' hc')
    · exact h.clients c' hc'
  | next t r =>
    unfold step
    simp only
    cases ht : s.tasks[t]? with
    | none => exact h
    | some task => exact inv_next h ht r
  | send t => exact inv_send h t
  | unregister t => exact inv_unregister h t

theorem inv_run {cap : Nat} (acts : List Action) : ∀ {s : State}, Inv cap s → Inv cap (run cap acts s) := by
  induction acts with
  | nil => exact fun h => h
  | cons a acts ih => exact fun h => ih (inv_step h a)

theorem inv_init (cap : Nat) : Inv cap {} :=
  ⟨fun k t => by simp, fun _ _ _ h => (nomatch h), fun _ h => (nomatch h), fun _ h => (nomatch h)⟩

end Verif.SubDedup
