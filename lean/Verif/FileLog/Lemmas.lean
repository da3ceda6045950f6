import Verif.FileLog.Spec
namespace Verif.FileLog

theorem pending_append (a b : List Msg) : pending (a ++ b) = pending a ++ pending b := by
  induction a with
  | nil => rfl
  | cons m a ih => cases m <;> simp [pending, ih]

structure Inv (l : Logger) : Prop where
  sub : (l.file ++ pending l.queue).Sublist l.sent
  len : l.file.length + (pending l.queue).length + l.lost.length = l.sent.length
  flushed : l.flushed ≤ l.file.length
  calls : ∀ c, c < l.calls → c ∈ l.returned ∨ Msg.shutdown c ∈ l.queue
  lostOf : ∀ d, d ∈ l.lost → d ∈ l.sent

theorem inv_init (r : Nat) : Inv { rotate := r } :=
  ⟨List.Sublist.refl _, rfl, Nat.le_refl _, fun _ h => absurd h (Nat.not_lt_zero _), fun _ h => by cases h⟩

theorem inv_act {l : Logger} (i : Inv l) (a : Act) : Inv (l.act a) := by
  obtain ⟨sub, len, fl, calls, lo⟩ := i
  cases a with
  | clone => simp only [Logger.act]; split <;> exact ⟨sub, len, fl, calls, lo⟩
  | forget => exact ⟨sub, len, fl, calls, lo⟩
  | send d =>
    simp only [Logger.act]
    split
    · exact ⟨sub, len, fl, calls, lo⟩
    · refine ⟨?_, ?_, fl, ?_, ?_⟩
      · simp only [Logger.send, pending_append, pending]
        rw [← List.append_assoc]
        exact sub.append (List.Sublist.refl _)
      · simp only [Logger.send, pending_append, pending, List.length_append, List.length_cons, List.length_nil]
        omega
      · intro c hc
        rcases calls c hc with h | h
        · exact .inl h
        · exact .inr (by simp [Logger.send, h])
      · intro x hx
        exact List.mem_append_left _ (lo x hx)
  | shutdown =>
    simp only [Logger.act]
    split
    · exact ⟨sub, len, fl, calls, lo⟩
    · simp only [Logger.shutdown]
      split
      · refine ⟨sub, len, fl, ?_, lo⟩
        intro c hc
        have hc : c < l.calls + 1 := hc
        by_cases h : c = l.calls
        · exact .inl (by simp [h])
        · rcases calls c (by omega) with h | h
          · exact .inl (by simp [h])
          · exact .inr h
      · refine ⟨?_, ?_, fl, ?_, lo⟩
        · simpa [pending_append, pending] using sub
        · simpa [pending_append, pending] using len
        · intro c hc
          have hc : c < l.calls + 1 := hc
          by_cases h : c = l.calls
          · exact .inr (by simp [h])
          · rcases calls c (by omega) with h | h
            · exact .inl h
            · exact .inr (by simp [h])
  | work ok =>
    simp only [Logger.act, Logger.work]
    split
    · exact ⟨sub, len, fl, calls, lo⟩
    · rename_i d q hq
      rw [hq] at sub len
      simp only [pending, List.length_cons] at sub len
      have hcalls : ∀ c, c < l.calls → c ∈ l.returned ∨ Msg.shutdown c ∈ q := by
        intro c hc
        rcases calls c hc with h | h
        · exact .inl h
        · rw [hq] at h
          exact .inr (by simpa using h)
      split
      · refine ⟨by simpa using sub, ?_, ?_, hcalls, lo⟩
        · simp only [List.length_append, List.length_cons, List.length_nil]; omega
        · simp only [List.length_append, List.length_cons, List.length_nil]; omega
      · refine ⟨?_, ?_, fl, hcalls, ?_⟩
        · exact ((List.Sublist.refl l.file).append (List.sublist_cons_self d (pending q))).trans sub
        · simp only [List.length_append, List.length_cons, List.length_nil]; omega
        · intro x hx
          rcases List.mem_append.mp hx with h | h
          · exact lo x h
          · have : x = d := by simpa using h
            subst this
            exact sub.subset (by simp)
    · rename_i c0 q hq
      rw [hq] at sub len
      simp only [pending] at sub len
      have hcalls : ∀ c, c < l.calls → c ∈ l.returned ++ [c0] ∨ Msg.shutdown c ∈ q := by
        intro c hc
        rcases calls c hc with h | h
        · exact .inl (by simp [h])
        · rw [hq] at h
          rcases List.mem_cons.mp h with h | h
          · injection h with h
            exact .inl (by simp [h])
          · exact .inr h
      split
      · exact ⟨sub, len, Nat.le_refl _, hcalls, lo⟩
      · exact ⟨sub, len, fl, hcalls, lo⟩

theorem inv_run {l : Logger} (i : Inv l) (acts : List Act) : Inv (Logger.run acts l) := by
  induction acts generalizing l with
  | nil => exact i
  | cons a acts ih => exact ih (inv_act i a)

theorem lives_inv {l : Logger} (h : Lives l) : Inv l := by
  obtain ⟨r, acts, rfl⟩ := h
  exact inv_run (inv_init r) acts

/-- What holds of call `c` of `graceful_shutdown` made after `n` lines were sent. -/
structure After (c n : Nat) (l : Logger) : Prop where
  old : c < l.calls
  waits : ∀ q1 q2, l.queue = q1 ++ .shutdown c :: q2 → n ≤ l.file.length + l.lost.length + (pending q1).length
  done : c ∈ l.returned → l.flushFailed = true ∨ n ≤ l.flushed + l.lost.length
  written : c ∈ l.returned → n ≤ l.file.length + l.lost.length

theorem snoc_split {α : Type} {q q1 q2 : List α} {m x : α} (h : q ++ [m] = q1 ++ x :: q2) (hne : m ≠ x) :
    ∃ q3, q = q1 ++ x :: q3 := by
  induction q generalizing q1 with
  | nil =>
    cases q1 with
    | nil => simp at h; exact absurd h.1 hne
    | cons y q1 => simp at h
  | cons y q ih =>
    cases q1 with
    | nil => simp at h; exact ⟨q, by simp [h.1]⟩
    | cons z q1 =>
      simp only [List.cons_append, List.cons.injEq] at h
      obtain ⟨q3, h3⟩ := ih h.2
      exact ⟨q3, by simp [h.1, h3]⟩

theorem after_act {c n : Nat} {l : Logger} (i : Inv l) (r : After c n l) (a : Act) : After c n (l.act a) := by
  have fl := i.flushed
  obtain ⟨old, waits, done, wr⟩ := r
  cases a with
  | clone => simp only [Logger.act]; split <;> exact ⟨old, waits, done, wr⟩
  | forget => exact ⟨old, waits, done, wr⟩
  | send d =>
    simp only [Logger.act]
    split
    · exact ⟨old, waits, done, wr⟩
    · refine ⟨old, ?_, done, wr⟩
      intro q1 q2 hq
      obtain ⟨q3, h3⟩ := snoc_split hq (by simp)
      exact waits q1 q3 h3
  | shutdown =>
    simp only [Logger.act]
    split
    · exact ⟨old, waits, done, wr⟩
    · simp only [Logger.shutdown]
      have hne : c ≠ l.calls := by omega
      split
      · refine ⟨Nat.lt_succ_of_lt old, waits, ?_, ?_⟩
        · intro h
          exact done (by simpa [hne] using h)
        · intro h
          exact wr (by simpa [hne] using h)
      · refine ⟨Nat.lt_succ_of_lt old, ?_, done, wr⟩
        intro q1 q2 hq
        obtain ⟨q3, h3⟩ := snoc_split hq (by intro h; injection h with h; exact hne h.symm)
        exact waits q1 q3 h3
  | work ok =>
    simp only [Logger.act, Logger.work]
    split
    · exact ⟨old, waits, done, wr⟩
    · rename_i d q hq
      have hw : ∀ q1 q2, q = q1 ++ .shutdown c :: q2 → n ≤ l.file.length + l.lost.length + ((pending q1).length + 1) := by
        intro q1 q2 h
        have := waits (.data d :: q1) q2 (by rw [hq, h]; rfl)
        simpa [pending] using this
      split
      · refine ⟨old, ?_, done, ?_⟩
        · intro q1 q2 h
          have := hw q1 q2 h
          simp only [List.length_append, List.length_cons, List.length_nil]; omega
        · intro h
          have := wr h
          simp only [List.length_append, List.length_cons, List.length_nil]; omega
      · refine ⟨old, ?_, ?_, ?_⟩
        · intro q1 q2 h
          have := hw q1 q2 h
          simp only [List.length_append, List.length_cons, List.length_nil]; omega
        · intro h
          rcases done h with h | h
          · exact .inl h
          · refine .inr ?_
            simp only [List.length_append, List.length_cons, List.length_nil]; omega
        · intro h
          have := wr h
          simp only [List.length_append, List.length_cons, List.length_nil]; omega
    · rename_i c0 q hq
      have hw : ∀ q1 q2, q = q1 ++ .shutdown c :: q2 → n ≤ l.file.length + l.lost.length + (pending q1).length := by
        intro q1 q2 h
        have := waits (.shutdown c0 :: q1) q2 (by rw [hq, h]; rfl)
        simpa [pending] using this
      have hwr : c ∈ l.returned ++ [c0] → n ≤ l.file.length + l.lost.length := by
        intro h
        rcases List.mem_append.mp h with h | h
        · exact wr h
        · have : c = c0 := by simpa using h
          subst this
          simpa [pending] using waits [] q hq
      split
      · exact ⟨old, hw, fun h => .inr (hwr h), hwr⟩
      · exact ⟨old, hw, fun _ => .inl rfl, hwr⟩

theorem after_run {c n : Nat} {l : Logger} (i : Inv l) (r : After c n l) (acts : List Act) : After c n (Logger.run acts l) := by
  induction acts generalizing l with
  | nil => exact r
  | cons a acts ih => exact ih (inv_act i a) (after_act i r a)

/-- Calls which returned or wait were made. -/
structure Old (l : Logger) : Prop where
  ret : ∀ c, c ∈ l.returned → c < l.calls
  que : ∀ c, Msg.shutdown c ∈ l.queue → c < l.calls

theorem old_act {l : Logger} (o : Old l) (a : Act) : Old (l.act a) := by
  obtain ⟨ret, que⟩ := o
  cases a with
  | clone => simp only [Logger.act]; split <;> exact ⟨ret, que⟩
  | forget => exact ⟨ret, que⟩
  | send d =>
    simp only [Logger.act]
    split
    · exact ⟨ret, que⟩
    · refine ⟨ret, ?_⟩
      intro c h
      exact que c (by simpa [Logger.send] using h)
  | shutdown =>
    simp only [Logger.act]
    split
    · exact ⟨ret, que⟩
    · simp only [Logger.shutdown]
      split
      · refine ⟨?_, fun c h => Nat.lt_succ_of_lt (que c h)⟩
        intro c h
        rcases List.mem_append.mp h with h | h
        · exact Nat.lt_succ_of_lt (ret c h)
        · have : c = l.calls := by simpa using h
          simp [this]
      · refine ⟨fun c h => Nat.lt_succ_of_lt (ret c h), ?_⟩
        intro c h
        rcases List.mem_append.mp h with h | h
        · exact Nat.lt_succ_of_lt (que c h)
        · have : c = l.calls := by simpa using h
          simp [this]
  | work ok =>
    simp only [Logger.act, Logger.work]
    split
    · exact ⟨ret, que⟩
    · rename_i d q hq
      rw [hq] at que
      split <;> exact ⟨ret, fun c h => que c (List.mem_cons_of_mem _ h)⟩
    · rename_i c0 q hq
      rw [hq] at que
      have hr : ∀ c, c ∈ l.returned ++ [c0] → c < l.calls := by
        intro c h
        rcases List.mem_append.mp h with h | h
        · exact ret c h
        · have : c = c0 := by simpa using h
          exact que c (by simp [this])
      split <;> exact ⟨hr, fun c h => que c (List.mem_cons_of_mem _ h)⟩

theorem old_run {l : Logger} (o : Old l) (acts : List Act) : Old (Logger.run acts l) := by
  induction acts generalizing l with
  | nil => exact o
  | cons a acts ih => exact ih (old_act o a)

theorem lives_old {l : Logger} (h : Lives l) : Old l := by
  obtain ⟨r, acts, rfl⟩ := h
  exact old_run ⟨fun _ h => (by cases h), fun _ h => (by cases h)⟩ acts

theorem after_call {l : Logger} (o : Old l) (i : Inv l) (h1 : l.refs = 1) : After l.calls l.sent.length (l.act .shutdown) := by
  have e : l.act .shutdown = { l with calls := l.calls + 1, queue := l.queue ++ [.shutdown l.calls] } := by
    simp [Logger.act, Logger.shutdown, h1]
  rw [e]
  refine ⟨Nat.lt_succ_self _, ?_, fun h => absurd (o.ret _ h) (Nat.lt_irrefl _), fun h => absurd (o.ret _ h) (Nat.lt_irrefl _)⟩
  intro q1 q2 hq
  have hq : l.queue ++ [.shutdown l.calls] = q1 ++ .shutdown l.calls :: q2 := hq
  have hq2 : q1 = l.queue := by
    have : ∀ (q q1 : List Msg), (∀ c, Msg.shutdown c ∈ q → c < l.calls) →
        q ++ [.shutdown l.calls] = q1 ++ .shutdown l.calls :: q2 → q1 = q := by
      intro q
      induction q with
      | nil =>
        intro q1 _ h
        cases q1 with
        | nil => rfl
        | cons y q1 => simp at h
      | cons y q ih =>
        intro q1 hm h
        cases q1 with
        | nil =>
          simp at h
          exact absurd (hm l.calls (by simp [h.1])) (Nat.lt_irrefl _)
        | cons z q1 =>
          simp only [List.cons_append, List.cons.injEq] at h
          rw [ih q1 (fun c hc => hm c (List.mem_cons_of_mem _ hc)) h.2, h.1]
    exact this _ _ o.que hq
  subst hq2
  have := i.len
  show l.sent.length ≤ l.file.length + l.lost.length + (pending l.queue).length
  omega

theorem work_queue (l : Logger) (ok : Bool) : (l.act (.work ok)).queue = l.queue.tail := by
  simp only [Logger.act, Logger.work]
  split
  · rename_i h; simp [h]
  · rename_i h; split <;> simp [h]
  · rename_i h; split <;> simp [h]

/-! The host. -/

def uses (id : Nat) (t : List (Nat × Nat)) : Nat := (t.filter (fun e => e.2 == id)).length

structure HInv (h : Host) : Prop where
  ids : ∀ p id, (p, id) ∈ h.paths → id < h.next
  one : ∀ p q id, (p, id) ∈ h.paths → (q, id) ∈ h.paths → p = q
  fn : ∀ p i j, (p, i) ∈ h.paths → (p, j) ∈ h.paths → i = j
  refs : ∀ p id, (p, id) ∈ h.paths → ∃ l, h.logs id = some l ∧ Lives l ∧ l.refs = 1 + uses id h.table
  tab : ∀ r id, (r, id) ∈ h.table → ∃ p, (p, id) ∈ h.paths
  names : ∀ r id, (r, id) ∈ h.table → r < h.nextRes
  uniq : ∀ r i j, (r, i) ∈ h.table → (r, j) ∈ h.table → i = j
  nodup : (h.table.map (·.1)).Pairwise (· ≠ ·)

theorem find_mem {k v : Nat} {xs : List (Nat × Nat)} (h : find k xs = some v) : (k, v) ∈ xs := by
  induction xs with
  | nil => simp [find] at h
  | cons x xs ih =>
    obtain ⟨a, b⟩ := x
    simp only [find] at h
    split at h
    · rename_i e
      injection h with h
      simp [e, h]
    · exact List.mem_cons_of_mem _ (ih h)

theorem find_none {k v : Nat} {xs : List (Nat × Nat)} (h : find k xs = none) : (k, v) ∉ xs := by
  induction xs with
  | nil => simp
  | cons x xs ih =>
    obtain ⟨a, b⟩ := x
    simp only [find] at h
    split at h
    · cases h
    · rename_i e
      intro hm
      rcases List.mem_cons.mp hm with hm | hm
      · injection hm with h1 _
        exact e h1.symm
      · exact ih h hm

theorem lives_act {l : Logger} (h : Lives l) (a : Act) : Lives (l.act a) := by
  obtain ⟨r, acts, rfl⟩ := h
  exact ⟨r, acts ++ [a], by simp [Logger.run, List.foldl_append]⟩

theorem refs_send (l : Logger) (d : Nat) : (l.act (.send d)).refs = l.refs := by
  simp only [Logger.act]; split <;> rfl

theorem refs_shutdown (l : Logger) : (l.act .shutdown).refs = l.refs := by
  simp only [Logger.act, Logger.shutdown]; split
  · rfl
  · split <;> rfl

theorem refs_work (l : Logger) (ok : Bool) : (l.act (.work ok)).refs = l.refs := by
  simp only [Logger.act, Logger.work]
  split
  · rfl
  · split <;> rfl
  · split <;> rfl

theorem on_keep {h : Host} (i : HInv h) (id : Nat) (a : Act) (hr : ∀ l : Logger, (l.act a).refs = l.refs) : HInv (h.on id a) := by
  obtain ⟨ids, one, fn, refs, tab, names, uniq, nodup⟩ := i
  refine ⟨ids, one, fn, ?_, tab, names, uniq, nodup⟩
  intro p j hp
  obtain ⟨l, hl, lv, hc⟩ := refs p j hp
  by_cases e : j = id
  · subst e
    refine ⟨l.act a, by simp [Host.on, hl], lives_act lv a, ?_⟩
    rw [hr]; exact hc
  · exact ⟨l, by simp [Host.on, e, hl], lv, hc⟩

theorem uses_cons (id r j : Nat) (t : List (Nat × Nat)) : uses id ((r, j) :: t) = (if j = id then 1 else 0) + uses id t := by
  unfold uses
  by_cases e : j = id
  · simp [e]; omega
  · simp [e]

theorem clone_push {h : Host} (i : HInv h) {p id : Nat} (hp : (p, id) ∈ h.paths) : HInv ((h.on id .clone).push id) := by
  obtain ⟨ids, one, fn, refs, tab, names, uniq, nodup⟩ := i
  refine ⟨ids, one, fn, ?_, ?_, ?_, ?_, ?_⟩
  · intro q j hq
    obtain ⟨l, hl, lv, hc⟩ := refs q j hq
    by_cases e : j = id
    · subst e
      refine ⟨l.act .clone, by simp [Host.push, Host.on, hl], lives_act lv _, ?_⟩
      have : l.refs ≠ 0 := by omega
      simp only [Host.push, Host.on, uses_cons, Logger.act, this, if_false, if_true]
      omega
    · refine ⟨l, by simp [Host.push, Host.on, e, hl], lv, ?_⟩
      have e' : id ≠ j := fun h => e h.symm
      simp only [Host.push, Host.on, uses_cons, e', if_false]
      omega
  · intro r j hr
    rcases List.mem_cons.mp hr with hr | hr
    · injection hr with _ h2
      exact ⟨p, h2 ▸ hp⟩
    · exact tab r j hr
  · intro r j hr
    rcases List.mem_cons.mp hr with hr | hr
    · injection hr with h1 _
      exact h1 ▸ Nat.lt_succ_self _
    · exact Nat.lt_succ_of_lt (names r j hr)
  · intro r a b ha hb
    rcases List.mem_cons.mp ha with ha | ha <;> rcases List.mem_cons.mp hb with hb | hb
    · injection ha with _ h1
      injection hb with _ h2
      exact h1.trans h2.symm
    · injection ha with h1 _
      have := names r b hb
      exact absurd h1 (Nat.ne_of_lt this)
    · injection hb with h1 _
      have := names r a ha
      exact absurd h1 (Nat.ne_of_lt this)
    · exact uniq r a b ha hb
  · show ((h.nextRes :: h.table.map (·.1))).Pairwise (· ≠ ·)
    refine List.pairwise_cons.mpr ⟨?_, nodup⟩
    intro r hr
    obtain ⟨⟨r', j⟩, hm, rfl⟩ := List.mem_map.mp hr
    exact (Nat.ne_of_lt (names r' j hm)).symm

theorem uses_zero {id : Nat} {t : List (Nat × Nat)} (h : ∀ r, (r, id) ∉ t) : uses id t = 0 := by
  unfold uses
  rw [List.length_eq_zero_iff, List.filter_eq_nil_iff]
  intro ⟨r, j⟩ hm he
  have : j = id := by simpa using he
  exact h r (this ▸ hm)

theorem uses_remove {t : List (Nat × Nat)} (nd : (t.map (·.1)).Pairwise (· ≠ ·)) {res id : Nat} (hm : (res, id) ∈ t) (j : Nat) :
    uses j t = (if id = j then 1 else 0) + uses j (t.filter (fun e => e.1 != res)) := by
  induction t with
  | nil => cases hm
  | cons x t ih =>
    obtain ⟨r, i⟩ := x
    have nd' := List.pairwise_cons.mp nd
    by_cases e : r = res
    · subst e
      have hi : i = id := by
        rcases List.mem_cons.mp hm with hm | hm
        · injection hm with _ h; exact h.symm
        · exact absurd rfl (nd'.1 r (List.mem_map.mpr ⟨(r, id), hm, rfl⟩))
      have hf : t.filter (fun e => e.1 != r) = t := by
        rw [List.filter_eq_self]
        intro ⟨a, b⟩ ha
        have := nd'.1 a (List.mem_map.mpr ⟨(a, b), ha, rfl⟩)
        simpa using fun h => this h.symm
      rw [List.filter_cons]
      simp only [bne_self_eq_false, Bool.false_eq_true, if_false, hf, uses_cons, hi]
    · have hm' : (res, id) ∈ t := by
        rcases List.mem_cons.mp hm with hm | hm
        · injection hm with h _; exact absurd h.symm e
        · exact hm
      have he : (r != res) = true := by simpa using e
      rw [List.filter_cons]
      simp only [he, if_true, uses_cons]
      rw [ih nd'.2 hm']
      omega

theorem hinv_step {h : Host} (i : HInv h) (c : Call) : HInv (h.step c) := by
  cases c with
  | log r d =>
    simp only [Host.step, Host.log]
    split
    · exact on_keep i _ _ (fun l => refs_send l d)
    · exact i
  | drop r =>
    simp only [Host.step, Host.drop]
    split
    · exact on_keep i _ _ refs_shutdown
    · exact i
  | work id ok => exact on_keep i _ _ (fun l => refs_work l ok)
  | free r =>
    simp only [Host.step, Host.free]
    split
    · rename_i id hf
      have hm := find_mem hf
      obtain ⟨ids, one, fn, refs, tab, names, uniq, nodup⟩ := i
      refine ⟨ids, one, fn, ?_, ?_, ?_, ?_, ?_⟩
      · intro p j hp
        obtain ⟨l, hl, lv, hc⟩ := refs p j hp
        have hu := uses_remove nodup hm j
        by_cases e : j = id
        · subst e
          refine ⟨l.act .forget, by simp [Host.on, hl], lives_act lv _, ?_⟩
          simp only [if_true] at hu
          show l.refs - 1 = 1 + uses j (h.table.filter (fun e => e.1 != r))
          omega
        · refine ⟨l, by simp [Host.on, e, hl], lv, ?_⟩
          have e' : id ≠ j := fun h => e h.symm
          simp only [e', if_false] at hu
          show l.refs = 1 + uses j (h.table.filter (fun e => e.1 != r))
          omega
      · exact fun a b hab => tab a b (List.mem_filter.mp hab).1
      · exact fun a b hab => names a b (List.mem_filter.mp hab).1
      · exact fun a x y hx hy => uniq a x y (List.mem_filter.mp hx).1 (List.mem_filter.mp hy).1
      · exact nodup.sublist (List.Sublist.map _ (List.filter_sublist))
    · exact i
  | init p rot opens =>
    simp only [Host.step, Host.init]
    split
    · rename_i id hf
      exact clone_push i (find_mem hf)
    · rename_i hf
      split
      · refine clone_push (p := p) ?_ (by simp)
        obtain ⟨ids, one, fn, refs, tab, names, uniq, nodup⟩ := i
        refine ⟨?_, ?_, ?_, ?_, ?_, names, uniq, nodup⟩
        · intro q j hq
          rcases List.mem_cons.mp hq with hq | hq
          · injection hq with _ h2
            exact h2 ▸ Nat.lt_succ_self _
          · exact Nat.lt_succ_of_lt (ids q j hq)
        · intro a b j ha hb
          rcases List.mem_cons.mp ha with ha | ha <;> rcases List.mem_cons.mp hb with hb | hb
          · injection ha with h1 _
            injection hb with h2 _
            exact h1.trans h2.symm
          · injection ha with _ h2
            exact absurd h2 (Nat.ne_of_lt (ids b j hb))
          · injection hb with _ h2
            exact absurd h2 (Nat.ne_of_lt (ids a j ha))
          · exact one a b j ha hb
        · intro a x y hx hy
          rcases List.mem_cons.mp hx with hx | hx <;> rcases List.mem_cons.mp hy with hy | hy
          · injection hx with _ h1
            injection hy with _ h2
            exact h1.trans h2.symm
          · injection hx with h1 _
            exact absurd (h1 ▸ hy) (find_none hf)
          · injection hy with h1 _
            exact absurd (h1 ▸ hx) (find_none hf)
          · exact fn a x y hx hy
        · intro q j hq
          rcases List.mem_cons.mp hq with hq | hq
          · injection hq with _ h2
            refine ⟨{ rotate := rot, refs := 1 }, by simp [h2], ⟨rot, [], rfl⟩, ?_⟩
            have : uses j h.table = 0 := uses_zero (fun r hr => by
              obtain ⟨q', hq'⟩ := tab r j hr
              exact absurd h2 (Nat.ne_of_lt (ids q' j hq')))
            show 1 = 1 + uses j h.table
            omega
          · obtain ⟨l, hl, lv, hc⟩ := refs q j hq
            have : j ≠ h.next := Nat.ne_of_lt (ids q j hq)
            exact ⟨l, by simp [this, hl], lv, hc⟩
        · intro r j hr
          obtain ⟨q, hq⟩ := tab r j hr
          exact ⟨q, List.mem_cons_of_mem _ hq⟩
      · exact i

theorem hinv_init : HInv {} := by
  refine ⟨?_, ?_, ?_, ?_, ?_, ?_, ?_, List.Pairwise.nil⟩ <;> intros <;> rename_i h <;> first | cases h | (rename_i h' _; cases h')

theorem reached_inv {h : Host} (r : Reached h) : HInv h := by
  obtain ⟨calls, rfl⟩ := r
  have : ∀ (calls : List Call) (h : Host), HInv h → HInv (Host.run calls h) := by
    intro calls
    induction calls with
    | nil => exact fun _ i => i
    | cons c calls ih => exact fun h i => ih _ (hinv_step i c)
  exact this calls {} hinv_init

theorem uses_pos {r id : Nat} {t : List (Nat × Nat)} (h : (r, id) ∈ t) : 0 < uses id t := by
  unfold uses
  exact List.length_pos_of_mem (List.mem_filter.mpr ⟨h, by simp⟩)

theorem find_of_mem {r id : Nat} {t : List (Nat × Nat)} (u : ∀ r i j, (r, i) ∈ t → (r, j) ∈ t → i = j) (h : (r, id) ∈ t) :
    find r t = some id := by
  cases hf : find r t with
  | none => exact absurd h (find_none hf)
  | some j => rw [u r j id (find_mem hf) h]

end Verif.FileLog
