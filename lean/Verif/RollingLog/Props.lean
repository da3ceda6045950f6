import Verif.RollingLog.Model

namespace Verif.RollingLog

/-! ## Specification -/

/-- All bytes in the log: the rotated files in order of rotation, then the current file. -/
def State.contents (s : State) : Bytes := (s.rotated.flatMap (·.2)) ++ s.current

def accepted (ws : List Write) : Bytes := ws.flatMap Write.accepted

/-- The rotated files are in the order of the numbers in their names, and older than the current file. -/
def State.InOrder (s : State) : Prop :=
  s.rotated.Pairwise (fun a b => a.1 < b.1) ∧ ∀ f ∈ s.rotated, f.1 < millis s.start

/-- The clock does not go back: every reading is at least the one before. -/
def ClockMonotone : Nat → List Write → Prop
  | _, [] => True
  | t, w :: ws => t ≤ w.checked ∧ w.checked ≤ w.created ∧ ClockMonotone w.created ws

/-- Whenever a file is created, the millisecond differs from the one in which the previous file was created. -/
def ClockAdvances (kind : Kind) : State → List Write → Prop
  | _, [] => True
  | s, w :: ws =>
    (needsRotation kind s w.checked = true → millis s.start < millis w.created) ∧
    ClockAdvances kind (write kind s w) ws

/-! ## Lemmas -/

theorem rename_fresh {files : List (Nat × Bytes)} {name : Nat} (h : ∀ f ∈ files, f.1 < name) (c : Bytes) :
    rename files name c = files ++ [(name, c)] := by
  unfold rename
  rw [List.filter_eq_self.2]
  intro f hf
  have := h f hf
  simp; omega

theorem rotate_ok {s : State} (h : s.InOrder) {now : Nat} (hn : millis s.start < millis now) :
    (rotate s now).InOrder ∧ (rotate s now).contents = s.contents := by
  unfold rotate
  rw [rename_fresh h.2]
  refine ⟨⟨?_, ?_⟩, ?_⟩
  · simp only [List.pairwise_append, List.pairwise_cons, List.Pairwise.nil, List.mem_singleton]
    refine ⟨h.1, by simp, ?_⟩
    rintro a ha b rfl
    exact h.2 a ha
  · intro f hf
    simp only [List.mem_append, List.mem_singleton] at hf
    rcases hf with hf | rfl
    · exact Nat.lt_trans (h.2 f hf) hn
    · exact hn
  · simp [State.contents]

theorem write_ok {kind : Kind} {s : State} (h : s.InOrder) {w : Write}
    (hn : needsRotation kind s w.checked = true → millis s.start < millis w.created) :
    (write kind s w).InOrder ∧ (write kind s w).contents = s.contents ++ w.accepted := by
  unfold write
  split
  · rename_i hr
    obtain ⟨h1, h2⟩ := rotate_ok h (hn hr)
    refine ⟨h1, ?_⟩
    rw [← h2]; simp [append, State.contents]
  · exact ⟨h, by simp [append, State.contents]⟩

theorem run_ok (kind : Kind) (ws : List Write) : ∀ (s : State), s.InOrder → ClockAdvances kind s ws →
    (run kind s ws).InOrder ∧ (run kind s ws).contents = s.contents ++ accepted ws := by
  induction ws with
  | nil => intro s h _; simp [run, h, accepted]
  | cons w ws ih =>
    intro s h hc
    obtain ⟨h1, h2⟩ := write_ok h hc.1
    obtain ⟨h3, h4⟩ := ih _ h1 hc.2
    refine ⟨h3, ?_⟩
    show (run kind (write kind s w) ws).contents = _
    rw [h4, h2]
    simp [accepted]

theorem advances_of_age {kind : Kind} (hk : ∀ m, kind ≠ .size m) {s : State} {now : Nat}
    (h : needsRotation kind s now = true) : millis s.start < millis now := by
  have : 60 ≤ secs (now - s.start) := by
    unfold needsRotation at h
    generalize secs (now - s.start) = l at h ⊢
    cases kind with
    | never => simp at h
    | size m => exact absurd rfl (hk m)
    | _ =>
      have h := of_decide_eq_true h
      refine Nat.le_trans ?_ h
      decide
  unfold secs at this
  unfold millis
  omega

theorem write_start (kind : Kind) (s : State) (w : Write) :
    (write kind s w).start = if needsRotation kind s w.checked then w.created else s.start := by
  unfold write; split <;> rfl

theorem advances_of_monotone {kind : Kind} (hk : ∀ m, kind ≠ .size m) (ws : List Write) :
    ∀ (s : State) (t : Nat), s.start ≤ t → ClockMonotone t ws → ClockAdvances kind s ws := by
  induction ws with
  | nil => intros; trivial
  | cons w ws ih =>
    intro s t hs hm
    obtain ⟨m1, m2, m3⟩ := hm
    refine ⟨fun h => ?_, ih _ w.created ?_ m3⟩
    · have := advances_of_age hk h
      unfold millis at *
      omega
    · rw [write_start]; split <;> omega

/-! ## C26: nothing is lost -/

/-- With rotation by time (or none), and a clock that does not go back, the rotated files followed by the current
file hold exactly what was there before and the bytes written, and the numbers in the names give the order. -/
theorem C26_time (kind : Kind) (hk : ∀ m, kind ≠ .size m) (files : List (Nat × Bytes)) (content : Bytes) (now : Nat)
    (ws : List Write) (hf : (open_ files content now).InOrder) (hc : ClockMonotone now ws) :
    (run kind (open_ files content now) ws).contents = (open_ files content now).contents ++ accepted ws ∧
    (run kind (open_ files content now) ws).InOrder := by
  have := run_ok kind ws _ hf (advances_of_monotone hk ws _ now (Nat.le_refl _) hc)
  exact ⟨this.2, this.1⟩

/-- With any strategy, if no two files are created in the same millisecond. -/
theorem C26_no_loss_partial (kind : Kind) (files : List (Nat × Bytes)) (content : Bytes) (now : Nat)
    (ws : List Write) (hf : (open_ files content now).InOrder)
    (hc : ClockAdvances kind (open_ files content now) ws) :
    (run kind (open_ files content now) ws).contents = (open_ files content now).contents ++ accepted ws ∧
    (run kind (open_ files content now) ws).InOrder := by
  have := run_ok kind ws _ hf hc
  exact ⟨this.2, this.1⟩

/-- Rotation by size loses bytes if two files are created in the same millisecond, even with a clock that strictly
increases: the second rename replaces the first rotated file. -/
theorem C26_size_counterexample :
    ∃ (ws : List Write), ClockMonotone 1000000 ws ∧
      (run (.size 1) (open_ [] [] 1000000) ws).contents ≠ (open_ [] [] 1000000).contents ++ accepted ws ∧
      accepted ws = [1, 2, 3] ∧
      (run (.size 1) (open_ [] [] 1000000) ws).contents = [2, 3] :=
  ⟨[⟨1000001, 1000002, [1], 1⟩, ⟨1000003, 1000004, [2], 1⟩, ⟨1000005, 1000006, [3], 1⟩],
    by simp [ClockMonotone], by decide, by decide, by decide⟩

/-- Rotation by time loses bytes too if the clock goes back. -/
theorem C26_clock_counterexample :
    ∃ (ws : List Write), (run .minutely (open_ [] [] 0) ws).contents ≠ accepted ws :=
  ⟨[⟨0, 0, [1], 1⟩, ⟨60000000000, 0, [2], 1⟩, ⟨60000000000, 0, [3], 1⟩], by decide⟩

/-! ## C26: the size of files -/

/-- A file that exceeds the limit by less than one record: what was there before the last record is below the limit
(or nothing). -/
def Fits (max : Nat) (content : Bytes) (ws : List Write) : Prop :=
  content = [] ∨ ∃ pre, ∃ w ∈ ws, content = pre ++ w.accepted ∧ (pre = [] ∨ pre.length < max)

theorem Fits.mono {max : Nat} {c : Bytes} {ws ws' : List Write} (h : Fits max c ws) (hs : ∀ w ∈ ws, w ∈ ws') :
    Fits max c ws' := by
  rcases h with h | ⟨pre, w, hw, h⟩
  · exact .inl h
  · exact .inr ⟨pre, w, hs w hw, h⟩

structure SizeInv (max : Nat) (files : List (Nat × Bytes)) (s : State) (ws : List Write) : Prop where
  old : ∀ f ∈ s.rotated, f ∈ files ∨ Fits max f.2 ws
  cur : Fits max s.current ws
  size : s.current.length ≤ s.size

theorem SizeInv.write {max : Nat} {files : List (Nat × Bytes)} {s : State} {ws : List Write}
    (h : SizeInv max files s ws) (w : Write) : SizeInv max files (write (.size max) s w) (ws ++ [w]) := by
  have hacc : w.accepted.length ≤ w.buf.length := by simp [Write.accepted]; omega
  unfold RollingLog.write
  split
  · refine ⟨?_, ?_, ?_⟩
    · intro f hf
      simp only [append, rotate, rename, List.mem_append, List.mem_filter, List.mem_singleton] at hf
      rcases hf with ⟨hf, -⟩ | rfl
      · exact (h.old f hf).imp id (Fits.mono · (by simp +contextual))
      · exact .inr (h.cur.mono (by simp +contextual))
    · exact .inr ⟨[], w, by simp, by simp [append, rotate], .inl rfl⟩
    · simpa [append, rotate] using hacc
  · rename_i hr
    simp only [needsRotation, decide_eq_true_eq] at hr
    refine ⟨?_, ?_, ?_⟩
    · intro f hf
      exact (h.old f hf).imp id (Fits.mono · (by simp +contextual))
    · have := h.size
      exact .inr ⟨s.current, w, by simp, by simp [append], .inr (by omega)⟩
    · have := h.size
      simp [append]; omega

theorem SizeInv.run {max : Nat} {files : List (Nat × Bytes)} (ws : List Write) : ∀ (s : State) (old : List Write),
    SizeInv max files s old → SizeInv max files (run (.size max) s ws) (old ++ ws) := by
  induction ws with
  | nil => intro s old h; simpa [RollingLog.run] using h
  | cons w ws ih =>
    intro s old h
    have := ih _ _ (h.write w)
    simpa [RollingLog.run] using this

/-- With rotation by size, no file exceeds the limit by more than one record: without its last record it is below
the limit. This holds with any clock, starting with an empty file; files that were there before are kept. -/
theorem C26_size_bound (max : Nat) (files : List (Nat × Bytes)) (now : Nat) (ws : List Write) :
    (∀ f ∈ (run (.size max) (open_ files [] now) ws).rotated, f ∈ files ∨ Fits max f.2 ws) ∧
    Fits max (run (.size max) (open_ files [] now) ws).current ws := by
  have := SizeInv.run (max := max) (files := files) ws (open_ files [] now) []
    ⟨fun f hf => .inl hf, .inl rfl, by simp [open_]⟩
  exact ⟨by simpa using this.old, by simpa using this.cur⟩

/-! ## Non-vacuity -/

def sampleWrites : List Write :=
  [⟨1, 2, [1, 2], 2⟩, ⟨60000000002, 60000000003, [3], 1⟩, ⟨60000000004, 60000000005, [4, 5], 1⟩,
   ⟨180000000000, 180000000001, [5], 1⟩]

example : (open_ [] [9] 0).InOrder ∧ ClockMonotone 0 sampleWrites := by
  simp [State.InOrder, open_, ClockMonotone, sampleWrites]
example : (run .minutely (open_ [] [9] 0) sampleWrites) =
    ⟨[(0, [9, 1, 2]), (60000, [3, 4])], [5], 1, 180000000001⟩ := by decide
example : ClockAdvances (.size 2) (open_ [] [9] 0) sampleWrites := by
  refine ⟨by decide, by decide, by decide, by decide, trivial⟩
example : (run (.size 2) (open_ [] [9] 0) sampleWrites) =
    ⟨[(0, [9, 1, 2]), (60000, [3, 4])], [5], 1, 180000000001⟩ := by decide

end Verif.RollingLog
