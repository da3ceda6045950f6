import Verif.Dedup.Spec

/-! # Invariant -/
namespace Verif.Dedup

variable {α : Type} {v : Variant}

structure RecvOk (v : Variant) (ch : Chan α) (r : Recv α) : Prop where
  joinedLe : r.joined ≤ r.pos
  posLe : r.pos ≤ ch.items.length
  dueLe : r.joinedDue ≤ ch.due.length
  gaps : Gaps ((ch.items.take r.pos).drop r.joined) r.got
  ended : r.status = .ended → r.pos = ch.items.length ∧ ch.task.live = false
  due : r.counted = true → ∃ lost, ch.due.drop r.joinedDue = lost ++ ch.items.drop r.joined ∧ (v = .current → lost = [])
  gone : ∀ rest, ch.task = .gone rest → r.counted = true → r.joined = ch.items.length ∧ r.joinedDue = ch.due.length

structure ChanInv (v : Variant) (inMap : Prop) (ch : Chan α) : Prop where
  mapped : inMap → ch.closed = false ∧ ch.task ≠ .stopped
  current : v = .current → ch.task ≠ .failed ∧ ch.task ≠ .creating
  shared : v = .current → ch.task.live = true → ch.closed = false → inMap
  fetched : ch.fetched = ch.due ++ ch.task.remaining
  recvs : ∀ r ∈ ch.recvs, RecvOk v ch r
  goneClosed : ∀ rest, ch.task = .gone rest → ch.closed = true → ∀ r ∈ ch.recvs, r.counted = false
  over : ch.task = .stopped → ch.over = true ∨ ∀ r ∈ ch.recvs, r.counted = false
  ending : ∀ x, ch.task = .ending x → ch.over = true

structure Inv (v : Variant) (is : List (Input α)) (s : St α) : Prop where
  keyed : ∀ k c, s.entry k = some c → ∃ ch, s.chans[c]? = some ch ∧ ch.key = k
  chans : ∀ (c : Nat) ch, s.chans[c]? = some ch → ChanInv v (s.entry ch.key = some c) ch
  given : ∀ (c : Nat) ch, s.chans[c]? = some ch → ch.fetched = given v c is
  over : ∀ (c : Nat) ch, s.chans[c]? = some ch → ch.over = isOver c is
  failed : ∀ (c : Nat) ch, s.chans[c]? = some ch → ch.task = .failed → .created c false ∈ is
  fresh : ∀ c, s.chans.length ≤ c → Verif.Dedup.given v c is = [] ∧ isOver c is = false

/-! ## Observations of the inputs -/

theorem given_append (c : Nat) (a b : List (Input α)) : given v c (a ++ b) = given v c a ++ given v c b := by
  induction a with
  | nil => rfl
  | cons i t ih =>
    cases i with
    | fetch c' r =>
      cases r <;> simp only [List.cons_append, given, ih] <;> split <;> simp
    | _ => simp [given, ih]

theorem isOver_append (c : Nat) (a b : List (Input α)) : isOver c (a ++ b) = (isOver c a || isOver c b) := by
  induction a with
  | nil => rfl
  | cons i t ih =>
    cases i with
    | fetch c' r =>
      cases r <;> simp [isOver, ih, Bool.or_assoc]
    | _ => simp [isOver, ih]

/-! ## Steps of a channel -/

theorem noReceiver_iff {ch : Chan α} : ch.noReceiver = true ↔ ∀ r ∈ ch.recvs, r.counted = false := by
  simp [Chan.noReceiver]

/-- A receiver does not change when the channel does not. -/
theorem RecvOk.congr {ch ch' : Chan α} {r : Recv α} (h : RecvOk v ch r) (hi : ch'.items = ch.items) (hd : ch'.due = ch.due)
    (ht : ch.task.live = false → ch'.task.live = false)
    (hg : ∀ rest, ch'.task = .gone rest → r.counted = true → ch.task = .gone rest) : RecvOk v ch' r := by
  obtain ⟨h1, h2, h3, h4, h5, h6, h7⟩ := h
  refine ⟨h1, by rw [hi]; exact h2, by rw [hd]; exact h3, by rw [hi]; exact h4, ?_, by rw [hi, hd]; exact h6, ?_⟩
  · intro h; obtain ⟨a, b⟩ := h5 h; exact ⟨by rw [hi]; exact a, ht b⟩
  · intro rest h hc; rw [hi, hd]; exact h7 rest (hg rest h hc) hc

theorem created_inv {p : Prop} {ch ch' : Chan α} {ok : Bool} (inv : ChanInv v p ch) (h : created ok ch = some ch') :
    ChanInv v p ch' ∧ ch'.key = ch.key ∧ ch'.fetched = ch.fetched ∧ ch'.over = ch.over ∧
      (ch'.task = .failed → ch.task = .failed ∨ ok = false) := by
  cases ht : ch.task with
  | creating =>
    obtain ⟨i1, i2, i3, i4, i5, i6, i7, i8⟩ := inv
    have hv : v ≠ .current := fun h => (i2 h).2 ht
    simp only [created, ht] at h
    rw [ht] at i4
    split at h
    · cases h
      refine ⟨⟨?_, fun h => absurd h hv, fun h => absurd h hv, i4, ?_, ?_, ?_, ?_⟩, rfl, rfl, rfl, by simp⟩
      · intro h; exact ⟨(i1 h).1, by simp⟩
      · intro r hr
        exact (i5 r hr).congr rfl rfl (by simp [ht, Task.live]) (by simp)
      all_goals simp
    · rename_i hok
      cases h
      refine ⟨⟨?_, fun h => absurd h hv, fun h => absurd h hv, i4, ?_, ?_, ?_, ?_⟩, rfl, rfl, rfl, by simpa using hok⟩
      · intro h; exact ⟨(i1 h).1, by simp⟩
      · intro r hr
        have key : ∀ r ∈ ch.recvs, RecvOk v { ch with task := .failed } r := fun r hr =>
          (i5 r hr).congr rfl rfl (by simp [Task.live]) (by simp)
        have hr : r ∈ ch.recvs.modify 0 fun r => { r with status := .dropped } := hr
        cases hrs : ch.recvs with
        | nil => simp [hrs] at hr
        | cons a t =>
          rw [hrs] at hr key
          simp only [List.modify_zero_cons, List.mem_cons] at hr
          rcases hr with rfl | hr
          · obtain ⟨h1, h2, h3, h4, h5, h6, h7⟩ := key a List.mem_cons_self
            exact ⟨h1, h2, h3, h4, by simp, by simp [Recv.counted], by simp⟩
          · obtain ⟨h1, h2, h3, h4, h5, h6, h7⟩ := key r (List.mem_cons_of_mem _ hr)
            exact ⟨h1, h2, h3, h4, h5, h6, h7⟩
      all_goals simp
  | _ => simp [created, ht] at h

theorem check_inv {p : Prop} {ch ch' : Chan α} (inv : ChanInv v p ch) (h : check v ch = some ch') :
    ChanInv v p ch' ∧ ch'.key = ch.key ∧ ch'.fetched = ch.fetched ∧ ch'.over = ch.over ∧
      (ch'.task = .failed → ch.task = .failed) := by
  cases ht : ch.task with
  | top =>
    obtain ⟨i1, i2, i3, i4, i5, i6, i7, i8⟩ := inv
    rw [ht] at i4
    have go : ChanInv v p { ch with task := .fetching } := by
      refine ⟨?_, by simp, ?_, i4, ?_, ?_, ?_, ?_⟩
      · intro h; exact ⟨(i1 h).1, by simp⟩
      · intro hv _ hc; exact i3 hv (by simp [ht, Task.live]) hc
      · intro r hr; exact (i5 r hr).congr rfl rfl (by simp [ht, Task.live]) (by simp)
      all_goals simp
    simp only [check, ht] at h
    split at h
    · split at h
      · rename_i hc
        cases h
        rw [Bool.and_eq_true, noReceiver_iff] at hc
        refine ⟨⟨?_, by simp, by simp [Task.live], i4, ?_, ?_, ?_, ?_⟩, rfl, rfl, rfl, by simp⟩
        · intro h; have := (i1 h).1; rw [hc.1] at this; cases this
        · intro r hr; exact (i5 r hr).congr rfl rfl (by simp [Task.live]) (by simp)
        · simp
        · intro _; exact .inr hc.2
        · simp
      · cases h; exact ⟨go, rfl, rfl, rfl, by simp⟩
    · cases h; exact ⟨go, rfl, rfl, rfl, by simp⟩
  | _ => simp [check, ht] at h

theorem fetch_inv {p : Prop} {ch ch' : Chan α} {r : Fetched α} (c : Nat) (inv : ChanInv v p ch) (h : fetch v r ch = some ch') :
    ChanInv v p ch' ∧ ch'.key = ch.key ∧ ch'.fetched = ch.fetched ++ given v c [.fetch c r] ∧
      ch'.over = (ch.over || isOver c [.fetch c r]) ∧ (ch'.task = .failed → ch.task = .failed) := by
  cases ht : ch.task with
  | fetching =>
    obtain ⟨i1, i2, i3, i4, i5, i6, i7, i8⟩ := inv
    rw [ht] at i4
    have i4 : ch.fetched = ch.due := by simpa [Task.remaining] using i4
    have mk : ∀ (t : Task α) (f : List α) (o : Bool), t ≠ .stopped → t ≠ .failed → t ≠ .creating → (∀ rest, t ≠ .gone rest) →
        f = ch.due ++ t.remaining → ((∃ x, t = .ending x) → o = true) → ChanInv v p { ch with task := t, fetched := f, over := o } := by
      intro t f o h1 h2 h3 h4 h5 h6
      refine ⟨?_, fun _ => ⟨h2, h3⟩, ?_, h5, ?_, ?_, ?_, ?_⟩
      · intro h; exact ⟨(i1 h).1, h1⟩
      · intro hv _ hc; exact i3 hv (by simp [ht, Task.live]) hc
      · intro r hr; exact (i5 r hr).congr rfl rfl (by simp [ht, Task.live]) (fun rest h => absurd h (h4 rest))
      · intro rest h; exact absurd h (h4 rest)
      · intro h; exact absurd h h1
      · intro x h; exact h6 ⟨x, h⟩
    simp only [fetch, ht] at h
    cases r with
    | items l =>
      cases l with
      | nil =>
        cases h
        refine ⟨mk .top ch.fetched ch.over (by simp) (by simp) (by simp) (by simp) (by simp [i4, Task.remaining]) (by simp), rfl,
          by simp [given], by simp [isOver], by simp⟩
      | cons x t =>
        cases h
        refine ⟨mk (.sending (x :: t)) _ ch.over (by simp) (by simp) (by simp) (by simp) (by simp [i4, Task.remaining]) (by simp), rfl,
          by simp [given], by simp [isOver], by simp⟩
    | finished =>
      cases h
      refine ⟨mk (.ending none) ch.fetched true (by simp) (by simp) (by simp) (by simp) (by simp [i4, Task.remaining]) (by simp), rfl,
        by simp [given], by simp [isOver], by simp⟩
    | error x =>
      cases v with
      | legacy =>
        cases h
        refine ⟨mk (.ending none) ch.fetched true (by simp) (by simp) (by simp) (by simp) (by simp [i4, Task.remaining]) (by simp), rfl,
          by simp [given], by simp [isOver], by simp⟩
      | current =>
        cases h
        refine ⟨mk (.ending (some x)) (ch.fetched ++ [x]) true (by simp) (by simp) (by simp) (by simp) (by simp [i4, Task.remaining]) (by simp), rfl,
          by simp [given], by simp [isOver], by simp⟩
  | _ => simp [fetch, ht] at h

/-- An item is sent. -/
theorem RecvOk.sent {ch : Chan α} {r : Recv α} (h : RecvOk v ch r) {x : α} {t : Task α} (hl : ch.task.live = true)
    (hg : ∀ rest, t ≠ .gone rest) : RecvOk v { ch with task := t, items := ch.items ++ [x], due := ch.due ++ [x] } r := by
  obtain ⟨h1, h2, h3, h4, h5, h6, h7⟩ := h
  refine ⟨h1, ?_, ?_, ?_, ?_, ?_, fun rest h => absurd h (hg rest)⟩
  · simp only [List.length_append, List.length_singleton]; omega
  · simp only [List.length_append, List.length_singleton]; omega
  · simp only [List.take_append_of_le_length h2]; exact h4
  · intro h; have := (h5 h).2; rw [hl] at this; cases this
  · intro h
    obtain ⟨lost, e, hc⟩ := h6 h
    refine ⟨lost, ?_, hc⟩
    simp only [List.drop_append_of_le_length h3, List.drop_append_of_le_length (Nat.le_trans h1 h2), e, List.append_assoc]

/-- An item could not be sent. -/
theorem RecvOk.lost {ch : Chan α} {r : Recv α} (h : RecvOk v ch r) {d : List α} {t : Task α} (hc : r.counted = false)
    (ht : ch.task.live = false → t.live = false) {b : Bool} :
    RecvOk v { ch with task := t, due := ch.due ++ d, closed := b } r := by
  obtain ⟨h1, h2, h3, h4, h5, h6, h7⟩ := h
  refine ⟨h1, h2, ?_, h4, ?_, ?_, ?_⟩
  · simp only [List.length_append]; omega
  · intro h; exact ⟨(h5 h).1, ht (h5 h).2⟩
  · intro h; rw [hc] at h; cases h
  · intro rest _ h; rw [hc] at h; cases h

theorem send_inv {p : Prop} {ch ch' : Chan α} (inv : ChanInv v p ch) (h : send ch = some ch') :
    ChanInv v p ch' ∧ ch'.key = ch.key ∧ ch'.fetched = ch.fetched ∧ ch'.over = ch.over ∧
      (ch'.task = .failed → ch.task = .failed) := by
  obtain ⟨i1, i2, i3, i4, i5, i6, i7, i8⟩ := inv
  cases ht : ch.task with
  | sending l =>
    rw [ht] at i4
    have hl : ch.task.live = true := by simp [ht, Task.live]
    cases l with
    | nil =>
      simp only [send, ht] at h
      cases h
      refine ⟨⟨?_, by simp, ?_, i4, ?_, ?_, ?_, ?_⟩, rfl, rfl, rfl, by simp⟩
      · intro h; exact ⟨(i1 h).1, by simp⟩
      · intro hv _ hc; exact i3 hv hl hc
      · intro r hr; exact (i5 r hr).congr rfl rfl (by simp [ht, Task.live]) (by simp)
      all_goals simp
    | cons x t =>
      simp only [send, ht] at h
      split at h
      · rename_i hn
        cases h
        rw [noReceiver_iff] at hn
        refine ⟨⟨?_, by simp, ?_, by simp [i4, Task.remaining], ?_, ?_, ?_, ?_⟩, rfl, rfl, rfl, by simp⟩
        · intro h; exact ⟨(i1 h).1, by simp⟩
        · intro hv _ hc; exact i3 hv hl hc
        · intro r hr; exact (i5 r hr).lost (hn r hr) (by simp [hl])
        · intro _ _ _; exact hn
        all_goals simp
      · cases h
        refine ⟨⟨?_, by simp, ?_, by simp [i4, Task.remaining], ?_, ?_, ?_, ?_⟩, rfl, rfl, rfl, by simp⟩
        · intro h; exact ⟨(i1 h).1, by simp⟩
        · intro hv _ hc; exact i3 hv hl hc
        · intro r hr; exact (i5 r hr).sent hl (by simp)
        all_goals simp
  | ending o =>
    rw [ht] at i4
    have hl : ch.task.live = true := by simp [ht, Task.live]
    have ho := i8 o ht
    cases o with
    | none => simp [send, ht] at h
    | some x =>
      simp only [send, ht] at h
      split at h
      · rename_i hn
        cases h
        rw [noReceiver_iff] at hn
        refine ⟨⟨?_, by simp, ?_, by simp [i4, Task.remaining], ?_, ?_, ?_, ?_⟩, rfl, rfl, rfl, by simp⟩
        · intro h; exact ⟨(i1 h).1, by simp⟩
        · intro hv _ hc; exact i3 hv hl hc
        · intro r hr; exact (i5 r hr).lost (hn r hr) (by simp [hl])
        · simp
        · simp
        · intro _ _; exact ho
      · cases h
        refine ⟨⟨?_, by simp, ?_, by simp [i4, Task.remaining], ?_, ?_, ?_, ?_⟩, rfl, rfl, rfl, by simp⟩
        · intro h; exact ⟨(i1 h).1, by simp⟩
        · intro hv _ hc; exact i3 hv hl hc
        · intro r hr; exact (i5 r hr).sent hl (by simp)
        · simp
        · simp
        · intro _ _; exact ho
  | _ => simp [send, ht] at h

/-- `p`: is the channel in the map before; `q`: after. -/
theorem remove_inv {p q : Prop} {ch ch' : Chan α} {b : Bool} (inv : ChanInv v p ch) (h : remove v ch = some (b, ch'))
    (hq : if b = true then ¬ q else (q ↔ p)) :
    ChanInv v q ch' ∧ ch'.key = ch.key ∧ ch'.fetched = ch.fetched ∧ ch'.over = ch.over ∧
      (ch'.task = .failed → ch.task = .failed) ∧ (b = true → v = .current → p) := by
  obtain ⟨i1, i2, i3, i4, i5, i6, i7, i8⟩ := inv
  cases ht : ch.task with
  | gone rest =>
    rw [ht] at i4
    have hl : ch.task.live = true := by simp [ht, Task.live]
    have i4 : ch.fetched = ch.due ++ rest := by simpa [Task.remaining] using i4
    -- a subscriber that joined meanwhile
    have late : ∀ r ∈ ch.recvs, ∀ (t : Task α) (b : Bool), v = .legacy → (∀ rest, t ≠ .gone rest) →
        RecvOk v { ch with task := t, due := ch.due ++ rest, closed := b } r := by
      intro r hr t b hv hg
      obtain ⟨h1, h2, h3, h4, h5, h6, h7⟩ := i5 r hr
      refine ⟨h1, h2, ?_, h4, ?_, ?_, fun rest h => absurd h (hg rest)⟩
      · simp only [List.length_append]; omega
      · intro h; have := (h5 h).2; rw [hl] at this; cases this
      · intro h
        obtain ⟨e1, e2⟩ := h7 rest ht h
        refine ⟨rest, ?_, by simp [hv]⟩
        simp [e1, e2]
    cases v with
    | legacy =>
      simp only [remove, ht] at h
      split at h
      · rename_i hc
        cases h
        have hd := i6 rest ht hc
        simp only [if_true] at hq
        refine ⟨⟨fun h => absurd h hq, by simp, by simp, by simp [i4, Task.remaining], ?_, by simp, ?_, by simp⟩,
          rfl, rfl, rfl, by simp, by simp⟩
        · intro r hr; exact (i5 r hr).lost (hd r hr) (by simp [hl])
        · intro _; exact .inr hd
      · cases h
        simp only [if_true] at hq
        refine ⟨⟨fun h => absurd h hq, by simp, by simp, by simp [i4, Task.remaining], ?_, by simp, by simp, by simp⟩,
          rfl, rfl, rfl, by simp, by simp⟩
        intro r hr; exact late r hr .top true rfl (by simp)
    | current =>
      simp only [remove, ht] at h
      split at h
      · rename_i hc
        cases h
        have hd := i6 rest ht hc
        simp only [Bool.false_eq_true, if_false] at hq
        refine ⟨⟨?_, by simp, by simp [Task.live], by simp [i4, Task.remaining], ?_, by simp, ?_, by simp⟩,
          rfl, rfl, rfl, by simp, by simp⟩
        · intro h; have := (i1 (hq.1 h)).1; rw [hc] at this; cases this
        · intro r hr; exact (i5 r hr).lost (hd r hr) (by simp [hl])
        · intro _; exact .inr hd
      · rename_i hc
        cases h
        simp only [if_true] at hq
        refine ⟨⟨fun h => absurd h hq, by simp, by simp, by simp [i4, Task.remaining], ?_, by simp, by simp, by simp⟩,
          rfl, rfl, rfl, by simp, fun _ _ => i3 rfl hl (by simpa using hc)⟩
        intro r hr
        exact (i5 r hr).congr rfl rfl (by simp [hl]) (by simp)
  | ending o =>
    rw [ht] at i4
    have hl : ch.task.live = true := by simp [ht, Task.live]
    cases o with
    | some x => simp [remove, ht] at h
    | none =>
      have ho := i8 none ht
      have recs : ∀ r ∈ ch.recvs, RecvOk v { ch with task := .stopped } r := fun r hr =>
        (i5 r hr).congr rfl rfl (by simp [Task.live]) (by simp)
      cases v with
      | legacy =>
        simp only [remove, ht] at h
        cases h
        simp only [if_true] at hq
        exact ⟨⟨fun h => absurd h hq, by simp, by simp, by simpa [Task.remaining] using i4, recs, by simp, fun _ => .inl ho, by simp⟩,
          rfl, rfl, rfl, by simp, by simp⟩
      | current =>
        simp only [remove, ht] at h
        cases h
        refine ⟨⟨?_, by simp, by simp [Task.live], by simpa [Task.remaining] using i4, recs, by simp, fun _ => .inl ho, by simp⟩,
          rfl, rfl, rfl, by simp, ?_⟩
        · intro h
          exfalso
          cases hc : ch.closed with
          | false => simp [hc] at hq; exact hq h
          | true =>
            simp [hc] at hq
            have := (i1 (hq.1 h)).1
            rw [hc] at this; cases this
        · intro hb _
          exact i3 rfl hl (by simpa using hb)
  | _ => simp [remove, ht] at h

theorem onRecv_inv {p : Prop} {ch ch' : Chan α} {i : Nat} {f : Recv α → Option (Recv α)} (inv : ChanInv v p ch)
    (hf : ∀ r r', r ∈ ch.recvs → f r = some r' → RecvOk v ch r → RecvOk v ch r' ∧ (r.counted = false → r'.counted = false))
    (h : ch.onRecv i f = some ch') :
    ChanInv v p ch' ∧ ch'.key = ch.key ∧ ch'.fetched = ch.fetched ∧ ch'.over = ch.over ∧
      (ch'.task = .failed → ch.task = .failed) := by
  rw [Chan.onRecv, Option.bind_eq_some_iff] at h
  obtain ⟨r, hr, h⟩ := h
  rw [Option.map_eq_some_iff] at h
  obtain ⟨r', h, rfl⟩ := h
  have hmem := List.mem_of_getElem? hr
  obtain ⟨i1, i2, i3, i4, i5, i6, i7, i8⟩ := inv
  obtain ⟨hok, hcnt⟩ := hf r r' hmem h (i5 r hmem)
  refine ⟨⟨i1, i2, i3, i4, ?_, ?_, ?_, i8⟩, rfl, rfl, rfl, id⟩
  · intro x hx
    have hx : x ∈ ch.recvs ∨ x = r' := List.mem_or_eq_of_mem_set hx
    have : RecvOk v ch x := by
      rcases hx with hx | rfl
      · exact i5 x hx
      · exact hok
    obtain ⟨h1, h2, h3, h4, h5, h6, h7⟩ := this
    exact ⟨h1, h2, h3, h4, h5, h6, h7⟩
  · intro rest ht hc x hx
    rcases List.mem_or_eq_of_mem_set hx with hx | rfl
    · exact i6 rest ht hc x hx
    · exact hcnt (i6 rest ht hc r hmem)
  · intro ht
    rcases i7 ht with h' | h'
    · exact .inl h'
    · refine .inr fun x hx => ?_
      rcases List.mem_or_eq_of_mem_set hx with hx | rfl
      · exact h' x hx
      · exact hcnt (h' r hmem)

theorem recv_ok {ch : Chan α} {r r' : Recv α} {sender : Bool} (hs : sender = false → ch.task.live = false)
    (h : recv ch.items sender r = some r') (ok : RecvOk v ch r) :
    RecvOk v ch r' ∧ (r.counted = false → r'.counted = false) := by
  obtain ⟨h1, h2, h3, h4, h5, h6, h7⟩ := ok
  unfold recv at h
  split at h
  · rename_i hal
    have hcnt : r.counted = true := by simp [Recv.counted, hal]
    split at h
    · rename_i x hx
      have hlt := (List.getElem?_eq_some_iff.1 hx).1
      split at h
      · rename_i hlag
        cases h
        refine ⟨⟨by simp only; omega, by simp only; omega, h3, ?_, by simp [hal], ?_, ?_⟩, by simp [Recv.counted, hal]⟩
        · have e : (ch.items.take (ch.items.length - capacity)).drop r.joined = (ch.items.take r.pos).drop r.joined ++
              (ch.items.take (ch.items.length - capacity)).drop r.pos := by
            have e1 : ch.items.take (ch.items.length - capacity) = ch.items.take r.pos ++ (ch.items.take (ch.items.length - capacity)).drop r.pos := by
              conv => lhs; rw [← List.take_append_drop r.pos (ch.items.take (ch.items.length - capacity))]
              rw [List.take_take, Nat.min_eq_left (by omega)]
            conv => lhs; rw [e1]
            rw [List.drop_append_of_le_length (by rw [List.length_take]; omega)]
          show Gaps ((ch.items.take (ch.items.length - capacity)).drop r.joined) (r.got ++ [none])
          rw [e]
          refine .lag h4 ?_
          intro hnil
          have := congrArg List.length hnil
          simp only [List.length_drop, List.length_take, List.length_nil] at this
          omega
        · intro _; exact h6 hcnt
        · intro rest ht _; exact h7 rest ht hcnt
      · cases h
        refine ⟨⟨by simp only; omega, by simp only; omega, h3, ?_, by simp [hal], ?_, ?_⟩, by simp [Recv.counted, hal]⟩
        · show Gaps ((ch.items.take (r.pos + 1)).drop r.joined) (r.got ++ [some x])
          rw [List.take_add_one, hx, List.drop_append_of_le_length (by rw [List.length_take]; omega)]
          exact .item h4
        · intro _; exact h6 hcnt
        · intro rest ht _; exact h7 rest ht hcnt
    · rename_i hx
      split at h
      · cases h
      · rename_i hse
        cases h
        rw [List.getElem?_eq_none_iff] at hx
        refine ⟨⟨h1, h2, h3, h4, fun _ => ⟨by simp only; omega, hs (by simpa using hse)⟩, ?_, ?_⟩, by simp [hcnt]⟩
        · intro _; exact h6 hcnt
        · intro rest ht _; exact h7 rest ht hcnt
  · cases h

theorem drop_ok {ch : Chan α} {r r' : Recv α} (h : Recv.drop r = some r') (ok : RecvOk v ch r) :
    RecvOk v ch r' ∧ (r.counted = false → r'.counted = false) := by
  obtain ⟨h1, h2, h3, h4, h5, h6, h7⟩ := ok
  unfold Recv.drop at h
  split at h
  · cases h
  · cases h
    exact ⟨⟨h1, h2, h3, h4, by simp, by simp [Recv.counted], by simp [Recv.counted]⟩, by simp [Recv.counted]⟩

theorem join_inv {p : Prop} {ch : Chan α} (hp : p) (inv : ChanInv v p ch) : ChanInv v p ch.join := by
  obtain ⟨i1, i2, i3, i4, i5, i6, i7, i8⟩ := inv
  refine ⟨i1, i2, i3, i4, ?_, ?_, ?_, i8⟩
  · intro r hr
    simp only [Chan.join, List.mem_append, List.mem_singleton] at hr
    rcases hr with hr | rfl
    · obtain ⟨h1, h2, h3, h4, h5, h6, h7⟩ := i5 r hr
      exact ⟨h1, h2, h3, h4, h5, h6, h7⟩
    · refine ⟨Nat.le_refl _, Nat.le_refl _, Nat.le_refl _, ?_, by simp, ?_, by simp [Chan.join]⟩
      · simp only [Chan.join, List.take_length, List.drop_length]; exact .nil
      · intro _; exact ⟨[], by simp [Chan.join], fun _ => rfl⟩
  · intro rest ht hc
    have := (i1 hp).1
    rw [Chan.join] at hc
    simp only at hc
    rw [hc] at this; cases this
  · intro ht
    exact absurd ht (i1 hp).2

/-! ## Steps of the system -/

/-- One channel changes, with `x` as the input. -/
theorem set_inv {is : List (Input α)} {s : St α} {c : Nat} {ch ch' : Chan α} {x : Input α} {e : Nat → Option Nat}
    (inv : Inv v is s) (hc : s.chans[c]? = some ch) (hk : ch'.key = ch.key)
    (hin : ChanInv v (e ch.key = some c) ch')
    (hothers : ∀ c' ch₁, c' ≠ c → s.chans[c']? = some ch₁ → (e ch₁.key = some c' ↔ s.entry ch₁.key = some c') ∨
      (e ch₁.key = none ∧ v = .legacy))
    (hentry : ∀ k c', e k = some c' → s.entry k = some c')
    (hg : ch'.fetched = ch.fetched ++ given v c [x]) (ho : ch'.over = (ch.over || isOver c [x]))
    (hf : ch'.task = .failed → ch.task = .failed ∨ x = .created c false)
    (hg' : ∀ c', c' ≠ c → given v c' [x] = []) (ho' : ∀ c', c' ≠ c → isOver c' [x] = false) :
    Inv v (is ++ [x]) ⟨e, s.chans.set c ch'⟩ := by
  obtain ⟨k1, k2, k3, k4, k5, k6⟩ := inv
  have hlt := (List.getElem?_eq_some_iff.1 hc).1
  have get : ∀ c' ch₁, (s.chans.set c ch')[c']? = some ch₁ → (c' = c ∧ ch₁ = ch') ∨ (c' ≠ c ∧ s.chans[c']? = some ch₁) := by
    intro c' ch₁ h
    by_cases hcc : c' = c
    · subst hcc
      rw [List.getElem?_set_self hlt] at h
      cases h; exact .inl ⟨rfl, rfl⟩
    · rw [List.getElem?_set_ne (fun h => hcc h.symm)] at h
      exact .inr ⟨hcc, h⟩
  refine ⟨?_, ?_, ?_, ?_, ?_, ?_⟩
  · intro k c' h
    obtain ⟨ch₁, h1, h2⟩ := k1 k c' (hentry k c' h)
    by_cases hcc : c' = c
    · subst hcc
      rw [hc] at h1; cases h1
      exact ⟨ch', List.getElem?_set_self hlt, by rw [hk, h2]⟩
    · exact ⟨ch₁, by rw [List.getElem?_set_ne (fun h => hcc h.symm)]; exact h1, h2⟩
  · intro c' ch₁ h
    rcases get c' ch₁ h with ⟨rfl, rfl⟩ | ⟨hne, h⟩
    · rw [hk]; exact hin
    · have := k2 c' ch₁ h
      rcases hothers c' ch₁ hne h with he | ⟨he, hv⟩
      · obtain ⟨i1, i2, i3, i4, i5, i6, i7, i8⟩ := this
        exact ⟨fun h => i1 (he.1 h), i2, fun a b c => he.2 (i3 a b c), i4, i5, i6, i7, i8⟩
      · obtain ⟨i1, i2, i3, i4, i5, i6, i7, i8⟩ := this
        exact ⟨fun h => (by have h : e ch₁.key = some c' := h; rw [he] at h; cases h), i2, fun a => (by rw [hv] at a; cases a), i4, i5, i6, i7, i8⟩
  · intro c' ch₁ h
    rw [given_append]
    rcases get c' ch₁ h with ⟨rfl, rfl⟩ | ⟨hne, h⟩
    · rw [hg, k3 _ _ hc]
    · rw [hg' c' hne, List.append_nil]; exact k3 _ _ h
  · intro c' ch₁ h
    rw [isOver_append]
    rcases get c' ch₁ h with ⟨rfl, rfl⟩ | ⟨hne, h⟩
    · rw [ho, k4 _ _ hc]
    · rw [ho' c' hne, Bool.or_false]; exact k4 _ _ h
  · intro c' ch₁ h ht
    rcases get c' ch₁ h with ⟨rfl, rfl⟩ | ⟨hne, h⟩
    · rcases hf ht with h | rfl
      · exact List.mem_append_left _ (k5 _ _ hc h)
      · simp
    · exact List.mem_append_left _ (k5 _ _ h ht)
  · intro c' h
    rw [List.length_set] at h
    have hne : c' ≠ c := by omega
    rw [given_append, isOver_append, hg' c' hne, ho' c' hne, (k6 c' h).1, (k6 c' h).2]
    simp

theorem onChan_inv {is : List (Input α)} {s s' : St α} {c : Nat} {x : Input α} {f : Chan α → Option (Chan α)} (inv : Inv v is s)
    (hf : ∀ ch ch', s.chans[c]? = some ch → f ch = some ch' → ChanInv v (s.entry ch.key = some c) ch →
      ChanInv v (s.entry ch.key = some c) ch' ∧ ch'.key = ch.key ∧ ch'.fetched = ch.fetched ++ given v c [x] ∧
      ch'.over = (ch.over || isOver c [x]) ∧ (ch'.task = .failed → ch.task = .failed ∨ x = .created c false))
    (hg' : ∀ c', c' ≠ c → given v c' [x] = []) (ho' : ∀ c', c' ≠ c → isOver c' [x] = false)
    (h : s.onChan c f = some s') : Inv v (is ++ [x]) s' := by
  rw [St.onChan, Option.bind_eq_some_iff] at h
  obtain ⟨ch, hc, h⟩ := h
  rw [Option.map_eq_some_iff] at h
  obtain ⟨ch', h, rfl⟩ := h
  obtain ⟨h1, h2, h3, h4, h5⟩ := hf ch ch' hc h (inv.chans c ch hc)
  exact set_inv inv hc h2 h1 (fun _ _ _ _ => .inl Iff.rfl) (fun _ _ h => h) h3 h4 h5 hg' ho'

theorem step_inv {is : List (Input α)} {s s' : St α} {x : Input α} (inv : Inv v is s) (h : step v s x = some s') :
    Inv v (is ++ [x]) s' := by
  cases x with
  | subscribe key =>
    simp only [step, subscribe] at h
    split at h
    · rename_i c hc
      rw [Option.map_eq_some_iff] at h
      obtain ⟨ch, hch, rfl⟩ := h
      obtain ⟨ch₁, h1, h2⟩ := inv.keyed key c hc
      rw [hch] at h1; cases h1
      exact set_inv inv hch rfl (join_inv (by rw [h2]; exact hc) (inv.chans c ch hch)) (fun _ _ _ _ => .inl Iff.rfl)
        (fun _ _ h => h) (by simp [given, Chan.join]) (by simp [isOver, Chan.join]) (fun h => .inl h) (fun _ _ => rfl)
        (fun _ _ => rfl)
    · rename_i hnone
      cases h
      obtain ⟨k1, k2, k3, k4, k5, k6⟩ := inv
      have get : ∀ c' ch₁, (s.chans ++ [Chan.new v key])[c']? = some ch₁ →
          (c' = s.chans.length ∧ ch₁ = .new v key) ∨ (c' ≠ s.chans.length ∧ s.chans[c']? = some ch₁) := by
        intro c' ch₁ h
        rw [List.getElem?_append] at h
        split at h
        · exact .inr ⟨by omega, h⟩
        · have := (List.getElem?_eq_some_iff.1 h).1
          simp only [List.length_singleton] at this
          have : c' = s.chans.length := by omega
          subst this
          simp only [Nat.sub_self, List.getElem?_cons_zero, Option.some.injEq] at h
          exact .inl ⟨rfl, h.symm⟩
      have hne : ∀ (c' : Nat) ch₁, s.chans[c']? = some ch₁ → c' ≠ s.chans.length := by
        intro c' ch₁ h
        have := (List.getElem?_eq_some_iff.1 h).1
        omega
      have hent : ∀ (c' : Nat) (ch₁ : Chan α), s.chans[c']? = some ch₁ →
          (setEntry s.entry key (some s.chans.length) ch₁.key = some c' ↔ s.entry ch₁.key = some c') := by
        intro c' ch₁ h
        unfold setEntry
        split
        · rename_i hk
          rw [hk, hnone]
          simp [(hne c' ch₁ h).symm]
        · exact Iff.rfl
      refine ⟨?_, ?_, ?_, ?_, ?_, ?_⟩
      · intro k c h
        simp only [setEntry] at h
        split at h
        · rename_i hk
          cases h
          exact ⟨.new v key, by simp, by simp [Chan.new, Chan.join, hk]⟩
        · obtain ⟨ch, h1, h2⟩ := k1 k c h
          exact ⟨ch, by rw [List.getElem?_append_left (List.getElem?_eq_some_iff.1 h1).1]; exact h1, h2⟩
      · intro c' ch₁ h
        rcases get c' ch₁ h with ⟨rfl, rfl⟩ | ⟨-, h⟩
        · have hin : setEntry s.entry key (some s.chans.length) (Chan.new v key : Chan α).key = some s.chans.length := by
            simp [setEntry, Chan.new, Chan.join]
          refine join_inv (ch := ⟨key, [], [], .start v, false, [], [], false⟩) hin ⟨?_, ?_, ?_, ?_, ?_, ?_, ?_, ?_⟩
          · intro _; exact ⟨rfl, by cases v <;> simp [Task.start]⟩
          · rintro rfl; simp [Task.start]
          · intro _ _ _; exact hin
          · cases v <;> rfl
          · simp
          · cases v <;> simp [Task.start]
          · cases v <;> simp [Task.start]
          · cases v <;> simp [Task.start]
        · obtain ⟨i1, i2, i3, i4, i5, i6, i7, i8⟩ := k2 c' ch₁ h
          have he := hent c' ch₁ h
          exact ⟨fun h => i1 (he.1 h), i2, fun a b c => he.2 (i3 a b c), i4, i5, i6, i7, i8⟩
      · intro c' ch₁ h
        rw [given_append]
        rcases get c' ch₁ h with ⟨rfl, rfl⟩ | ⟨-, h⟩
        · rw [(k6 _ (Nat.le_refl _)).1]; rfl
        · rw [k3 c' ch₁ h]; simp [given]
      · intro c' ch₁ h
        rw [isOver_append]
        rcases get c' ch₁ h with ⟨rfl, rfl⟩ | ⟨-, h⟩
        · rw [(k6 _ (Nat.le_refl _)).2]; rfl
        · rw [k4 c' ch₁ h]; simp [isOver]
      · intro c' ch₁ h ht
        rcases get c' ch₁ h with ⟨rfl, rfl⟩ | ⟨-, h⟩
        · cases v <;> simp [Chan.new, Chan.join, Task.start] at ht
        · exact List.mem_append_left _ (k5 c' ch₁ h ht)
      · intro c' h
        simp only [List.length_append, List.length_singleton] at h
        rw [given_append, isOver_append, (k6 c' (by omega)).1, (k6 c' (by omega)).2]
        exact ⟨rfl, rfl⟩
  | created c ok =>
    refine onChan_inv inv (fun ch ch' hc h i => ?_) (fun _ _ => rfl) (fun _ _ => rfl) h
    obtain ⟨h1, h2, h3, h4, h5⟩ := created_inv i h
    refine ⟨h1, h2, by simp [given, h3], by simp [isOver, h4], fun h => ?_⟩
    rcases h5 h with h | rfl
    · exact .inl h
    · exact .inr rfl
  | check c =>
    refine onChan_inv inv (fun ch ch' hc h i => ?_) (fun _ _ => rfl) (fun _ _ => rfl) h
    obtain ⟨h1, h2, h3, h4, h5⟩ := check_inv i h
    exact ⟨h1, h2, by simp [given, h3], by simp [isOver, h4], fun h => .inl (h5 h)⟩
  | fetch c r =>
    refine onChan_inv inv (fun ch ch' hc h i => ?_) ?_ ?_ h
    · obtain ⟨h1, h2, h3, h4, h5⟩ := fetch_inv c i h
      exact ⟨h1, h2, h3, h4, fun h => .inl (h5 h)⟩
    · intro c' hne
      cases r <;> simp [given, hne.symm]
    · intro c' hne
      cases r <;> simp [isOver, hne.symm]
  | send c =>
    refine onChan_inv inv (fun ch ch' hc h i => ?_) (fun _ _ => rfl) (fun _ _ => rfl) h
    obtain ⟨h1, h2, h3, h4, h5⟩ := send_inv i h
    exact ⟨h1, h2, by simp [given, h3], by simp [isOver, h4], fun h => .inl (h5 h)⟩
  | remove c =>
    simp only [step, Option.bind_eq_some_iff, Option.map_eq_some_iff] at h
    obtain ⟨ch, hc, ⟨b, ch'⟩, h, rfl⟩ := h
    have hi := inv.chans c ch hc
    have hq : if b = true then ¬ ((if b = true then setEntry s.entry ch.key none else s.entry) ch.key = some c) else
        ((if b = true then setEntry s.entry ch.key none else s.entry) ch.key = some c ↔ s.entry ch.key = some c) := by
      cases b <;> simp [setEntry]
    obtain ⟨h1, h2, h3, h4, h5, h6⟩ := remove_inv hi h hq
    refine set_inv inv hc h2 h1 ?_ ?_ (by simp [given, h3]) (by simp [isOver, h4]) (fun h => .inl (h5 h)) (fun _ _ => rfl)
      (fun _ _ => rfl)
    · intro c' ch₁ hne h'
      cases b with
      | false => exact .inl Iff.rfl
      | true =>
        simp only [if_true]
        by_cases hk : ch₁.key = ch.key
        · cases v with
          | legacy => right; simp [setEntry, hk]
          | current =>
            left
            have := h6 rfl rfl
            rw [hk, this]
            simp [setEntry, hne.symm]
        · left; simp [setEntry, hk]
    · intro k c' he
      cases b with
      | false => exact he
      | true =>
        simp only [if_true, setEntry] at he
        split at he
        · cases he
        · exact he
  | recv c i =>
    refine onChan_inv inv (fun ch ch' hc h i => ?_) (fun _ _ => rfl) (fun _ _ => rfl) h
    split at h
    · obtain ⟨h1, h2, h3, h4, h5⟩ := onRecv_inv i (fun r r' _ hr ok => recv_ok (fun h => (Bool.or_eq_false_iff.1 h).1) hr ok) h
      exact ⟨h1, h2, by simp [given, h3], by simp [isOver, h4], fun h => .inl (h5 h)⟩
    · cases h
  | drop c i =>
    refine onChan_inv inv (fun ch ch' hc h i => ?_) (fun _ _ => rfl) (fun _ _ => rfl) h
    split at h
    · obtain ⟨h1, h2, h3, h4, h5⟩ := onRecv_inv i (fun r r' _ hr ok => drop_ok hr ok) h
      exact ⟨h1, h2, by simp [given, h3], by simp [isOver, h4], fun h => .inl (h5 h)⟩
    · cases h

theorem run_inv : ∀ {js is : List (Input α)} {s s' : St α}, Inv v is s → run v s js = some s' → Inv v (is ++ js) s'
  | [], is, s, s', inv, h => by
    simp only [run, Option.some.injEq] at h
    subst h
    simpa using inv
  | j :: t, is, s, s', inv, h => by
    rw [run, Option.bind_eq_some_iff] at h
    obtain ⟨m, h1, h2⟩ := h
    have := run_inv (js := t) (step_inv inv h1) h2
    simpa using this

theorem start_inv : Inv v ([] : List (Input α)) start :=
  ⟨by simp [start], by simp [start], by simp [start], by simp [start], by simp [start], fun _ _ => ⟨rfl, rfl⟩⟩

theorem reaches_inv {is : List (Input α)} {s : St α} (h : Reaches v is s) : Inv v is s := by
  simpa using run_inv start_inv h

end Verif.Dedup
