import Verif.RateLimit.Model

namespace Verif.RateLimit

/-! ## C20 -/

section
variable {Key : Type} [DecidableEq Key]

/-- Requests of key `k` in the window of length `d` from `a`. -/
def inWindow (k : Key) (a d : Nat) (r : Option Key × Nat) : Bool :=
  decide (r.1 = some k) && decide (a ≤ r.2) && decide (r.2 ≤ a + d)

theorem limit_quota (s : InMemory Key) (key : Option Key) (now : Nat) : (s.limit key now).2.quota = s.quota := by
  unfold InMemory.limit
  split
  · rfl
  · split
    · rfl
    · split <;> rfl

theorem window_aux (k : Key) (q a d : Nat) (rs : List (Option Key × Nat)) :
    ∀ s : InMemory Key, s.quota k = some q →
      let n := (s.admitted rs).countP (inWindow k a d)
      n = 0 ∨ (n - 1) * (gcra q).t + max ((s.tat k).getD 0) a ≤ a + d + (gcra q).tau := by
  induction rs with
  | nil => intro s hq; simp [InMemory.admitted]
  | cons r rs ih =>
    intro s hq
    obtain ⟨key, now⟩ := r
    have hq' : (s.limit key now).2.quota k = some q := by rw [limit_quota]; exact hq
    have ih' := ih (s.limit key now).2 hq'
    simp only [InMemory.admitted]
    by_cases hk : key = some k
    · subst hk
      simp only [InMemory.limit, hq] at ih' ⊢
      cases hc : (gcra q).check (s.tat k) now with
      | none =>
        simp only [hc] at ih' ⊢
        exact ih'
      | some x =>
        simp only [hc, if_true] at ih' ⊢
        unfold Limiter.check at hc
        simp only at hc
        split at hc
        · simp at hc
        · rename_i hnlt
          simp only [Option.some.injEq] at hc
          rw [List.countP_cons]
          generalize ((InMemory.admitted _ rs).countP (inWindow k a d)) = n at ih' ⊢
          have hx : (s.tat k).getD 0 + (gcra q).t ≤ x ∧ now + (gcra q).t ≤ x ∧ (s.tat k).getD 0 ≤ now + (gcra q).tau := by
            cases ht : s.tat k with
            | none => rw [ht] at hc; simp at hc ⊢; omega
            | some y => rw [ht] at hc hnlt; simp at hc hnlt ⊢; omega
          simp only [Option.getD_some] at ih'
          by_cases hw : inWindow k a d (some k, now) = true
          · rw [if_pos hw]
            simp [inWindow] at hw
            right
            simp only [Nat.add_sub_cancel]
            rcases ih' with h0 | h1
            · subst h0; simp; omega
            · cases n with
              | zero => simp; omega
              | succ n =>
                simp only [Nat.add_sub_cancel, Nat.add_mul, Nat.one_mul] at h1 ⊢
                omega
          · rw [if_neg hw]
            rcases ih' with h0 | h1
            · left; omega
            · right; simp only [Nat.add_zero]; omega
    · have hnw : inWindow k a d (key, now) = false := by simp [inWindow, hk]
      have htat : (s.limit key now).2.tat k = s.tat k := by
        unfold InMemory.limit
        split
        · rfl
        · rename_i k'
          have : k ≠ k' := by rintro rfl; exact hk rfl
          split
          · rfl
          · split
            · rfl
            · simp [this]
      rw [htat] at ih'
      split
      · rw [List.countP_cons, hnw]; simpa using ih'
      · exact ih'

/-- For any limiter state, any arrivals in any order, any other keys, any window: what the quota of `q` per second
admits of one key (`t` is the refill interval, a `q`-th of a second). -/
theorem C20_quota_bound (s : InMemory Key) (k : Key) (q a d : Nat) (rs : List (Option Key × Nat))
    (hq : s.quota k = some q) :
    ((s.admitted rs).countP (inWindow k a d) - 1) * (second / q) ≤ d + q * (second / q) := by
  have := window_aux k q a d rs s hq
  simp only [gcra] at this
  rw [Nat.mul_comm q]
  rcases this with h | h
  · rw [h]; simp
  · omega

/-- A limit of at least one request per second, at most `10^9` per second, over whole seconds, is always enforced:
no window of the configured duration sees more than the limit plus one burst (and the rounding of the refill
interval to nanoseconds). Missing: all other limits and durations, see the counterexamples. -/
theorem C20_enforced_partial (config : Key → Option Config) (k : Key) (c : Config) (a : Nat)
    (rs : List (Option Key × Nat)) (hc : config k = some c)
    (hd : c.durationNs = c.secs * second) (hs : 0 < c.secs) (hl : c.secs ≤ c.limit) (hm : c.limit / c.secs ≤ second) :
    let q := c.limit / c.secs
    (((InMemory.new config).admitted rs).countP (inWindow k a c.durationNs)) ≤
      c.limit + q + 1 + (c.secs * q) / (second / q) := by
  intro q
  have hq0 : 0 < q := Nat.div_pos hl hs
  have hlt : q < 2 ^ 32 := Nat.lt_of_le_of_lt hm (by decide)
  have hq : (InMemory.new config).quota k = some q := by
    simp only [InMemory.new, hc, Option.bind_some, createQuota]
    rw [if_neg (by omega), show c.limit / c.secs % 2 ^ 32 = q from Nat.mod_eq_of_lt hlt, if_neg (by omega)]
  have hb := C20_quota_bound (InMemory.new config) k q a c.durationNs rs hq
  generalize (((InMemory.new config).admitted rs).countP (inWindow k a c.durationNs)) = n at *
  have ht : 0 < second / q := Nat.div_pos hm hq0
  generalize hte : second / q = t at *
  have h1 : second < q * (t + 1) := by
    rw [← hte]; exact Nat.lt_mul_div_succ second hq0
  have h2 : c.secs * q ≤ c.limit := Nat.mul_div_le _ _
  have h3 : c.durationNs ≤ c.secs * q * t + c.secs * q := by
    rw [hd]
    calc c.secs * second ≤ c.secs * (q * (t + 1)) := Nat.mul_le_mul_left _ (Nat.le_of_lt h1)
      _ = c.secs * q * t + c.secs * q := by rw [← Nat.mul_assoc, Nat.mul_add, Nat.mul_one]
  have h4 : (n - 1) * t ≤ (c.secs * q + q) * t + c.secs * q := by
    rw [Nat.add_mul]; omega
  have h5 : n - 1 ≤ c.secs * q + q + c.secs * q / t := by
    have : n - 1 ≤ ((c.secs * q + q) * t + c.secs * q) / t := (Nat.le_div_iff_mul_le ht).2 h4
    rwa [Nat.mul_comm, Nat.mul_add_div ht] at this
  omega

/-- A limit below one request per second is not enforced at all: every request is admitted. -/
theorem C20_low_limit_counterexample (config : Key → Option Config) (k : Key) (c : Config) (hc : config k = some c)
    (hl : c.limit < c.secs ∨ c.durationNs < second) (n now : Nat) :
    (InMemory.new config).admitted (List.replicate n (some k, now)) = List.replicate n (some k, now) := by
  have hq : (InMemory.new config).quota k = none := by
    simp only [InMemory.new, hc, Option.bind_some, createQuota]
    split
    · rfl
    · rename_i h0
      have : c.limit / c.secs = 0 := by
        rcases hl with h | h
        · exact Nat.div_eq_of_lt h
        · exact absurd (Nat.div_eq_of_lt h) h0
      simp [this]
  have hlim : (InMemory.new config).limit (some k) now = (true, InMemory.new config) := by
    simp [InMemory.limit, hq]
  induction n with
  | zero => rfl
  | succ n ih =>
    rw [List.replicate_succ, InMemory.admitted]
    simp only [hlim, if_true, ih]

/-- Fractions of seconds are dropped: with 10 requests per 1.9 seconds, 28 requests pass within 1.9 seconds. -/
theorem C20_fraction_counterexample :
    let config : Unit → Option Config := fun _ => some ⟨10, 1900000000⟩
    let rs := List.replicate 10 (some (), 0) ++ (List.range 18).map (fun i => (some (), (i + 1) * 100000000))
    ((InMemory.new config).admitted rs).countP (inWindow () 0 1900000000) = 28 := by
  decide +kernel

/-- A quota that does not fit in 32 bits wraps around: `2^32` requests per second is no limit. -/
theorem C20_wrap_counterexample : createQuota ⟨2 ^ 32, second⟩ = none := by decide

end

/-! ## C21 -/

def Event.time : Event → Option Nat
  | .check now => some now
  | .incr _ now => some now
  | .lose _ => none

def times (h : List Event) : List Nat := h.filterMap Event.time

/-- Events are in the order of the clock. -/
def Ordered (h : List Event) : Prop := (times h).Pairwise (· ≤ ·)

/-- Admitted requests in the window that starts at `b`. -/
def admittedIn (d b : Nat) (s : Redis) : Nat := s.admitted.countP (fun t => bucketOf d t == b)

def losses (h : List Event) : Nat := h.countP (fun e => match e with | .lose _ => true | _ => false)

structure Inv (c : Config) (h : List Event) (s : Redis) : Prop where
  expires : ∀ b x, s.counters b = some x → b + 2 * c.durationNs ≤ x.expires
  pend : ∀ b ∈ s.pending, ∃ t ∈ times h, b ≤ t
  count : ∀ b T, (∀ t ∈ times h, t ≤ T) → T < b + 2 * c.durationNs →
    admittedIn c.durationNs b s ≤ ((s.counters b).map (·.value)).getD 0 + s.pending.count b + losses h

theorem run_snoc (c : Config) (h : List Event) (e : Event) :
    Redis.run c (h ++ [e]) = Redis.step c (Redis.run c h) e := by simp [Redis.run]

theorem get_eq {s : Redis} {b now d : Nat} (hx : ∀ x, s.counters b = some x → b + 2 * d ≤ x.expires)
    (hn : now < b + 2 * d) : s.get b now = ((s.counters b).map (·.value)).getD 0 := by
  unfold Redis.get
  cases hb : s.counters b with
  | none => simp
  | some x => have := hx x hb; simp; omega

theorem count_eraseIdx_le (l : List Nat) (i b : Nat) : (l.eraseIdx i).count b ≤ l.count b :=
  (List.eraseIdx_sublist l i).count_le b

theorem count_eraseIdx (l : List Nat) (i : Nat) (x b : Nat) (h : l[i]? = some x) :
    l.count b = (l.eraseIdx i).count b + (x == b).toNat := by
  induction l generalizing i with
  | nil => simp at h
  | cons a l ih =>
    cases i with
    | zero =>
      simp at h; subst h
      rw [List.eraseIdx_cons_zero, List.count_cons]
      cases a == b <;> simp
    | succ i =>
      simp at h
      rw [List.eraseIdx_cons_succ, List.count_cons, List.count_cons, ih i h]; omega

theorem inv_step {c : Config} (hd : c.durationNs = c.secs * second) (hs : 0 < c.secs) {h : List Event} {e : Event}
    (ho : Ordered (h ++ [e])) (i : Inv c h (Redis.run c h)) : Inv c (h ++ [e]) (Redis.run c (h ++ [e])) := by
  rw [run_snoc]
  have hmono : ∀ t ∈ times h, t ∈ times (h ++ [e]) := by intro t ht; simp [times] at *; exact Or.inl ht
  have hlm : losses h ≤ losses (h ++ [e]) := by simp [losses]
  generalize Redis.run c h = s at *
  cases e with
  | check now =>
    simp only [Redis.step]
    split
    · constructor
      · exact i.expires
      · intro b hb
        simp at hb
        rcases hb with rfl | hb
        · exact ⟨now, by simp [times, Event.time], Nat.sub_le _ _⟩
        · obtain ⟨t, h1, h2⟩ := i.pend b hb
          exact ⟨t, hmono t h1, h2⟩
      · intro b T hT hb
        have := i.count b T (fun t ht => hT t (hmono t ht)) hb
        simp only [admittedIn, List.countP_cons, List.count_cons] at *
        omega
    · exact ⟨i.expires, fun b hb => by obtain ⟨t, h1, h2⟩ := i.pend b hb; exact ⟨t, hmono t h1, h2⟩,
        fun b T hT hb => Nat.le_trans (i.count b T (fun t ht => hT t (hmono t ht)) hb) (by omega)⟩
  | incr k now =>
    simp only [Redis.step]
    cases hp : s.pending[k]? with
    | none =>
      dsimp only
      exact ⟨i.expires, fun b hb => by obtain ⟨t, h1, h2⟩ := i.pend b hb; exact ⟨t, hmono t h1, h2⟩,
        fun b T hT hb => Nat.le_trans (i.count b T (fun t ht => hT t (hmono t ht)) hb) (by omega)⟩
    | some b0 =>
      have hb0 : b0 ≤ now := by
        obtain ⟨t, h1, h2⟩ := i.pend b0 (List.mem_of_getElem? hp)
        have : t ≤ now := by
          unfold Ordered times at ho
          rw [List.filterMap_append, List.pairwise_append] at ho
          exact ho.2.2 t h1 now (by simp [Event.time])
        omega
      have hexp : c.secs * 2 * second = 2 * c.durationNs := by rw [hd, Nat.mul_right_comm, Nat.mul_comm]
      constructor
      · intro b x hx
        simp only [Redis.incr] at hx
        split at hx
        · rename_i hb
          rw [if_neg (by omega)] at hx
          simp at hx
          subst hx
          simp only
          rw [hexp]; omega
        · exact i.expires b x hx
      · intro b hb
        obtain ⟨t, h1, h2⟩ := i.pend b ((List.eraseIdx_sublist _ _).subset hb)
        exact ⟨t, hmono t h1, h2⟩
      · intro b T hT hb
        have hc := i.count b T (fun t ht => hT t (hmono t ht)) hb
        have hnow : now ≤ T := hT now (by simp [times, Event.time])
        rw [count_eraseIdx s.pending k b0 b hp] at hc
        simp only [Redis.incr]
        by_cases e : b = b0
        · subst e
          rw [if_pos rfl, if_neg (by omega), get_eq (i.expires b) (by omega)]
          simp [admittedIn] at hc ⊢
          omega
        · rw [if_neg e]
          have : (b0 == b) = false := by simp; exact fun h => e h.symm
          simp [this, admittedIn] at hc ⊢
          omega
  | lose k =>
    simp only [Redis.step]
    have hl : losses (h ++ [.lose k]) = losses h + 1 := by simp [losses]
    constructor
    · exact i.expires
    · intro b hb
      obtain ⟨t, h1, h2⟩ := i.pend b ((List.eraseIdx_sublist _ _).subset hb)
      exact ⟨t, hmono t h1, h2⟩
    · intro b T hT hb
      have hc := i.count b T (fun t ht => hT t (hmono t ht)) hb
      have : s.pending.count b ≤ (s.pending.eraseIdx k).count b + 1 := by
        cases hp : s.pending[k]? with
        | none =>
          rw [List.eraseIdx_of_length_le (by simpa using hp)]; omega
        | some x => rw [count_eraseIdx s.pending k x b hp]; cases x == b <;> simp
      rw [hl]
      simp [admittedIn] at hc ⊢
      omega

theorem Ordered.left {h h' : List Event} (ho : Ordered (h ++ h')) : Ordered h := by
  unfold Ordered times at *
  rw [List.filterMap_append, List.pairwise_append] at ho
  exact ho.1

/-- Induction from the right. -/
theorem snoc_induction {P : List Event → Prop} (h0 : P []) (hs : ∀ h e, P h → P (h ++ [e])) (h : List Event) : P h := by
  have : ∀ h' h, P h → P (h ++ h') := by
    intro h'
    induction h' with
    | nil => intro h hp; simpa using hp
    | cons e h' ih => intro h hp; have := ih (h ++ [e]) (hs h e hp); simpa using this
  simpa using this h [] h0

theorem inv_run {c : Config} (hd : c.durationNs = c.secs * second) (hs : 0 < c.secs) (h : List Event)
    (ho : Ordered h) : Inv c h (Redis.run c h) := by
  induction h using snoc_induction with
  | h0 => constructor <;> simp [Redis.run, Redis.init, admittedIn]
  | hs h e ih => exact inv_step hd hs ho (ih ho.left)

theorem bucket_lt {d now : Nat} (hd : 0 < d) : now < bucketOf d now + d := by
  have := Nat.mod_lt now hd
  have := Nat.mod_le now d
  unfold bucketOf; omega

/-- For durations of whole seconds and any interleaving of any number of requests and increments: the requests
admitted in a window exceed the limit at most by the increments that are outstanding when a request is checked,
plus those that failed. -/
theorem C21_concurrent (c : Config) (hd : c.durationNs = c.secs * second) (hs : 0 < c.secs) (h : List Event)
    (ho : Ordered h) (b P : Nat)
    (hP : ∀ h1 now h2, h = h1 ++ .check now :: h2 → (Redis.run c h1).pending.count b ≤ P) :
    admittedIn c.durationNs b (Redis.run c h) ≤ c.limit + P + losses h := by
  induction h using snoc_induction with
  | h0 => simp [Redis.run, Redis.init, admittedIn]
  | hs h e ih =>
    have ih := ih ho.left (fun h1 now h2 e' => hP h1 now (h2 ++ [e]) (by simp [e']))
    have hlm : losses h ≤ losses (h ++ [e]) := by simp [losses]
    rw [run_snoc]
    cases e with
    | check now =>
      simp only [Redis.step]
      split
      · rename_i hadm
        have inv := inv_run hd hs h ho.left
        by_cases hb : bucketOf c.durationNs now = b
        · have hp := hP h now [] (by simp)
          unfold Redis.outcome at hadm
          simp only at hadm
          split at hadm
          · simp at hadm
          · rename_i hd0
            split at hadm
            · rename_i hlt
              have hd0 : 0 < c.durationNs := Nat.pos_of_ne_zero hd0
              have hnow : now < b + 2 * c.durationNs := by
                have := bucket_lt (now := now) hd0
                omega
              rw [hb] at hlt
              have hcnt : min ((Redis.run c h).get b now) c.limit < c.limit := by
                have : min ((Redis.run c h).get b now) c.limit * c.durationNs < c.limit * c.durationNs := by omega
                exact Nat.lt_of_mul_lt_mul_right this
              rw [get_eq (inv.expires b) hnow] at hcnt
              have hT : ∀ t ∈ times h, t ≤ now := by
                unfold Ordered times at ho
                rw [List.filterMap_append, List.pairwise_append] at ho
                intro t ht
                exact ho.2.2 t ht now (by simp [Event.time])
              have hc := inv.count b now hT hnow
              simp [admittedIn, hb] at hc ⊢
              omega
            · simp at hadm
        · simp [admittedIn, List.countP_cons, hb] at ih ⊢
          omega
      · omega
    | incr k now =>
      simp only [Redis.step]
      split <;> simp [admittedIn] at ih ⊢ <;> omega
    | lose k =>
      simp only [Redis.step]
      simp [admittedIn] at ih ⊢; omega

/-- Increments complete before the next request is checked, and none fails. -/
def Sequential (c : Config) (h : List Event) : Prop :=
  (∀ h1 now h2, h = h1 ++ .check now :: h2 → (Redis.run c h1).pending = []) ∧ losses h = 0

/-- Without races and failures, a window admits at most the limit. Missing: races and failures, which are bounded
by `C21_concurrent`, and durations that are not whole seconds. -/
theorem C21_window_partial (c : Config) (hd : c.durationNs = c.secs * second) (hs : 0 < c.secs) (h : List Event)
    (ho : Ordered h) (hseq : Sequential c h) (b : Nat) :
    admittedIn c.durationNs b (Redis.run c h) ≤ c.limit := by
  have := C21_concurrent c hd hs h ho b 0 (fun h1 now h2 e => by simp [hseq.1 h1 now h2 e])
  rw [hseq.2] at this
  simpa using this

/-- Without races and failures, whenever a request is admitted at offset `r` of its window, the requests admitted
before in the previous window, weighted by what is left of it, plus those of the current window are below the
limit. -/
theorem C21_weighted_partial (c : Config) (hd : c.durationNs = c.secs * second) (hs : 0 < c.secs) (h : List Event)
    (now : Nat) (ho : Ordered (h ++ [.check now])) (hseq : Sequential c (h ++ [.check now]))
    (hn : c.durationNs ≤ now) (hadm : (Redis.run c h).outcome c now = .admitted) :
    let d := c.durationNs
    let b := bucketOf d now
    let r := now % d
    admittedIn d (b - d) (Redis.run c h) * (d - r) + admittedIn d b (Redis.run c h) * d < c.limit * d := by
  intro d b r
  have inv := inv_run hd hs h ho.left
  have hT : ∀ t ∈ times h, t ≤ now := by
    unfold Ordered times at ho
    rw [List.filterMap_append, List.pairwise_append] at ho
    intro t ht
    exact ho.2.2 t ht now (by simp [Event.time])
  have hp : (Redis.run c h).pending = [] := hseq.1 h now [] rfl
  have hl : losses h = 0 := by have := hseq.2; simp [losses] at this ⊢; exact this
  have hseq' : Sequential c h :=
    ⟨fun h1 now' h2 e => hseq.1 h1 now' (h2 ++ [.check now]) (by simp [e]), hl⟩
  unfold Redis.outcome at hadm
  simp only at hadm
  split at hadm
  · simp at hadm
  · rename_i hd0
    split at hadm
    · rename_i hlt
      have hd0 : 0 < c.durationNs := Nat.pos_of_ne_zero hd0
      have hbn := bucket_lt (now := now) hd0
      have hbd : c.durationNs ≤ bucketOf c.durationNs now := by
        unfold bucketOf
        have h1 := Nat.div_add_mod now c.durationNs
        have h2 : 1 ≤ now / c.durationNs := Nat.div_pos hn hd0
        have h3 : c.durationNs * 1 ≤ c.durationNs * (now / c.durationNs) := Nat.mul_le_mul_left _ h2
        omega
      have hcur : admittedIn c.durationNs (bucketOf c.durationNs now) (Redis.run c h) ≤
          min ((Redis.run c h).get (bucketOf c.durationNs now) now) c.limit := by
        have h1 := C21_window_partial c hd hs h ho.left hseq' (bucketOf c.durationNs now)
        have h2 := inv.count (bucketOf c.durationNs now) now hT (by omega)
        rw [hp, hl, ← get_eq (now := now) (inv.expires _) (by omega)] at h2
        simp at h2
        omega
      have hprev : admittedIn c.durationNs (bucketOf c.durationNs now - c.durationNs) (Redis.run c h) ≤
          min ((Redis.run c h).get (bucketOf c.durationNs now - c.durationNs) now) c.limit := by
        have h1 := C21_window_partial c hd hs h ho.left hseq' (bucketOf c.durationNs now - c.durationNs)
        have h2 := inv.count (bucketOf c.durationNs now - c.durationNs) now hT (by omega)
        rw [hp, hl, ← get_eq (now := now) (inv.expires _) (by omega)] at h2
        simp at h2
        omega
      have h1 := Nat.mul_le_mul_right c.durationNs hcur
      have h2 := Nat.mul_le_mul_right (c.durationNs - now % c.durationNs) hprev
      show admittedIn c.durationNs (bucketOf c.durationNs now - c.durationNs) (Redis.run c h) *
        (c.durationNs - now % c.durationNs) +
        admittedIn c.durationNs (bucketOf c.durationNs now) (Redis.run c h) * c.durationNs < c.limit * c.durationNs
      omega
    · simp at hadm

/-- Without races and failures, any stretch of time as long as the window admits at most twice the limit. -/
theorem C21_sliding (c : Config) (hd : c.durationNs = c.secs * second) (hs : 0 < c.secs) (h : List Event)
    (ho : Ordered h) (hseq : Sequential c h) (a : Nat) :
    (Redis.run c h).admitted.countP (fun t => decide (a ≤ t) && decide (t < a + c.durationNs)) ≤ 2 * c.limit := by
  have hd0 : 0 < c.durationNs := by rw [hd]; exact Nat.mul_pos hs (by decide)
  have h1 := C21_window_partial c hd hs h ho hseq (bucketOf c.durationNs a)
  have h2 := C21_window_partial c hd hs h ho hseq (bucketOf c.durationNs a + c.durationNs)
  have key : ∀ l : List Nat, l.countP (fun t => decide (a ≤ t) && decide (t < a + c.durationNs)) ≤
      l.countP (fun t => bucketOf c.durationNs t == bucketOf c.durationNs a) +
      l.countP (fun t => bucketOf c.durationNs t == bucketOf c.durationNs a + c.durationNs) := by
    intro l
    induction l with
    | nil => simp
    | cons t l ih =>
      simp only [List.countP_cons]
      by_cases hw : (decide (a ≤ t) && decide (t < a + c.durationNs)) = true
      · have : bucketOf c.durationNs t = bucketOf c.durationNs a ∨
            bucketOf c.durationNs t = bucketOf c.durationNs a + c.durationNs := by
          simp at hw
          have e : ∀ x, bucketOf c.durationNs x = c.durationNs * (x / c.durationNs) := by
            intro x
            have := Nat.div_add_mod x c.durationNs
            unfold bucketOf; omega
          rw [e, e]
          have q1 : a / c.durationNs ≤ t / c.durationNs := Nat.div_le_div_right hw.1
          have q2 : t / c.durationNs ≤ a / c.durationNs + 1 := by
            rw [← Nat.add_div_right a hd0]; exact Nat.div_le_div_right (by omega)
          have : t / c.durationNs = a / c.durationNs ∨ t / c.durationNs = a / c.durationNs + 1 := by omega
          rcases this with e | e
          · left; rw [e]
          · right; rw [e, Nat.mul_add, Nat.mul_one]
        rcases this with e | e
        · simp [hw, e]; omega
        · simp [hw, e]; omega
      · simp [hw]; omega
  have := key (Redis.run c h).admitted
  unfold admittedIn at h1 h2
  omega

/-- Two requests checked before the first increment arrives are both admitted under a limit of one. -/
theorem C21_race_counterexample :
    ∃ (c : Config) (h : List Event), c.durationNs = c.secs * second ∧ 0 < c.secs ∧ Ordered h ∧
      c.limit < admittedIn c.durationNs second (Redis.run c h) := by
  refine ⟨⟨1, second⟩, [.check second, .check second], by decide, by decide, ?_, by decide⟩
  simp [Ordered, times, Event.time]

/-- With a duration below one second (the expiry is then zero) nothing is ever refused. -/
theorem C21_subsecond_counterexample (c : Config) (hd : 0 < c.durationNs) (hs : c.secs = 0) (hl : 0 < c.limit)
    (h : List Event) (now : Nat) : (Redis.run c h).outcome c now = .admitted := by
  have hnone : (Redis.run c h).counters = fun _ => none := by
    induction h using snoc_induction with
    | h0 => rfl
    | hs h e ih =>
      rw [run_snoc]
      cases e with
      | check now => simp only [Redis.step]; split <;> exact ih
      | incr k now =>
        simp only [Redis.step]
        split
        · funext b
          simp [Redis.incr, hs, ih]
        · exact ih
      | lose k => exact ih
  have hg : ∀ b, (Redis.run c h).get b now = 0 := by intro b; simp [Redis.get, hnone]
  unfold Redis.outcome
  simp only [hg, Nat.zero_min, Nat.zero_mul, Nat.add_zero, if_neg (Nat.ne_of_gt hd), if_pos (Nat.mul_pos hl hd)]

/-- A duration of zero panics. -/
theorem C21_zero_duration_counterexample (s : Redis) (limit now : Nat) : s.outcome ⟨limit, 0⟩ now = .panic := by
  simp [Redis.outcome]

/-! ## Non-vacuity -/

/-- One request per second: admitted, counted, the second refused, and again after the window. -/
def sampleHistory : List Event := [.check second, .incr 0 (second + 5), .check (second + 7), .check (3 * second)]

example : Ordered sampleHistory := by simp [Ordered, sampleHistory, times, Event.time, second]
example : (Redis.run ⟨1, second⟩ sampleHistory).admitted = [3 * second, second] := by decide
example : Sequential ⟨1, second⟩ sampleHistory := by
  refine ⟨?_, by decide⟩
  intro h1 now h2 e
  have hlen := congrArg List.length e
  simp [sampleHistory] at hlen
  rcases h1 with _ | ⟨a, _ | ⟨b, _ | ⟨c, _ | ⟨d, h1⟩⟩⟩⟩
  · decide
  · simp [sampleHistory] at e
  · simp [sampleHistory] at e
    obtain ⟨rfl, rfl, -⟩ := e
    decide
  · simp [sampleHistory] at e
    obtain ⟨rfl, rfl, rfl, -⟩ := e
    decide
  · simp at hlen; omega

example : ((InMemory.new (fun _ : Unit => some ⟨20, 10 * second⟩)).admitted
    (List.replicate 10 (some (), 0))).length = 2 := by decide +kernel

end Verif.RateLimit
