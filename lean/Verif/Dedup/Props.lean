import Verif.Dedup.Lemmas

/-! # C47: every subscriber of a shared extension subscription gets a live stream -/
namespace Verif.Dedup

variable {α : Type} {v : Variant}

theorem recv?_spec {s : St α} {c i : Nat} {ch : Chan α} {r : Recv α} (h : s.recv? c i = some (ch, r)) :
    s.chans[c]? = some ch ∧ ch.recvs[i]? = some r := by
  rw [St.recv?, Option.bind_eq_some_iff] at h
  obtain ⟨ch', h1, h2⟩ := h
  rw [Option.map_eq_some_iff] at h2
  obtain ⟨r', h2, h3⟩ := h2
  cases h3
  exact ⟨h1, h2⟩

theorem reached_recv {is : List (Input α)} {s : St α} (hr : Reaches v is s) {c i : Nat} {ch : Chan α} {r : Recv α}
    (h : s.recv? c i = some (ch, r)) : RecvOk v ch r :=
  ((reaches_inv hr).chans c ch (recv?_spec h).1).recvs r (List.mem_of_getElem? (recv?_spec h).2)

/-! ## Joining -/

/-- A subscriber can always join; its stream begins with what is sent from now on. -/
theorem C47_subscribe {is : List (Input α)} {s : St α} (hr : Reaches v is s) (key : Nat) :
    ∃ s' c ch r, step v s (.subscribe key) = some s' ∧ s'.entry key = some c ∧ s'.chans[c]? = some ch ∧ ch.key = key ∧
      ch.recvs.getLast? = some r ∧ r.joined = ch.items.length ∧ r.joinedDue = ch.due.length ∧ r.got = [] ∧ r.status = .alive ∧
      (∀ c₀, s.entry key = some c₀ → c = c₀) ∧ (s.entry key = none → c = s.chans.length) := by
  cases he : s.entry key with
  | some c =>
    obtain ⟨ch, h1, h2⟩ := (reaches_inv hr).keyed key c he
    refine ⟨⟨s.entry, s.chans.set c ch.join⟩, c, ch.join, _, by simp [step, subscribe, he, h1], he,
      List.getElem?_set_self (List.getElem?_eq_some_iff.1 h1).1, h2, by rw [Chan.join, List.getLast?_concat], rfl, rfl, rfl, rfl, ?_, ?_⟩
    · intro c₀ h; cases h; rfl
    · intro h; cases h
  | none =>
    refine ⟨⟨setEntry s.entry key (some s.chans.length), s.chans ++ [.new v key]⟩, s.chans.length, .new v key, _,
      by simp [step, subscribe, he], by simp [setEntry], by simp, rfl, rfl, rfl, rfl, rfl, rfl, ?_, fun _ => rfl⟩
    intro c₀ h; cases h

/-- The channel that a subscriber finds in the map has a task. -/
theorem C47_live {is : List (Input α)} {s : St α} (hr : Reaches .current is s) {key c : Nat} (he : s.entry key = some c) :
    ∃ ch, s.chans[c]? = some ch ∧ ch.key = key ∧ ch.task ≠ .stopped ∧ ch.task ≠ .failed := by
  have inv := reaches_inv hr
  obtain ⟨ch, h1, h2⟩ := inv.keyed key c he
  have hi := inv.chans c ch h1
  exact ⟨ch, h1, h2, (hi.mapped (by rw [h2]; exact he)).2, (hi.current rfl).1⟩

/-- With the older implementation this holds if creating a subscription never fails.  Missing: the case of a
failure, where it is false: `C47_failed_creation`. -/
theorem C47_live_partial {is : List (Input α)} {s : St α} (hr : Reaches .legacy is s) (hf : ∀ c, .created c false ∉ is)
    {key c : Nat} (he : s.entry key = some c) :
    ∃ ch, s.chans[c]? = some ch ∧ ch.key = key ∧ ch.task ≠ .stopped ∧ ch.task ≠ .failed := by
  have inv := reaches_inv hr
  obtain ⟨ch, h1, h2⟩ := inv.keyed key c he
  have hi := inv.chans c ch h1
  exact ⟨ch, h1, h2, (hi.mapped (by rw [h2]; exact he)).2, fun h => hf c (inv.failed c ch h1 h)⟩

/-! ## What a stream yields -/

/-- A stream yields the items sent after the subscriber joined, in order; items which are lost since the
subscriber did not keep up are reported.  When it ends nothing is left. -/
theorem C47_stream {is : List (Input α)} {s : St α} (hr : Reaches v is s) {c i : Nat} {ch : Chan α} {r : Recv α}
    (h : s.recv? c i = some (ch, r)) :
    ∃ seen rest, ch.items.drop r.joined = seen ++ rest ∧ Gaps seen r.got ∧ (r.status = .ended → rest = []) := by
  have ok := reached_recv hr h
  refine ⟨(ch.items.take r.pos).drop r.joined, ch.items.drop r.pos, ?_, ok.gaps, ?_⟩
  · conv => lhs; rw [← List.take_append_drop r.pos ch.items]
    rw [List.drop_append_of_le_length]
    have := ok.joinedLe
    have := ok.posLe
    rw [List.length_take]; omega
  · intro he
    rw [(ok.ended he).1, List.drop_length]

theorem Gaps.all {l : List α} {g : List (Option α)} (h : Gaps l g) (hn : none ∉ g) : g = l.map some := by
  induction h with
  | nil => rfl
  | item h ih => rw [ih (by simpa using hn)]; simp
  | lag h hne ih => simp at hn

/-- Only a receiver that is polled while it is too far behind gets a lag error. -/
theorem step_no_lag {s s' : St α} {x : Input α} (h : step v s x = some s') {c i : Nat} (hf : Follows c i s)
    (hn : ∀ ch r, s.recv? c i = some (ch, r) → none ∉ r.got) : ∀ ch r, s'.recv? c i = some (ch, r) → none ∉ r.got := by
  -- a step of a channel
  have onChan : ∀ {c' : Nat} {f : Chan α → Option (Chan α)}, (∀ ch ch', s.chans[c']? = some ch → f ch = some ch' → ∀ (j : Nat) r', ch'.recvs[j]? = some r' →
      r'.got = [] ∨ ∃ r, ch.recvs[j]? = some r ∧ (none ∈ r'.got → none ∈ r.got ∨ ch.items.length > r.pos + capacity)) →
      s.onChan c' f = some s' → ∀ ch r, s'.recv? c i = some (ch, r) → none ∉ r.got := by
    intro c' f hfr h' ch r hr
    rw [St.onChan, Option.bind_eq_some_iff] at h'
    obtain ⟨ch₀, hc, h'⟩ := h'
    rw [Option.map_eq_some_iff] at h'
    obtain ⟨ch', h', rfl⟩ := h'
    obtain ⟨h1, h2⟩ := recv?_spec hr
    by_cases hcc : c' = c
    · subst hcc
      have hlt := (List.getElem?_eq_some_iff.1 hc).1
      simp only [List.getElem?_set_self hlt, Option.some.injEq] at h1
      subst h1
      rcases hfr ch₀ ch' hc h' i r h2 with hg | ⟨r₀, h3, h4⟩
      · simp [hg]
      · intro hmem
        have hr0 : s.recv? c' i = some (ch₀, r₀) := by simp [St.recv?, hc, h3]
        rcases h4 hmem with h4 | h4
        · exact hn ch₀ r₀ hr0 h4
        · have := hf ch₀ r₀ hr0
          simp only [capacity] at h4
          omega
    · rw [List.getElem?_set_ne hcc] at h1
      exact hn ch r (by simp [St.recv?, h1, h2])
  have same : ∀ {c' : Nat} {f : Chan α → Option (Chan α)}, (∀ ch ch', f ch = some ch' → ch'.recvs = ch.recvs) →
      s.onChan c' f = some s' → ∀ ch r, s'.recv? c i = some (ch, r) → none ∉ r.got := by
    intro c' f hfr
    refine onChan fun ch ch' _ hff j r' hr' => .inr ⟨r', ?_, .inl⟩
    rw [← hfr ch ch' hff]; exact hr'
  cases x with
  | subscribe key =>
    simp only [step, subscribe] at h
    split at h
    · rename_i c' hc'
      have : s.onChan c' (fun ch => some ch.join) = some s' := by
        rw [Option.map_eq_some_iff] at h
        obtain ⟨ch, hch, rfl⟩ := h
        simp [St.onChan, hch]
      refine onChan (fun ch ch' _ hff j r' hr' => ?_) this
      cases hff
      simp only [Chan.join, List.getElem?_append] at hr'
      split at hr'
      · exact .inr ⟨r', hr', .inl⟩
      · have hm := List.mem_of_getElem? hr'
        rw [List.mem_singleton] at hm
        subst hm
        exact .inl rfl
    · cases h
      intro ch r hr
      obtain ⟨h1, h2⟩ := recv?_spec hr
      simp only [List.getElem?_append] at h1
      split at h1
      · exact hn ch r (by simp [St.recv?, h1, h2])
      · have hm := List.mem_of_getElem? h1
        rw [List.mem_singleton] at hm
        subst hm
        have hm := List.mem_of_getElem? h2
        simp only [Chan.new, Chan.join, List.nil_append, List.mem_singleton] at hm
        subst hm
        simp
  | created c' ok =>
    refine onChan (fun ch ch' _ hff j r' hr' => .inr ?_) h
    unfold created at hff
    split at hff
    · split at hff
      · cases hff; exact ⟨r', hr', .inl⟩
      · cases hff
        simp only [List.getElem?_modify] at hr'
        obtain ⟨r, hr, rfl⟩ := Option.map_eq_some_iff.1 hr'
        refine ⟨r, hr, fun h => .inl ?_⟩
        split at h <;> exact h
    · cases hff
  | check c' =>
    refine same (fun ch ch' hff => ?_) h
    unfold check at hff
    split at hff
    · split at hff
      · split at hff <;> cases hff <;> rfl
      · cases hff; rfl
    · cases hff
  | fetch c' r =>
    refine same (fun ch ch' hff => ?_) h
    unfold fetch at hff
    split at hff
    · split at hff
      · cases hff; rfl
      · cases hff; rfl
      · cases hff; rfl
      · split at hff <;> cases hff <;> rfl
    · cases hff
  | send c' =>
    refine same (fun ch ch' hff => ?_) h
    unfold send at hff
    split at hff
    · cases hff; rfl
    · split at hff <;> cases hff <;> rfl
    · split at hff <;> cases hff <;> rfl
    · cases hff
  | remove c' =>
    simp only [step, Option.bind_eq_some_iff, Option.map_eq_some_iff] at h
    obtain ⟨ch₀, hc, ⟨b, ch'⟩, h, rfl⟩ := h
    have hrecvs : ch'.recvs = ch₀.recvs := by
      unfold remove at h
      split at h
      · split at h <;> split at h <;> cases h <;> rfl
      · split at h <;> cases h <;> rfl
      · cases h
    intro ch r hr
    obtain ⟨h1, h2⟩ := recv?_spec hr
    by_cases hcc : c' = c
    · subst hcc
      simp only [List.getElem?_set_self (List.getElem?_eq_some_iff.1 hc).1, Option.some.injEq] at h1
      subst h1
      exact hn ch₀ r (by rw [hrecvs] at h2; simp [St.recv?, hc, h2])
    · simp only [List.getElem?_set_ne hcc] at h1
      exact hn ch r (by simp [St.recv?, h1, h2])
  | recv c' k =>
    refine onChan (fun ch ch' hch hff j r' hr' => .inr ?_) h
    split at hff
    · rw [Chan.onRecv, Option.bind_eq_some_iff] at hff
      obtain ⟨r, hr, hff⟩ := hff
      rw [Option.map_eq_some_iff] at hff
      obtain ⟨r₁, hff, rfl⟩ := hff
      by_cases hkj : k = j
      · subst hkj
        simp only [List.getElem?_set_self (List.getElem?_eq_some_iff.1 hr).1, Option.some.injEq] at hr'
        subst hr'
        refine ⟨r, hr, fun hmem => ?_⟩
        unfold recv at hff
        split at hff
        · split at hff
          · split at hff
            · rename_i hlag
              right; omega
            · cases hff; left; simpa using hmem
          · split at hff
            · cases hff
            · cases hff; exact .inl hmem
        · cases hff
      · simp only [List.getElem?_set_ne hkj] at hr'
        exact ⟨r', hr', .inl⟩
    · cases hff
  | drop c' k =>
    refine onChan (fun ch ch' _ hff j r' hr' => .inr ?_) h
    split at hff
    · rw [Chan.onRecv, Option.bind_eq_some_iff] at hff
      obtain ⟨r, hr, hff⟩ := hff
      rw [Option.map_eq_some_iff] at hff
      obtain ⟨r₁, hff, rfl⟩ := hff
      by_cases hkj : k = j
      · subst hkj
        simp only [List.getElem?_set_self (List.getElem?_eq_some_iff.1 hr).1, Option.some.injEq] at hr'
        subst hr'
        refine ⟨r, hr, fun hmem => .inl ?_⟩
        unfold Recv.drop at hff
        split at hff
        · cases hff
        · cases hff; exact hmem
      · simp only [List.getElem?_set_ne hkj] at hr'
        exact ⟨r', hr', .inl⟩
    · cases hff

/-- A subscriber which is never more than 1024 items behind gets every item sent after it joined. -/
theorem C47_no_lag {is : List (Input α)} {s : St α} (hr : Reaches v is s) {c i : Nat} {ch : Chan α} {r : Recv α}
    (h : s.recv? c i = some (ch, r)) (hf : Throughout v (Follows c i) start is) :
    ∃ rest, ch.items.drop r.joined = (r.got.filterMap id) ++ rest ∧ none ∉ r.got ∧ (r.status = .ended → rest = []) := by
  have key : ∀ (is : List (Input α)) (s₀ : St α), Throughout v (Follows c i) s₀ is →
      (∀ ch r, s₀.recv? c i = some (ch, r) → none ∉ r.got) → run v s₀ is = some s → none ∉ r.got := by
    intro is
    induction is with
    | nil =>
      intro s₀ _ hn hrun
      simp only [run, Option.some.injEq] at hrun
      subst hrun
      exact hn ch r h
    | cons x t ih =>
      intro s₀ hth hn hrun
      rw [run, Option.bind_eq_some_iff] at hrun
      obtain ⟨m, h1, h2⟩ := hrun
      exact ih m (hth.2 m h1) (step_no_lag h1 hth.1 hn) h2
  have hn : none ∉ r.got := key is start hf (by simp [start, St.recv?]) hr
  obtain ⟨seen, rest, h1, h2, h3⟩ := C47_stream hr h
  refine ⟨rest, ?_, hn, h3⟩
  rw [h1, h2.all hn]
  simp [List.filterMap_map]

/-- A subscriber which keeps up, in the sense of `C47_no_lag`. -/
example : Throughout .current (Follows 0 0) (start : St Nat) [.subscribe 7, .check 0, .fetch 0 (.items [10, 11]), .send 0, .recv 0 0,
    .send 0, .recv 0 0] := by
  repeat
    refine ⟨fun ch r h => ?_, fun s' h => ?_⟩
    · cases h <;> decide
    cases h
  intro ch r h
  cases h
  decide

/-! ## Streams stay -/

/-- What a step may do with the stream `i` of the channel `c`. -/
def Keeps (x : Input α) (c i : Nat) (ch ch' : Chan α) (r r' : Recv α) : Prop :=
  ch'.key = ch.key ∧ ch.items <+: ch'.items ∧ r'.joined = r.joined ∧ r.got <+: r'.got ∧
    (r.status ≠ .dropped → r'.status = .dropped → x = .drop c i ∨ (x = .created c false ∧ i = 0))

theorem Keeps.refl {x : Input α} {c i : Nat} {ch : Chan α} {r : Recv α} : Keeps x c i ch ch r r :=
  ⟨rfl, List.prefix_refl _, rfl, List.prefix_refl _, fun h h' => absurd h' h⟩

/-- A stream is the same one after any step: only its own subscriber drops it, and what it yielded stays. -/
theorem C47_kept {s s' : St α} {x : Input α} (h : step v s x = some s') {c i : Nat} {ch : Chan α} {r : Recv α}
    (hr : s.recv? c i = some (ch, r)) : ∃ ch' r', s'.recv? c i = some (ch', r') ∧ ch'.key = ch.key ∧ ch.items <+: ch'.items ∧
      r'.joined = r.joined ∧ r.got <+: r'.got ∧
      (r.status ≠ .dropped → r'.status = .dropped → x = .drop c i ∨ (x = .created c false ∧ i = 0)) := by
  obtain ⟨hc, hri⟩ := recv?_spec hr
  suffices hs : ∃ ch' r', s'.recv? c i = some (ch', r') ∧ Keeps x c i ch ch' r r' from hs
  -- a step of a channel
  have set : ∀ {c' : Nat} {ch₀ ch' : Chan α} {e : Nat → Option Nat}, s.chans[c']? = some ch₀ →
      (c' = c → ∃ r', ch'.recvs[i]? = some r' ∧ Keeps x c i ch₀ ch' r r') →
      ∃ ch'' r', St.recv? ⟨e, s.chans.set c' ch'⟩ c i = some (ch'', r') ∧ Keeps x c i ch ch'' r r' := by
    intro c' ch₀ ch' e h1 h2
    by_cases hcc : c' = c
    · subst hcc
      obtain ⟨r', h3, h4⟩ := h2 rfl
      rw [hc] at h1; cases h1
      exact ⟨ch', r', by simp [St.recv?, (List.getElem?_eq_some_iff.1 hc).1, h3], h4⟩
    · exact ⟨ch, r, by simp [St.recv?, List.getElem?_set_ne hcc, hc, hri], .refl⟩
  have onChan : ∀ {c' : Nat} {f : Chan α → Option (Chan α)}, (∀ ch', c' = c → f ch = some ch' →
      ∃ r', ch'.recvs[i]? = some r' ∧ Keeps x c i ch ch' r r') →
      s.onChan c' f = some s' → ∃ ch'' r', s'.recv? c i = some (ch'', r') ∧ Keeps x c i ch ch'' r r' := by
    intro c' f hf h'
    rw [St.onChan, Option.bind_eq_some_iff] at h'
    obtain ⟨ch₀, h1, h'⟩ := h'
    rw [Option.map_eq_some_iff] at h'
    obtain ⟨ch', h', rfl⟩ := h'
    refine set h1 fun hcc => ?_
    subst hcc
    rw [hc] at h1; cases h1
    exact hf ch' rfl h'
  have same : ∀ {ch' : Chan α}, ch'.key = ch.key → ch.items <+: ch'.items → ch'.recvs = ch.recvs →
      ∃ r', ch'.recvs[i]? = some r' ∧ Keeps x c i ch ch' r r' := by
    intro ch' h1 h2 h3
    exact ⟨r, by rw [h3]; exact hri, h1, h2, rfl, List.prefix_refl _, fun h h' => absurd h' h⟩
  cases x with
  | subscribe key =>
    simp only [step, subscribe] at h
    split at h
    · rw [Option.map_eq_some_iff] at h
      obtain ⟨ch₀, h1, rfl⟩ := h
      refine set h1 fun hcc => ?_
      subst hcc
      rw [hc] at h1; cases h1
      refine ⟨r, ?_, rfl, List.prefix_refl _, rfl, List.prefix_refl _, fun h h' => absurd h' h⟩
      simp only [Chan.join]
      rw [List.getElem?_append_left (List.getElem?_eq_some_iff.1 hri).1]; exact hri
    · cases h
      refine ⟨ch, r, ?_, .refl⟩
      simp only [St.recv?]
      rw [List.getElem?_append_left (List.getElem?_eq_some_iff.1 hc).1, hc]
      simp [hri]
  | created c' ok =>
    refine onChan (fun ch' hcc hff => ?_) h
    subst hcc
    unfold created at hff
    split at hff
    · split at hff
      · cases hff; exact same rfl (List.prefix_refl _) rfl
      · rename_i hok
        cases hff
        refine ⟨if 0 = i then { r with status := .dropped } else r, ?_, rfl, List.prefix_refl _, ?_, ?_, ?_⟩
        · simp only [List.getElem?_modify, hri]; rfl
        · split <;> rfl
        · split <;> exact List.prefix_refl _
        · intro h h'
          split at h'
          · rename_i h0
            exact .inr ⟨by cases ok <;> simp_all, h0.symm⟩
          · exact absurd h' h
    · cases hff
  | check c' =>
    refine onChan (fun ch' hcc hff => ?_) h
    unfold check at hff
    split at hff
    · split at hff
      · split at hff <;> cases hff <;> exact same rfl (List.prefix_refl _) rfl
      · cases hff; exact same rfl (List.prefix_refl _) rfl
    · cases hff
  | fetch c' a =>
    refine onChan (fun ch' hcc hff => ?_) h
    unfold fetch at hff
    split at hff
    · split at hff
      · cases hff; exact same rfl (List.prefix_refl _) rfl
      · cases hff; exact same rfl (List.prefix_refl _) rfl
      · cases hff; exact same rfl (List.prefix_refl _) rfl
      · split at hff <;> cases hff <;> exact same rfl (List.prefix_refl _) rfl
    · cases hff
  | send c' =>
    refine onChan (fun ch' hcc hff => ?_) h
    unfold send at hff
    split at hff
    · cases hff; exact same rfl (List.prefix_refl _) rfl
    · split at hff
      · cases hff; exact same rfl (List.prefix_refl _) rfl
      · cases hff; exact same rfl (List.prefix_append _ _) rfl
    · split at hff
      · cases hff; exact same rfl (List.prefix_refl _) rfl
      · cases hff; exact same rfl (List.prefix_append _ _) rfl
    · cases hff
  | remove c' =>
    simp only [step, Option.bind_eq_some_iff, Option.map_eq_some_iff] at h
    obtain ⟨ch₀, h1, ⟨b, ch'⟩, h, rfl⟩ := h
    refine set h1 fun hcc => ?_
    subst hcc
    rw [hc] at h1; cases h1
    unfold remove at h
    split at h
    · split at h <;> split at h <;> cases h <;> exact same rfl (List.prefix_refl _) rfl
    · split at h <;> cases h <;> exact same rfl (List.prefix_refl _) rfl
    · cases h
  | recv c' k =>
    refine onChan (fun ch' hcc hff => ?_) h
    split at hff
    · rw [Chan.onRecv, Option.bind_eq_some_iff] at hff
      obtain ⟨r₀, hr₀, hff⟩ := hff
      rw [Option.map_eq_some_iff] at hff
      obtain ⟨r₁, hff, rfl⟩ := hff
      by_cases hki : k = i
      · subst hki
        rw [hri] at hr₀; cases hr₀
        refine ⟨r₁, by simp [(List.getElem?_eq_some_iff.1 hri).1], rfl, List.prefix_refl _, ?_⟩
        unfold recv at hff
        split at hff
        · rename_i hal
          split at hff
          · split at hff <;> cases hff <;> exact ⟨rfl, List.prefix_append _ _, fun h h' => absurd h' (by simp [hal])⟩
          · split at hff
            · cases hff
            · cases hff; exact ⟨rfl, List.prefix_refl _, fun h h' => by simp at h'⟩
        · cases hff
      · exact ⟨r, by simp [List.getElem?_set_ne hki, hri], rfl, List.prefix_refl _, rfl, List.prefix_refl _, fun h h' => absurd h' h⟩
    · cases hff
  | drop c' k =>
    refine onChan (fun ch' hcc hff => ?_) h
    split at hff
    · rw [Chan.onRecv, Option.bind_eq_some_iff] at hff
      obtain ⟨r₀, hr₀, hff⟩ := hff
      rw [Option.map_eq_some_iff] at hff
      obtain ⟨r₁, hff, rfl⟩ := hff
      by_cases hki : k = i
      · subst hki
        rw [hri] at hr₀; cases hr₀
        refine ⟨r₁, by simp [(List.getElem?_eq_some_iff.1 hri).1], rfl, List.prefix_refl _, ?_⟩
        unfold Recv.drop at hff
        split at hff
        · cases hff
        · cases hff
          exact ⟨rfl, List.prefix_refl _, fun _ _ => .inl (by rw [hcc])⟩
      · exact ⟨r, by simp [List.getElem?_set_ne hki, hri], rfl, List.prefix_refl _, rfl, List.prefix_refl _, fun h h' => absurd h' h⟩
    · cases hff

/-! ## What is sent -/

/-- Everything that the extension gives after the subscriber joined, as long as it is subscribed, is sent,
or going to be. -/
theorem C47_all_items {is : List (Input α)} {s : St α} (hr : Reaches .current is s) {c i : Nat} {ch : Chan α} {r : Recv α}
    (h : s.recv? c i = some (ch, r)) (hd : r.status ≠ .dropped) :
    (given .current c is).drop r.joinedDue = ch.items.drop r.joined ++ ch.task.remaining := by
  have inv := reaches_inv hr
  have hc := (recv?_spec h).1
  have ok := reached_recv hr h
  obtain ⟨lost, e, hl⟩ := ok.due (by unfold Recv.counted; split <;> simp_all)
  rw [← inv.given c ch hc, (inv.chans c ch hc).fetched, List.drop_append_of_le_length ok.dueLe, e, hl rfl, List.nil_append]

/-- With the older implementation some items may be missing at the beginning: `C47_batch_lost`. -/
theorem C47_all_items_partial {is : List (Input α)} {s : St α} (hr : Reaches .legacy is s) {c i : Nat} {ch : Chan α} {r : Recv α}
    (h : s.recv? c i = some (ch, r)) (hd : r.status ≠ .dropped) :
    ∃ lost, (given .legacy c is).drop r.joinedDue = lost ++ ch.items.drop r.joined ++ ch.task.remaining := by
  have inv := reaches_inv hr
  have hc := (recv?_spec h).1
  have ok := reached_recv hr h
  obtain ⟨lost, e, hl⟩ := ok.due (by unfold Recv.counted; split <;> simp_all)
  exact ⟨lost, by rw [← inv.given c ch hc, (inv.chans c ch hc).fetched, List.drop_append_of_le_length ok.dueLe, e]⟩

/-! ## The end of a stream -/

/-- A stream ends only when the extension ended the subscription, or it could not be created. -/
theorem C47_ended {is : List (Input α)} {s : St α} (hr : Reaches v is s) {c i : Nat} {ch : Chan α} {r : Recv α}
    (h : s.recv? c i = some (ch, r)) (he : r.status = .ended) :
    isOver c is = true ∨ (v = .legacy ∧ .created c false ∈ is) := by
  have inv := reaches_inv hr
  obtain ⟨hc, hri⟩ := recv?_spec h
  have ok := reached_recv hr h
  have hi := inv.chans c ch hc
  have hl := (ok.ended he).2
  cases ht : ch.task <;> simp only [ht, Task.live, Bool.true_eq_false] at hl
  · right
    refine ⟨?_, inv.failed c ch hc ht⟩
    cases v with
    | legacy => rfl
    | current => exact absurd ht (hi.current rfl).1
  · left
    rw [← inv.over c ch hc]
    rcases hi.over ht with h | h
    · exact h
    · have := h r (List.mem_of_getElem? hri)
      simp [Recv.counted, he] at this

/-- The task stops only when the extension ended the subscription or there are no subscribers. -/
theorem C47_stopped {is : List (Input α)} {s : St α} (hr : Reaches v is s) {c i : Nat} {ch : Chan α} {r : Recv α}
    (h : s.recv? c i = some (ch, r)) (hd : r.status ≠ .dropped) (hs : ch.task = .stopped) : isOver c is = true := by
  have inv := reaches_inv hr
  obtain ⟨hc, hri⟩ := recv?_spec h
  rw [← inv.over c ch hc]
  rcases (inv.chans c ch hc).over hs with h | h
  · exact h
  · have := h r (List.mem_of_getElem? hri)
    unfold Recv.counted at this
    split at this <;> simp_all

/-- When the task has stopped, the stream goes on to its end. -/
theorem C47_ends {is : List (Input α)} {s : St α} (hr : Reaches v is s) {c i : Nat} {ch : Chan α} {r : Recv α}
    (h : s.recv? c i = some (ch, r)) (ha : r.status = .alive) (hs : ch.task = .stopped) :
    ∃ s' ch' r', step v s (.recv c i) = some s' ∧ s'.recv? c i = some (ch', r') ∧ ch'.items = ch.items ∧
      (r'.status = .ended ∨ r.pos < r'.pos) := by
  have inv := reaches_inv hr
  obtain ⟨hc, hri⟩ := recv?_spec h
  have hm : s.entry ch.key ≠ some c := fun h => ((inv.chans c ch hc).mapped h).2 hs
  have hse : s.hasSender c ch = false := by simp [St.hasSender, hs, Task.live, hm]
  have hst : ch.isStream i = true := by simp [Chan.isStream, hs]
  have hrec : ∃ r', recv ch.items false r = some r' ∧ (r'.status = .ended ∨ r.pos < r'.pos) := by
    unfold recv
    simp only [ha]
    cases hx : ch.items[r.pos]? with
    | none => exact ⟨_, rfl, .inl rfl⟩
    | some x =>
      simp only
      split
      · exact ⟨_, rfl, .inr (by simp only; omega)⟩
      · exact ⟨_, rfl, .inr (by simp)⟩
  obtain ⟨r', h1, h2⟩ := hrec
  refine ⟨⟨s.entry, s.chans.set c { ch with recvs := ch.recvs.set i r' }⟩, { ch with recvs := ch.recvs.set i r' }, r', ?_, ?_, rfl, h2⟩
  · simp [step, St.onChan, hc, hst, Chan.onRecv, hri, hse, h1]
  · simp [St.recv?, (List.getElem?_eq_some_iff.1 hc).1, (List.getElem?_eq_some_iff.1 hri).1]

/-! ## Sharing -/

/-- There is one upstream subscription for a key, apart from those which all subscribers had left. -/
theorem C47_shared {is : List (Input α)} {s : St α} (hr : Reaches .current is s) {c c' : Nat} {ch ch' : Chan α}
    (hc : s.chans[c]? = some ch) (hc' : s.chans[c']? = some ch') (hk : ch.key = ch'.key) (hl : ch.task ≠ .stopped)
    (hl' : ch'.task ≠ .stopped) (ho : ch.closed = false) (ho' : ch'.closed = false) : c = c' := by
  have inv := reaches_inv hr
  have live : ∀ {c : Nat} {ch : Chan α}, s.chans[c]? = some ch → ch.task ≠ .stopped → ch.closed = false → s.entry ch.key = some c := by
    intro c ch hc hl ho
    have hi := inv.chans c ch hc
    refine hi.shared rfl ?_ ho
    have := (hi.current rfl).1
    cases ht : ch.task <;> simp_all [Task.live]
  have h1 := live hc hl ho
  have h2 := live hc' hl' ho'
  rw [hk, h2] at h1
  exact (Option.some.inj h1).symm

/-! ## Where the claim is false -/

/-- The older implementation: once creating the subscription of this key has failed, and there is no other
subscription for it, no subscriber will ever receive anything or see its stream end, and no new attempt
is made. -/
structure Dead (key c : Nat) (s : St α) : Prop where
  entry : s.entry key = some c
  chan : ∃ ch, s.chans[c]? = some ch ∧ ch.key = key ∧ ch.task = .failed ∧ ch.items = [] ∧
    ∀ r ∈ ch.recvs, r.got = [] ∧ r.status ≠ .ended
  others : ∀ (c' : Nat) ch, s.chans[c']? = some ch → ch.key = key → ch.task = .failed ∨ ch.task = .stopped

theorem dead_set {key c : Nat} {s : St α} (hd : Dead key c s) {c' : Nat} {ch₀ ch' : Chan α} (hc : s.chans[c']? = some ch₀)
    (hk : ch'.key = ch₀.key) {e : Nat → Option Nat} (he : e key = s.entry key) (ht : ch₀.key = key → ch'.task = ch₀.task)
    (hi : c' = c → ch'.items = ch₀.items)
    (hr : c' = c → ∀ r ∈ ch'.recvs, r.got = [] ∧ r.status ≠ .ended) : Dead key c ⟨e, s.chans.set c' ch'⟩ := by
  obtain ⟨h1, ⟨ch, h2, h3, h4, h5, h6⟩, h7⟩ := hd
  have hlt := (List.getElem?_eq_some_iff.1 hc).1
  refine ⟨by rw [← h1]; exact he, ?_, ?_⟩
  · by_cases hcc : c' = c
    · subst hcc
      rw [hc] at h2; cases h2
      exact ⟨ch', List.getElem?_set_self hlt, by rw [hk, h3], by rw [ht h3, h4], by rw [hi rfl, h5], hr rfl⟩
    · exact ⟨ch, by rw [List.getElem?_set_ne hcc]; exact h2, h3, h4, h5, h6⟩
  · intro c'' ch'' h hk'
    by_cases hcc : c' = c''
    · subst hcc
      simp only [List.getElem?_set_self hlt, Option.some.injEq] at h
      subst h
      have hk'' : ch₀.key = key := by rw [← hk, hk']
      rw [ht hk'']
      exact h7 c' ch₀ hc hk''
    · simp only [List.getElem?_set_ne hcc] at h
      exact h7 c'' ch'' h hk'

theorem dead_step {key c : Nat} {s s' : St α} {x : Input α} (hd : Dead key c s) (h : step .legacy s x = some s') :
    Dead key c s' ∧ (x = .subscribe key → s'.chans.length = s.chans.length) := by
  have hd' := hd
  obtain ⟨h1, ⟨chd, h2, h3, h4, h5, h6⟩, h7⟩ := hd
  -- a task with this key does nothing
  have task : ∀ {c' : Nat} {f : Chan α → Option (Chan α)}, (∀ ch, ch.task = .failed ∨ ch.task = .stopped → f ch = none) →
      (∀ ch ch', f ch = some ch' → ch'.key = ch.key) → s.onChan c' f = some s' → Dead key c s' := by
    intro c' f hn hk hh
    rw [St.onChan, Option.bind_eq_some_iff] at hh
    obtain ⟨ch₀, hc, hh⟩ := hh
    rw [Option.map_eq_some_iff] at hh
    obtain ⟨ch', hh, rfl⟩ := hh
    have hne : ch₀.key ≠ key := by
      intro hk
      rw [hn ch₀ (h7 c' ch₀ hc hk)] at hh
      cases hh
    have hcc : c' ≠ c := by
      rintro rfl
      rw [h2] at hc; cases hc
      exact hne h3
    exact dead_set hd' hc (hk ch₀ ch' hh) rfl (fun h => absurd h hne) (fun h => absurd h hcc) (fun h => absurd h hcc)
  -- a receiver does not receive anything
  have rcv : ∀ {c' i : Nat} {f : Chan α → Recv α → Option (Recv α)}, (∀ ch r r', s.chans[c]? = some ch → c' = c → f ch r = some r' →
      r.got = [] ∧ r.status ≠ .ended → r'.got = [] ∧ r'.status ≠ .ended) →
      s.onChan c' (fun ch => if ch.isStream i then ch.onRecv i (f ch) else none) = some s' → Dead key c s' := by
    intro c' i f hf hh
    rw [St.onChan, Option.bind_eq_some_iff] at hh
    obtain ⟨ch₀, hc, hh⟩ := hh
    rw [Option.map_eq_some_iff] at hh
    obtain ⟨ch', hh, rfl⟩ := hh
    split at hh
    · rw [Chan.onRecv, Option.bind_eq_some_iff] at hh
      obtain ⟨r, hr, hh⟩ := hh
      rw [Option.map_eq_some_iff] at hh
      obtain ⟨r', hh, rfl⟩ := hh
      refine dead_set (ch' := { ch₀ with recvs := ch₀.recvs.set i r' }) hd' hc rfl rfl (fun _ => rfl) (fun _ => rfl) ?_
      rintro rfl y hy
      rw [h2] at hc; cases hc
      rcases List.mem_or_eq_of_mem_set hy with hy | rfl
      · exact h6 y hy
      · exact hf chd r y h2 rfl hh (h6 r (List.mem_of_getElem? hr))
    · cases hh
  cases x with
  | subscribe k =>
    simp only [step, subscribe] at h
    split at h
    · rename_i c' hc'
      rw [Option.map_eq_some_iff] at h
      obtain ⟨ch₀, hc, rfl⟩ := h
      refine ⟨dead_set (ch' := ch₀.join) hd' hc rfl rfl (fun _ => rfl) (fun _ => rfl) ?_, by simp⟩
      rintro rfl y hy
      rw [h2] at hc; cases hc
      simp only [Chan.join, List.mem_append, List.mem_singleton] at hy
      rcases hy with hy | rfl
      · exact h6 y hy
      · simp
    · rename_i hnone
      cases h
      have hkk : k ≠ key := by rintro rfl; rw [h1] at hnone; cases hnone
      refine ⟨⟨by simp [setEntry, hkk.symm, h1], ⟨chd, ?_, h3, h4, h5, h6⟩, ?_⟩, ?_⟩
      · simp only [List.getElem?_append_left (List.getElem?_eq_some_iff.1 h2).1, h2]
      · intro c' ch hc hk
        simp only [List.getElem?_append] at hc
        split at hc
        · exact h7 c' ch hc hk
        · have hm := List.mem_of_getElem? hc
          rw [List.mem_singleton] at hm
          subst hm
          exact absurd hk hkk
      · intro h; cases h; exact absurd rfl hkk
  | created c' ok =>
    refine ⟨task (fun ch ht => ?_) (fun ch ch' h => ?_) h, by simp⟩
    · rcases ht with ht | ht <;> simp [created, ht]
    · unfold created at h
      split at h
      · split at h <;> cases h <;> rfl
      · cases h
  | check c' =>
    refine ⟨task (fun ch ht => ?_) (fun ch ch' h => ?_) h, by simp⟩
    · rcases ht with ht | ht <;> simp [check, ht]
    · unfold check at h
      split at h
      · simp only at h; split at h <;> cases h <;> rfl
      · cases h
  | fetch c' r =>
    refine ⟨task (fun ch ht => ?_) (fun ch ch' h => ?_) h, by simp⟩
    · rcases ht with ht | ht <;> simp [fetch, ht]
    · unfold fetch at h
      split at h
      · split at h <;> cases h <;> rfl
      · cases h
  | send c' =>
    refine ⟨task (fun ch ht => ?_) (fun ch ch' h => ?_) h, by simp⟩
    · rcases ht with ht | ht <;> simp [send, ht]
    · unfold send at h
      split at h
      · cases h; rfl
      · split at h <;> cases h <;> rfl
      · split at h <;> cases h <;> rfl
      · cases h
  | remove c' =>
    simp only [step, Option.bind_eq_some_iff, Option.map_eq_some_iff] at h
    obtain ⟨ch₀, hc, ⟨b, ch'⟩, h, rfl⟩ := h
    have hne : ch₀.key ≠ key := by
      intro hk
      rcases h7 c' ch₀ hc hk with ht | ht <;> simp [remove, ht] at h
    have hcc : c' ≠ c := by
      rintro rfl
      rw [h2] at hc; cases hc
      exact hne h3
    have hk : ch'.key = ch₀.key := by
      unfold remove at h
      split at h
      · simp only at h; split at h <;> cases h <;> rfl
      · cases h; rfl
      · cases h
    refine ⟨dead_set hd' hc hk ?_ (fun h => absurd h hne) (fun h => absurd h hcc) (fun h => absurd h hcc), by simp⟩
    cases b <;> simp [setEntry, hne.symm]
  | recv c' i =>
    refine ⟨rcv (fun ch r r' hch hcc h hr => ?_) h, by simp⟩
    subst hcc
    rw [h2] at hch; cases hch
    have hs : s.hasSender c' chd = true := by simp [St.hasSender, h3, h1]
    rw [hs, h5] at h
    unfold recv at h
    split at h
    · simp at h
    · cases h
  | drop c' i =>
    refine ⟨rcv (fun ch r r' hch hcc h hr => ?_) h, by simp⟩
    unfold Recv.drop at h
    split at h
    · cases h
    · cases h; exact ⟨hr.1, by simp⟩

theorem dead_run {key c : Nat} : ∀ {is : List (Input α)} {s s' : St α}, Dead key c s → run .legacy s is = some s' → Dead key c s'
  | [], s, s', hd, h => by
    simp only [run, Option.some.injEq] at h
    subst h; exact hd
  | x :: t, s, s', hd, h => by
    rw [run, Option.bind_eq_some_iff] at h
    obtain ⟨m, h1, h2⟩ := h
    exact dead_run (is := t) (dead_step hd h1).1 h2

/-- The first subscriber is told that creating the subscription failed.  Whatever happens next: those that
join later find the dead channel, never receive an item, their streams never end, and no new attempt is
made. -/
theorem C47_failed_creation (key : Nat) {is : List (Input α)} {s : St α}
    (h : Reaches .legacy (.subscribe key :: .created 0 false :: is) s) :
    s.entry key = some 0 ∧ ∃ ch, s.chans[0]? = some ch ∧ ch.items = [] ∧ (∀ r ∈ ch.recvs, r.got = [] ∧ r.status ≠ .ended) ∧
      (∀ (c : Nat) ch', s.chans[c]? = some ch' → ch'.key = key → ch'.task = .failed ∨ ch'.task = .stopped) ∧
      ∃ s', step .legacy s (.subscribe key) = some s' ∧ s'.chans.length = s.chans.length := by
  have h0 : Dead key 0 (α := α) ⟨setEntry (fun _ => none) key (some 0),
      [⟨key, [], [⟨0, 0, 0, [], .dropped⟩], .failed, false, [], [], false⟩]⟩ := by
    refine ⟨by simp [setEntry], ⟨_, rfl, rfl, rfl, rfl, by simp⟩, ?_⟩
    intro c' ch hc _
    have := List.mem_of_getElem? hc
    rw [List.mem_singleton] at this
    subst this
    exact .inl rfl
  have h' : run .legacy (⟨setEntry (fun _ => none) key (some 0),
      [⟨key, [], [⟨0, 0, 0, [], .dropped⟩], .failed, false, [], [], false⟩]⟩ : St α) is = some s := h
  have hd := dead_run h0 h'
  have hd' := hd
  obtain ⟨h1, ⟨ch, h2, h3, h4, h5, h6⟩, h7⟩ := hd
  refine ⟨h1, ch, h2, h5, h6, h7, ⟨s.entry, s.chans.set 0 ch.join⟩, ?_, ?_⟩
  · simp [step, subscribe, h1, h2]
  · simp

/-- Such a subscriber. -/
example : ∃ s ch r, Reaches (α := Nat) .legacy [.subscribe 7, .created 0 false, .subscribe 7] s ∧ s.recv? 0 1 = some (ch, r) ∧
    r.status = .alive ∧ step .legacy s (.recv 0 1) = none :=
  ⟨_, _, _, rfl, rfl, rfl, rfl⟩

/-- The older implementation: the last subscriber leaves and the next item cannot be sent; a subscriber
that joins before the key is removed does not get the rest of the items given together. -/
theorem C47_batch_lost : ∃ (is : List (Input Nat)) (s : St Nat) (ch : Chan Nat) (r : Recv Nat), Reaches .legacy is s ∧
    s.recv? 0 1 = some (ch, r) ∧ r.status = .ended ∧ r.got = [] ∧ (given .legacy 0 is).drop r.joinedDue = [11, 12] :=
  ⟨[.subscribe 7, .created 0 true, .check 0, .fetch 0 (.items [10, 11, 12]), .drop 0 0, .send 0, .subscribe 7, .remove 0, .check 0,
    .fetch 0 .finished, .remove 0, .recv 0 1], _, _, _, rfl, rfl, rfl, rfl, rfl⟩

/-- The older implementation: the task of a subscription which all subscribers had left removes the entry
of a newer one, so that the next subscriber does not share it. -/
theorem C47_not_shared : ∃ (is : List (Input Nat)) (s : St Nat) (ch ch' : Chan Nat), Reaches .legacy is s ∧
    s.chans[1]? = some ch ∧ s.chans[2]? = some ch' ∧ ch.key = ch'.key ∧ ch.task ≠ .stopped ∧ ch'.task ≠ .stopped ∧
    ch.closed = false ∧ ch'.closed = false ∧ (∀ c, .created c false ∉ is) ∧ ch.recvs.any Recv.counted = true := by
  refine ⟨[.subscribe 7, .created 0 true, .check 0, .fetch 0 (.items [10]), .drop 0 0, .send 0, .subscribe 7, .remove 0, .check 0,
    .subscribe 7, .created 1 true, .fetch 0 .finished, .remove 0, .subscribe 7], _, _, _, rfl, rfl, rfl, rfl, ?_, ?_, rfl, rfl, ?_, rfl⟩
  · simp [Chan.new, Chan.join]
  · simp [Chan.new, Chan.join, Task.start]
  · simp

/-- Both: a subscriber which does not keep up loses items. -/
theorem C47_lag : ∃ (is : List (Input Nat)) (s : St Nat) (ch : Chan Nat) (r : Recv Nat), Reaches .current is s ∧
    s.recv? 0 0 = some (ch, r) ∧ none ∈ r.got := by
  have h : ((run .current start (.subscribe 7 :: .check 0 :: .fetch 0 (.items (List.replicate 1025 0)) ::
      (List.replicate 1025 (.send 0) ++ [.recv 0 0]))).bind fun s => (s.recv? 0 0).map fun x => x.2.got) = some [none] := by
    decide +kernel
  rw [Option.bind_eq_some_iff] at h
  obtain ⟨s, h1, h2⟩ := h
  rw [Option.map_eq_some_iff] at h2
  obtain ⟨⟨ch, r⟩, h2, h3⟩ := h2
  exact ⟨_, s, ch, r, h1, h2, by simp only at h3; simp [h3]⟩

/-- Two subscribers with the same key share the items; the second joins later. -/
example : ∃ s ch ch' r r', Reaches .current [.subscribe 7, .check 0, .fetch 0 (.items [10, 11]), .send 0, .subscribe 7, .send 0,
    .send 0, .check 0, .fetch 0 (.error 99), .send 0, .remove 0, .recv 0 0, .recv 0 0, .recv 0 0, .recv 0 0, .recv 0 1, .recv 0 1,
    .recv 0 1] s ∧ s.recv? 0 0 = some (ch, r) ∧ s.recv? 0 1 = some (ch', r') ∧ r.got = [some 10, some 11, some 99] ∧
    r'.got = [some 11, some 99] ∧ r.status = .ended ∧ r'.status = .ended ∧ s.entry 7 = none :=
  ⟨_, _, _, _, _, rfl, rfl, rfl, rfl, rfl, rfl, rfl, rfl⟩

end Verif.Dedup
