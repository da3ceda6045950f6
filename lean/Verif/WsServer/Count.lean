import Verif.WsServer.Flow

/-!
# Invariants: pongs, the end of an operation, and what the server does by itself
-/
namespace Verif.WsServer

variable {P Q R S T : Type}

/-- The message of the loop. -/
def loopPending : At P R S → List (Msg R)
  | .sending _ m => [m]
  | _ => []

theorem pongs_append (a b : List (Msg R)) : pongs (a ++ b) = pongs a + pongs b := by
  simp [pongs]

theorem pings_snoc (es : List (Event P Q)) (e : Event P Q) :
    pings (es ++ [e]) = pings es + (match e with | .ping => 1 | _ => 0) := by
  cases e <;> simp [pings]

theorem pongs_about {l : List (Msg R)} (h : ∀ m ∈ l, about m ≠ none) : pongs l = 0 := by
  induction l with
  | nil => rfl
  | cons m l ih =>
    have h1 := h m (by simp)
    have h2 := ih (fun x hx => h x (by simp [hx]))
    cases m <;> simp_all [pongs, about]

structure Counted (w : Seen P Q) (st : St P Q R S) : Prop where
  plain : ∀ m ∈ flow st, m.origin = none → about m.msg = none
  exact : st.pump ≠ .dead → pongs ((flow st).map (·.msg)) + pongs (loopPending st.at_) = pings w.events
  most : pongs (written st) ≤ pings w.events
  room : st.queue.length ≤ capacity

theorem counted_start : Counted ⟨false, false, []⟩ (start : St P Q R S) := by
  constructor <;> simp [start, flow, inflight, pongs, pings, loopPending, written]

/-- A transition without a message. -/
theorem Counted.same {w w' : Seen P Q} {st st' : St P Q R S} (h : Counted w st) (hf : flow st' = flow st)
    (ho : st'.out = st.out) (hq : st'.queue.length ≤ st.queue.length) (hp : st'.pump = .dead ↔ st.pump = .dead)
    (he : pings w'.events + pongs (loopPending st.at_) = pings w.events + pongs (loopPending st'.at_)) (hle : pings w.events ≤ pings w'.events) :
    Counted w' st' := by
  constructor
  · rw [hf]; exact h.plain
  · intro hd
    have := h.exact (fun x => hd (hp.mpr x))
    rw [hf]
    omega
  · have := h.most
    simp only [written, ho] at this ⊢
    omega
  · exact Nat.le_trans hq h.room

theorem Counted.dies {w w' : Seen P Q} {st : St P Q R S} (h : Counted w st) (he : w'.events = w.events) :
    Counted w' (die st) := by
  constructor
  · intro m hm
    apply h.plain m
    simp only [flow, die, inflight, List.append_nil] at hm
    simp [flow, hm]
  · intro hd; simp [die] at hd
  · rw [he]; exact h.most
  · simp [die]

/-- A message of the acceptance. -/
theorem Counted.write {w w' : Seen P Q} {st : St P Q R S} (h : Counted w st) (he : w'.events = w.events)
    (hq : st.queue = []) (hi : inflight st.pump = []) (hl : loopPending st.at_ = []) {m : Msg R} {a : At P R S} {b : Bool}
    (hl' : loopPending a = []) (hm : pongs [m] = 0) (hab : about m = none) :
    Counted w' { st with at_ := a, out := st.out ++ [⟨none, m⟩], closed := b } := by
  have hfl : flow { st with at_ := a, out := st.out ++ [⟨none, m⟩], closed := b } = flow st ++ [⟨none, m⟩] := by
    simp [flow, hq, hi]
  constructor
  · rw [hfl]
    intro x hx
    rcases List.mem_append.mp hx with hx | hx
    · exact h.plain x hx
    · simp at hx; subst hx; intro _; exact hab
  · intro hd
    have := h.exact hd
    rw [hfl, List.map_append, pongs_append, he]
    simp only [hl', hl, pongs, List.countP_nil, List.map_cons, List.map_nil] at *
    omega
  · rw [he]
    have := h.most
    simp only [written, List.map_append, pongs_append, List.map_cons, List.map_nil, hm] at this ⊢
    omega
  · exact h.room

/-- The channel takes a message. -/
theorem Counted.push {w w' : Seen P Q} {st st' : St P Q R S} (h : Counted w st) (he : w'.events = w.events)
    (hs : canSend st = true) {m : Tagged R} (hq : st'.queue = st.queue ++ [m]) (ho : st'.out = st.out)
    (hp : st'.pump = st.pump) (hab : m.origin = none → about m.msg = none)
    (hn : pongs [m.msg] + pongs (loopPending st'.at_) = pongs (loopPending st.at_)) : Counted w' st' := by
  have hfl : flow st' = flow st ++ [m] := by
    simp [flow, hq, ho, hp]
  constructor
  · rw [hfl]
    intro x hx
    rcases List.mem_append.mp hx with hx | hx
    · exact h.plain x hx
    · simp at hx; subst hx; exact hab
  · intro hd
    rw [hp] at hd
    have := h.exact hd
    rw [hfl, List.map_append, pongs_append, he]
    simp only [List.map_cons, List.map_nil] at *
    omega
  · rw [he]
    have := h.most
    simp only [written, ho] at this ⊢
    omega
  · rw [hq]
    unfold canSend at hs
    split at hs
    · simp at hs
    · simp only [decide_eq_true_eq] at hs
      simp
      omega

theorem counted_step {c : Cfg P Q R T} {is : List (In R S T)} {w : Seen P Q} {st st' : St P Q R S} {i : In R S T}
    (hsh : Shape w st) (hcon : Conserve c is st) (h : Counted w st) (hs : step c st i = some st') :
    Counted (see c w i) st' := by
  have hst := step_sound hs
  clear hs
  have hemp : (accepting st.at_ = true ∨ st.at_ = .timedOut) → st.queue = [] ∧ inflight st.pump = [] := by
    intro ha
    have := hsh.empty (hsh.unopened ha)
    refine ⟨this.2.2.1, ?_⟩
    cases hp : st.pump with
    | sending m => exact absurd hp (this.2.2.2.1 m)
    | _ => rfl
  have hfr : ∀ f : Frame T, (accepting st.at_ = true ∨ st.at_ = .timedOut) →
      (see c w (In.frame f : In R S T)).events = w.events := by
    intro f ha
    exact (see_frame_made (R := R) (S := S) c w f).2.2 (hsh.unopened ha)
  have hopen : ∀ s, st.at_ = .recv s → w.opened = true := by
    intro s ha
    exact hsh.opened (by simp [ha, serving])
  have hfirst : ∀ m a, st.at_ = .accSending m a → pongs [m] = 0 ∧ about m = none := by
    intro m a ha
    rcases hsh.first m a ha with ⟨e, _⟩ | ⟨e, _⟩ | ⟨⟨n, e⟩, _⟩ <;> subst e <;> simp [pongs, about]
  have hat : ∀ (a : At P R S) (w' : Seen P Q), w'.events = w.events → loopPending st.at_ = [] → loopPending a = [] →
      Counted w' { st with at_ := a } := by
    intro a w' he h1 h2
    exact h.same rfl rfl (Nat.le_refl _) Iff.rfl (by rw [he]; simp [h1, h2]) (by rw [he]; exact Nat.le_refl _)
  cases hst with
  | accStay f ha =>
    exact hat st.at_ _ (hfr f (.inl (by simp [ha, accepting]))) (by simp [ha, loopPending]) (by simp [ha, loopPending])
  | accOver f ha => exact hat _ _ (hfr f (.inl (by simp [ha, accepting]))) (by simp [ha, loopPending]) rfl
  | accInit f p ha => exact hat _ _ (hfr f (.inl (by simp [ha, accepting]))) (by simp [ha, loopPending]) rfl
  | accPing f ha => exact hat _ _ (hfr f (.inl (by simp [ha, accepting]))) (by simp [ha, loopPending]) rfl
  | accEarly f ha => exact hat _ _ (hfr f (.inl (by simp [ha, accepting]))) (by simp [ha, loopPending]) rfl
  | createdSome p s ha => exact hat _ _ (see_events c w _ (by simp)) (by simp [ha, loopPending]) rfl
  | createdNone p ha => exact hat _ _ (see_events c w _ (by simp)) (by simp [ha, loopPending]) rfl
  | accFailed m a ok ha hw => exact hat _ _ (see_events c w _ (by simp)) (by simp [ha, loopPending]) rfl
  | accAgain m ha hc =>
    obtain ⟨e1, e2⟩ := hemp (.inl (by simp [ha, accepting]))
    exact h.write (see_events c w _ (by simp)) e1 e2 (by simp [ha, loopPending]) rfl (hfirst _ _ ha).1 (hfirst _ _ ha).2
  | accStop m ha hc =>
    obtain ⟨e1, e2⟩ := hemp (.inl (by simp [ha, accepting]))
    exact h.write (see_events c w _ (by simp)) e1 e2 (by simp [ha, loopPending]) rfl (hfirst _ _ ha).1 (hfirst _ _ ha).2
  | accServe m s ha hc =>
    obtain ⟨e1, e2⟩ := hemp (.inl (by simp [ha, accepting]))
    exact h.write (see_events c w _ (by simp)) e1 e2 (by simp [ha, loopPending]) rfl (hfirst _ _ ha).1 (hfirst _ _ ha).2
  | lateFailed ok ha hw => exact hat _ _ (see_events c w _ (by simp)) (by simp [ha, loopPending]) rfl
  | lateSent ha hc =>
    obtain ⟨e1, e2⟩ := hemp (.inr ha)
    exact h.write (see_events c w _ (by simp)) e1 e2 (by simp [ha, loopPending]) rfl (by simp [pongs]) rfl
  | timeoutRecv ok ha => exact hat _ _ (see_events c w _ (by simp)) (by simp [ha, loopPending]) rfl
  | timeoutCreating p ok ha => exact hat _ _ (see_events c w _ (by simp)) (by simp [ha, loopPending]) rfl
  | timeoutLost m a ok ha => exact hat _ _ (see_events c w _ (by simp)) (by simp [ha, loopPending]) rfl
  | timeoutWritten m a ok ha hc =>
    obtain ⟨e1, e2⟩ := hemp (.inl (by simp [ha, accepting]))
    exact h.write (see_events c w _ (by simp)) e1 e2 (by simp [ha, loopPending]) rfl (hfirst _ _ ha).1 (hfirst _ _ ha).2
  | ignored s f ha hf => rw [see_frame_none hf]; exact h
  | hangup s f ha hf =>
    rw [see_frame_none (by rw [hf]; rfl)]
    exact h.same rfl rfl (Nat.le_refl _) Iff.rfl (by simp [ha, loopPending, finish]) (Nat.le_refl _)
  | duplicate s f id q t ha hf hl =>
    rw [see_frame (hopen s ha) hf]
    exact h.same rfl rfl (Nat.le_refl _) Iff.rfl (by simp [ha, loopPending, pings_snoc, pongs]) (by simp [pings_snoc])
  | subscribed s f id q ha hf hl =>
    rw [see_frame (hopen s ha) hf]
    exact h.same rfl rfl (Nat.le_refl _) Iff.rfl (by simp [ha, loopPending, pings_snoc, pongs]) (by simp [pings_snoc])
  | completed s f id t ha hf hl =>
    rw [see_frame (hopen s ha) hf]
    exact h.same rfl rfl (Nat.le_refl _) Iff.rfl (by simp [ha, loopPending, pings_snoc, pongs]) (by simp [pings_snoc])
  | unknown s f id ha hf hl =>
    rw [see_frame (hopen s ha) hf]
    exact h.same rfl rfl (Nat.le_refl _) Iff.rfl (by simp [ha, loopPending, pings_snoc, pongs]) (by simp [pings_snoc])
  | ponged s f ha hf =>
    rw [see_frame (hopen s ha) hf]
    exact h.same rfl rfl (Nat.le_refl _) Iff.rfl (by simp [ha, loopPending, pings_snoc, pongs]) (by simp [pings_snoc])
  | pinged s f ha hf =>
    rw [see_frame (hopen s ha) hf]
    exact h.same rfl rfl (Nat.le_refl _) Iff.rfl (by simp [ha, loopPending, pings_snoc, pongs]) (by simp [pings_snoc])
  | again s f p ha hf =>
    rw [see_frame (hopen s ha) hf]
    exact h.same rfl rfl (Nat.le_refl _) Iff.rfl (by simp [ha, loopPending, pings_snoc, pongs]) (by simp [pings_snoc])
  | loopClose s m ha hcs hm =>
    refine h.push (see_events c w _ (by simp)) hcs (m := ⟨none, m⟩) rfl rfl rfl ?_ ?_
    · intro _
      rcases hsh.reply s m ha with e | e | e <;> subst e <;> rfl
    · simp [finish, loopPending, ha, pongs]
  | loopSent s m ha hcs hm =>
    refine h.push (see_events c w _ (by simp)) hcs (m := ⟨none, m⟩) rfl rfl rfl ?_ ?_
    · intro _
      rcases hsh.reply s m ha with e | e | e <;> subst e <;> rfl
    · simp [loopPending, ha, pongs]
  | loopFailed s m ha hp =>
    have he : (see c w (In.loopFailed : In R S T)).events = w.events := rfl
    constructor
    · exact h.plain
    · intro hd; exact absurd hp hd
    · rw [he]; exact h.most
    · exact h.room
  | item t r k hk hn => exact h.same rfl rfl (Nat.le_refl _) Iff.rfl (by simp [see, setTask]) (by simp [see])
  | streamEnd t k hk hn => exact h.same rfl rfl (Nat.le_refl _) Iff.rfl (by simp [see, setTask]) (by simp [see])
  | taskSent t k m last hk hn hcs =>
    have hd : st.pump ≠ .dead := by intro e; simp [canSend, e] at hcs
    have hm : about m ≠ none := by
      rcases hcon.kept t k hk hd with ⟨e, _⟩ | ⟨_, e⟩
      · simp [hn] at e
      · rw [script_about (c := c) (id := k.id) (t := t) (is := is) (by rw [← e]; simp [hn, pending])]
        simp
    refine h.push (see_events c w _ (by simp)) hcs (m := ⟨some t, m⟩) rfl rfl rfl (by simp) ?_
    rw [pongs_about (by simpa using hm)]
    simp [setTask]
  | taskFailed t k m last hk hn hp => exact h.same rfl rfl (Nat.le_refl _) Iff.rfl (by simp [see, setTask]) (by simp [see])
  | cancel t k hk hab hr => exact h.same rfl rfl (Nat.le_refl _) Iff.rfl (by simp [see, setTask]) (by simp [see])
  | pumpTake m q hp hq =>
    exact h.same (by simp [flow, hp, hq, inflight]) rfl (by simp [hq]) (by simp [hp]) (by simp [see]) (by simp [see])
  | pumpSent m hp hc =>
    have hd : st.pump ≠ .dead := by simp [hp]
    have hfl : flow { st with out := st.out ++ [m], closed := isClose m.msg, pump := .idle } = flow st := by
      simp [flow, hp, inflight]
    constructor
    · rw [hfl]; exact h.plain
    · intro _
      rw [hfl]
      exact h.exact hd
    · have := h.exact hd
      simp only [flow, hp, inflight, List.map_append, pongs_append] at this
      simp only [written, List.map_append, pongs_append, see] at this ⊢
      omega
    · exact h.room
  | pumpFailed m ok hp hw => exact h.dies (see_events c w _ (by simp))
  | unencodable m hp => exact h.dies (see_events c w _ (by simp))
  | pumpEnd hp hq ha hr => exact h.dies (see_events c w _ (by simp))

theorem run_counted {c : Cfg P Q R T} {is : List (In R S T)} {st : St P Q R S} (h : run c is = some st) :
    Counted (seen c is) st :=
  (run_inv (fun is st => Shape (seen c is) st ∧ Conserve c is st ∧ Counted (seen c is) st)
    ⟨shape_start, conserve_start c, counted_start⟩
    (fun is st i st' hi hs => ⟨by rw [seen_snoc]; exact shape_step hi.1 hs, conserve_step hi.1 hi.2.1 hs,
      by rw [seen_snoc]; exact counted_step hi.1 hi.2.1 hi.2.2 hs⟩) h).2.2

/-! ## The end of an operation -/

/-- After `complete`, nothing. -/
def Final (c : Cfg P Q R T) (is : List (In R S T)) (t : Nat) (k : Task Q R) : Prop :=
  ∀ a b, script c k.id t is = a ++ .complete k.id :: b → b = [] ∧ k.at_ ≠ .next

theorem Final.keep {c : Cfg P Q R T} {is : List (In R S T)} {t : Nat} {k k' : Task Q R} {i : In R S T}
    (h : Final c is t k) (hid : k'.id = k.id) (hs : says c k.id t i = []) (ha : k.at_ ≠ .next → k'.at_ ≠ .next) :
    Final c (is ++ [i]) t k' := by
  intro a b e
  rw [hid, script_snoc, hs, List.append_nil] at e
  exact ⟨(h a b e).1, ha (h a b e).2⟩

theorem complete_last {l a b : List (Msg R)} {x m : Msg R} (hl : ∀ a b, l = a ++ m :: b → b = [] ∧ False)
    (h : l ++ [x] = a ++ m :: b) : b = [] := by
  rcases List.eq_nil_or_concat b with hb | ⟨b', y, hb⟩
  · exact hb
  · subst hb
    have h' : l ++ [x] = (a ++ m :: b') ++ [y] := by simpa using h
    have := (List.append_inj' h' rfl).1
    exact absurd (hl a b' this).2 id

theorem final_step {c : Cfg P Q R T} {is : List (In R S T)} {w : Seen P Q} {st st' : St P Q R S} {i : In R S T}
    (_hsh : Shape w st) (hcon : Conserve c is st)
    (h : ∀ t k, st.tasks[t]? = some k → Final c is t k ∧ (∀ m, k.at_ = .sending m false → ∀ id, m ≠ .complete id) ∧
      (∀ m, k.at_ = .sending m false → ∀ a b, script c k.id t is = a ++ .complete k.id :: b → False))
    (hs : step c st i = some st') :
    ∀ t k, st'.tasks[t]? = some k → Final c (is ++ [i]) t k ∧ (∀ m, k.at_ = .sending m false → ∀ id, m ≠ .complete id) ∧
      (∀ m, k.at_ = .sending m false → ∀ a b, script c k.id t (is ++ [i]) = a ++ .complete k.id :: b → False) := by
  have hst := step_sound hs
  clear hs
  have hsame : (∀ id t, says c id t i = []) → (∀ (t : Nat) (k' : Task Q R), st'.tasks[t]? = some k' → ∃ k : Task Q R, st.tasks[t]? = some k ∧
      k'.id = k.id ∧ (k'.at_ = k.at_ ∨ (k'.at_ ≠ .next ∧ ∀ m, k'.at_ ≠ .sending m false))) →
      ∀ t k, st'.tasks[t]? = some k → Final c (is ++ [i]) t k ∧ (∀ m, k.at_ = .sending m false → ∀ id, m ≠ .complete id) ∧
        (∀ m, k.at_ = .sending m false → ∀ a b, script c k.id t (is ++ [i]) = a ++ .complete k.id :: b → False) := by
    intro hsy hta t k' hk'
    obtain ⟨k, hk, hid, hat⟩ := hta t k' hk'
    obtain ⟨f1, f2, f3⟩ := h t k hk
    refine ⟨f1.keep hid (hsy _ _) ?_, ?_, ?_⟩
    · intro hn
      rcases hat with e | e
      · rw [e]; exact hn
      · exact e.1
    · intro m hm
      rcases hat with e | e
      · exact f2 m (e ▸ hm)
      · exact absurd hm (e.2 m)
    · intro m hm a b
      rw [hid, script_snoc, hsy, List.append_nil]
      rcases hat with e | e
      · exact f3 m (e ▸ hm) a b
      · exact absurd hm (e.2 m)
  have hid : (∀ id t, says c id t i = []) → st'.tasks = st.tasks →
      ∀ t k, st'.tasks[t]? = some k → Final c (is ++ [i]) t k ∧ (∀ m, k.at_ = .sending m false → ∀ id, m ≠ .complete id) ∧
        (∀ m, k.at_ = .sending m false → ∀ a b, script c k.id t (is ++ [i]) = a ++ .complete k.id :: b → False) := by
    intro hsy ht
    refine hsame hsy ?_
    intro t k' hk'
    exact ⟨k', ht ▸ hk', rfl, .inl rfl⟩
  have hset : ∀ (t : Nat) (k : Task Q R) (a : TaskAt R) (u : Nat) (k' : Task Q R),
      (st.tasks.set t { k with at_ := a })[u]? = some k' →
      (u ≠ t ∧ st.tasks[u]? = some k') ∨ (u = t ∧ k' = { k with at_ := a }) := by
    intro t k a u k' hk'
    rw [List.getElem?_set] at hk'
    by_cases hu : t = u
    · subst hu
      simp only [if_true] at hk'
      split at hk'
      · injection hk' with hk'; exact .inr ⟨rfl, hk'.symm⟩
      · simp at hk'
    · simp only [hu, if_false] at hk'
      exact .inl ⟨Ne.symm hu, hk'⟩
  cases hst with
  | hangup s f ha hf =>
    refine hsame (fun _ _ => rfl) ?_
    intro t k' hk'
    simp only [finish, List.getElem?_map, Option.map_eq_some_iff] at hk'
    obtain ⟨k, hk, e⟩ := hk'
    subst e
    exact ⟨k, hk, rfl, .inl rfl⟩
  | loopClose s m ha hcs hm =>
    refine hsame (fun _ _ => rfl) ?_
    intro t k' hk'
    simp only [finish, List.getElem?_map, Option.map_eq_some_iff] at hk'
    obtain ⟨k, hk, e⟩ := hk'
    subst e
    exact ⟨k, hk, rfl, .inl rfl⟩
  | loopFailed s m ha hp =>
    refine hsame (fun _ _ => rfl) ?_
    intro t k' hk'
    simp only [finish, List.getElem?_map, Option.map_eq_some_iff] at hk'
    obtain ⟨k, hk, e⟩ := hk'
    subst e
    exact ⟨k, hk, rfl, .inl rfl⟩
  | subscribed s f id q ha hf hl =>
    intro t k hk
    rw [List.getElem?_append] at hk
    split at hk
    · obtain ⟨f1, f2, f3⟩ := h t k hk
      refine ⟨f1.keep rfl rfl (fun x => x), f2, ?_⟩
      intro m hm a b
      rw [script_snoc]
      simp only [says, List.append_nil]
      exact f3 m hm a b
    · rename_i hlt
      have hx := (List.getElem?_eq_some_iff.mp hk).1
      simp at hx
      have ht : t = st.tasks.length := by omega
      subst ht
      simp at hk
      subst hk
      have hfr := (hcon.fresh st.tasks.length (by simp)).2
      refine ⟨?_, by simp, by simp⟩
      intro a b e
      rw [script_snoc, hfr] at e
      simp [says] at e
  | completed s f id t ha hf hl =>
    refine hsame (fun _ _ => rfl) ?_
    intro u k' hk'
    simp only [modifyTask] at hk'
    split at hk'
    · rename_i k hk
      rw [List.getElem?_set] at hk'
      by_cases hu : t = u
      · subst hu
        simp only [if_true] at hk'
        split at hk'
        · injection hk' with hk'
          subst hk'
          exact ⟨k, hk, rfl, .inl rfl⟩
        · simp at hk'
      · simp only [hu, if_false] at hk'
        exact ⟨k', hk', rfl, .inl rfl⟩
    · exact ⟨k', hk', rfl, .inl rfl⟩
  | item t r k hk hn =>
    intro u k' hk'
    rcases hset t k _ u k' hk' with ⟨hu, hk'⟩ | ⟨hu, he⟩
    · obtain ⟨f1, f2, f3⟩ := h u k' hk'
      have hsy : says c k'.id u (In.item t r : In R S T) = [] := by simp [says, Ne.symm hu]
      refine ⟨f1.keep rfl hsy (fun x => x), f2, ?_⟩
      intro m hm a b
      rw [script_snoc, hsy, List.append_nil]
      exact f3 m hm a b
    · subst hu; subst he
      obtain ⟨f1, _, _⟩ := h u k hk
      have hno : ∀ a b, script c k.id u is = a ++ .complete k.id :: b → b = [] ∧ False :=
        fun a b e => ⟨(f1 a b e).1, (f1 a b e).2 hn⟩
      have hmsg : ∀ id, toMessage c k.id r ≠ .complete id := by
        intro id; unfold toMessage; split <;> simp
      have hnone : ∀ a b, script c k.id u (is ++ [In.item u r]) = a ++ .complete k.id :: b → False := by
        intro a b e
        have e' := e
        rw [script_snoc] at e'
        simp only [says, if_true] at e'
        have hb := complete_last hno e'
        subst hb
        have := (List.append_inj' e' rfl).2
        simp at this
        exact hmsg k.id this
      refine ⟨fun a b e => absurd (hnone a b e) id, ?_, fun m _ a b e => hnone a b e⟩
      intro m hm id
      injection hm with e1 e2
      subst e1
      exact hmsg id
  | streamEnd t k hk hn =>
    intro u k' hk'
    rcases hset t k _ u k' hk' with ⟨hu, hk'⟩ | ⟨hu, he⟩
    · obtain ⟨f1, f2, f3⟩ := h u k' hk'
      have hsy : says c k'.id u (In.streamEnd t : In R S T) = [] := by simp [says, Ne.symm hu]
      refine ⟨f1.keep rfl hsy (fun x => x), f2, ?_⟩
      intro m hm a b
      rw [script_snoc, hsy, List.append_nil]
      exact f3 m hm a b
    · subst hu; subst he
      obtain ⟨f1, _, _⟩ := h u k hk
      have hno : ∀ a b, script c k.id u is = a ++ .complete k.id :: b → b = [] ∧ False :=
        fun a b e => ⟨(f1 a b e).1, (f1 a b e).2 hn⟩
      refine ⟨?_, by simp, by simp⟩
      intro a b e
      rw [script_snoc] at e
      simp only [says, if_true] at e
      exact ⟨complete_last hno e, by simp⟩
  | taskSent t k m last hk hn hcs =>
    intro u k' hk'
    rcases hset t k _ u k' hk' with ⟨hu, hk'⟩ | ⟨hu, he⟩
    · obtain ⟨f1, f2, f3⟩ := h u k' hk'
      refine ⟨f1.keep rfl rfl (fun x => x), f2, ?_⟩
      intro m' hm a b
      rw [script_snoc]
      simp only [says, List.append_nil]
      exact f3 m' hm a b
    · subst hu; subst he
      obtain ⟨f1, f2, f3⟩ := h u k hk
      refine ⟨?_, by cases last <;> simp, by cases last <;> simp⟩
      intro a b e
      rw [script_snoc] at e
      simp only [says, List.append_nil] at e
      refine ⟨(f1 a b e).1, ?_⟩
      cases last with
      | true => simp
      | false => exact absurd (f3 m hn a b e) id
  | taskFailed t k m last hk hn hp =>
    refine hsame (fun _ _ => rfl) ?_
    intro u k' hk'
    rcases hset t k _ u k' hk' with ⟨hu, hk'⟩ | ⟨hu, he⟩
    · exact ⟨k', hk', rfl, .inl rfl⟩
    · subst hu; subst he
      exact ⟨k, hk, rfl, .inr ⟨by simp, by simp⟩⟩
  | cancel t k hk hab hr =>
    refine hsame (fun _ _ => rfl) ?_
    intro u k' hk'
    rcases hset t k _ u k' hk' with ⟨hu, hk'⟩ | ⟨hu, he⟩
    · exact ⟨k', hk', rfl, .inl rfl⟩
    · subst hu; subst he
      exact ⟨k, hk, rfl, .inr ⟨by simp, by simp⟩⟩
  | _ => exact hid (fun _ _ => rfl) rfl

theorem run_final {c : Cfg P Q R T} {is : List (In R S T)} {st : St P Q R S} (h : run c is = some st) {t : Nat}
    {k : Task Q R} (hk : st.tasks[t]? = some k) : Final c is t k :=
  ((run_inv (fun is st => Shape (seen c is) st ∧ Conserve c is st ∧
      ∀ t k, st.tasks[t]? = some k → Final c is t k ∧ (∀ m, k.at_ = .sending m false → ∀ id, m ≠ .complete id) ∧
      (∀ m, k.at_ = .sending m false → ∀ a b, script c k.id t is = a ++ .complete k.id :: b → False))
    ⟨shape_start, conserve_start c, by simp [start]⟩
    (fun is st i st' hi hs => ⟨by rw [seen_snoc]; exact shape_step hi.1 hs, conserve_step hi.1 hi.2.1 hs,
      final_step hi.1 hi.2.1 hi.2.2 hs⟩) h).2.2 t k hk).1

/-! ## The acknowledgement, and cancelled tasks -/

theorem made_created (c : Cfg P Q R T) (is : List (In R S T)) :
    ∀ w : Seen P Q, (is.foldl (see c) w).made = true → w.made = true ∨ ∃ s, In.created (some s) ∈ is := by
  induction is with
  | nil => intro w h; exact .inl h
  | cons i is ih =>
    intro w h
    rcases ih _ h with h | ⟨s, h⟩
    · cases i with
      | created s =>
        cases s with
        | none => exact .inl h
        | some s => exact .inr ⟨s, by simp⟩
      | accSent ok =>
        cases ok with
        | false => exact .inl h
        | true => simp only [see] at h; split at h <;> exact .inl h
      | frame f => exact .inl ((see_frame_made (R := R) (S := S) c w f).1 ▸ h)
      | timeout b => simp [see] at h
      | _ => exact .inl h
    · exact .inr ⟨s, by simp [h]⟩

structure Acked (c : Cfg P Q R T) (is : List (In R S T)) (st : St P Q R S) : Prop where
  opened : (seen c is).opened = true → Msg.ack ∈ written st
  only : Msg.ack ∈ written st → ∃ s, In.created (some s) ∈ is
  cancelled : ∀ k ∈ st.tasks, k.at_ = .cancelled → k.aborted = true

theorem opened_step {c : Cfg P Q R T} {w : Seen P Q} {st st' : St P Q R S} {i : In R S T} (hsh : Shape w st)
    (hs : step c st i = some st') (h : (see c w i).opened = true) :
    w.opened = true ∨ Msg.ack ∈ written st' := by
  cases ho : w.opened with
  | true => exact .inl rfl
  | false =>
    right
    have hst := step_sound hs
    cases hst with
    | accServe m s ha hc =>
      rcases hsh.first _ _ ha with ⟨_, e, _⟩ | ⟨e, _⟩ | ⟨_, e, _⟩
      · cases e
      · subst e; simp [written]
      · cases e
    | accAgain m ha hc =>
      rcases hsh.first _ _ ha with ⟨_, _, e⟩ | ⟨_, ⟨s, e⟩, _⟩ | ⟨_, e, _⟩
      · simp [see, e, ho] at h
      · cases e
      · cases e
    | accStop m ha hc =>
      rcases hsh.first _ _ ha with ⟨_, e, _⟩ | ⟨_, ⟨s, e⟩, _⟩ | ⟨_, _, e⟩
      · cases e
      · cases e
      · simp [see, e, ho] at h
    | lateSent ha hc => simp [see, hsh.unmade (.inr (.inr ha)), ho] at h
    | lateFailed ok ha hw => cases ok <;> simp [see, hsh.unmade (.inr (.inr ha)), ho] at h
    | accFailed m a ok ha hw =>
      have hc := hsh.unclosed (by simp [ha, accepting])
      have hok : ok = false := by simp_all
      subst hok
      simp [see, ho] at h
    | createdSome p s ha => simp [see, ho] at h
    | createdNone p ha => simp [see, ho] at h
    | timeoutRecv ok ha => simp [see, ho] at h
    | timeoutCreating p ok ha => simp [see, ho] at h
    | timeoutLost m a ok ha => simp [see, ho] at h
    | timeoutWritten m a ok ha hc => simp [see, ho] at h
    | _ => first | (simp [see, ho] at h; done) | (rw [(see_frame_made (R := R) (S := S) c w _).2.1, ho] at h; cases h)

theorem out_step {c : Cfg P Q R T} {st st' : St P Q R S} {i : In R S T} (hs : step c st i = some st') :
    written st' = written st ∨ ∃ m, written st' = written st ++ [m] ∧
      ((∃ a, st.at_ = .accSending m a) ∨ m = .close 4408 ∨ ∃ x, st.pump = .sending ⟨x, m⟩) := by
  have hst := step_sound hs
  cases hst with
  | accAgain m ha hc => exact .inr ⟨m, by simp [written], .inl ⟨_, ha⟩⟩
  | accStop m ha hc => exact .inr ⟨m, by simp [written], .inl ⟨_, ha⟩⟩
  | accServe m s ha hc => exact .inr ⟨m, by simp [written], .inl ⟨_, ha⟩⟩
  | timeoutWritten m a ok ha hc => exact .inr ⟨m, by simp [written], .inl ⟨_, ha⟩⟩
  | lateSent ha hc => exact .inr ⟨_, by simp [written], .inr (.inl rfl)⟩
  | pumpSent m hp hc => exact .inr ⟨m.msg, by simp [written], .inr (.inr ⟨m.origin, hp⟩)⟩
  | _ => exact .inl rfl

theorem acked_step {c : Cfg P Q R T} {is : List (In R S T)} {st st' : St P Q R S} {i : In R S T}
    (hsh : Shape (seen c is) st) (h : Acked c is st) (hs : step c st i = some st') : Acked c (is ++ [i]) st' := by
  constructor
  · intro ho
    rw [seen_snoc] at ho
    rcases opened_step hsh hs ho with ho | ho
    · have := h.opened ho
      rcases out_step hs with e | ⟨m, e, _⟩
      · rw [e]; exact this
      · rw [e]; simp [this]
    · exact ho
  · intro ha
    have hold : Msg.ack ∈ written st → ∃ s, In.created (some s) ∈ is ++ [i] := by
      intro ha
      obtain ⟨s, hs⟩ := h.only ha
      exact ⟨s, by simp [hs]⟩
    rcases out_step hs with e | ⟨m, e, hm⟩
    · rw [e] at ha; exact hold ha
    · rw [e] at ha
      rcases List.mem_append.mp ha with ha | ha
      · exact hold ha
      · simp at ha
        subst ha
        rcases hm with ⟨a, hm⟩ | hm | ⟨x, hm⟩
        · rcases hsh.first _ _ hm with ⟨e, _⟩ | ⟨_, _, e⟩ | ⟨⟨n, e⟩, _⟩
          · cases e
          · rcases made_created c is _ e with e | ⟨s, e⟩
            · cases e
            · exact ⟨s, by simp [e]⟩
          · cases e
        · cases hm
        · have := hsh.waiting.2 _ hm
          simp [later] at this
  · have hset : ∀ (t : Nat) (k : Task Q R) (a : TaskAt R) (x : Task Q R), st.tasks[t]? = .some k →
        (a = .cancelled → k.aborted = true) → x ∈ st.tasks.set t { k with at_ := a } → x.at_ = .cancelled →
        x.aborted = true := by
      intro t k a x hk hka hx hc
      rcases mem_set hx with hx | hx
      · exact h.cancelled x hx hc
      · subst hx; exact hka hc
    have hst := step_sound hs
    cases hst with
    | hangup s f ha hf => intro k hk _; simp [finish] at hk; obtain ⟨_, _, e⟩ := hk; subst e; rfl
    | loopClose s m ha hcs hm => intro k hk _; simp [finish] at hk; obtain ⟨_, _, e⟩ := hk; subst e; rfl
    | loopFailed s m ha hp => intro k hk _; simp [finish] at hk; obtain ⟨_, _, e⟩ := hk; subst e; rfl
    | subscribed s f id q ha hf hl =>
      intro k hk hc
      rcases List.mem_append.mp hk with hk | hk
      · exact h.cancelled k hk hc
      · simp at hk; subst hk; simp at hc
    | completed s f id t ha hf hl =>
      intro k hk hc
      rcases mem_modifyTask hk with hk | ⟨k', _, e⟩
      · exact h.cancelled k hk hc
      · subst e; rfl
    | item t r k hk hn => exact fun x hx hc => hset t k _ x hk (by simp) hx hc
    | streamEnd t k hk hn => exact fun x hx hc => hset t k _ x hk (by simp) hx hc
    | taskSent t k m last hk hn hcs => exact fun x hx hc => hset t k _ x hk (by cases last <;> simp) hx hc
    | taskFailed t k m last hk hn hp => exact fun x hx hc => hset t k _ x hk (by simp) hx hc
    | cancel t k hk hab hr => exact fun x hx hc => hset t k _ x hk (fun _ => hab) hx hc
    | _ => exact h.cancelled

theorem run_acked {c : Cfg P Q R T} {is : List (In R S T)} {st : St P Q R S} (h : run c is = some st) :
    Acked c is st :=
  (run_inv (fun is st => Shape (seen c is) st ∧ Acked c is st)
    ⟨shape_start, by constructor <;> simp [seen, start, written]⟩
    (fun is st i st' hi hs => ⟨by rw [seen_snoc]; exact shape_step hi.1 hs, acked_step hi.1 hi.2 hs⟩) h).2

/-! ## What the server does by itself -/

def TaskAt.work : TaskAt R → Nat
  | .sending _ _ => 3
  | _ => 0

def At.work : At P R S → Nat
  | .sending _ _ => 3
  | _ => 0

def taskWork (tasks : List (Task Q R)) : Nat := (tasks.map (fun k => k.at_.work)).sum

/-- What is left to do. -/
def work (st : St P Q R S) : Nat :=
  taskWork st.tasks + st.at_.work + 2 * st.queue.length + (inflight st.pump).length

theorem taskWork_abort (tasks : List (Task Q R)) :
    taskWork (tasks.map (fun k => { k with aborted := true })) = taskWork tasks := by
  simp [taskWork, Function.comp_def]

theorem taskWork_set {tasks : List (Task Q R)} {t : Nat} {k : Task Q R} (hk : tasks[t]? = some k) (a : TaskAt R) :
    taskWork (tasks.set t { k with at_ := a }) + k.at_.work = taskWork tasks + a.work := by
  induction tasks generalizing t with
  | nil => simp at hk
  | cons x xs ih =>
    cases t with
    | zero =>
      simp at hk
      subst hk
      simp [taskWork]
      omega
    | succ t =>
      simp at hk
      have := ih hk
      simp only [taskWork, List.set_cons_succ, List.map_cons, List.sum_cons] at this ⊢
      omega

theorem internal_work {c : Cfg P Q R T} {st st' : St P Q R S} {i : In R S T} (hi : internal i = true)
    (hs : step c st i = some st') : work st' < work st := by
  have hst := step_sound hs
  clear hs
  cases hst <;> simp only [internal] at hi <;> try contradiction
  case loopClose s m ha hcs hm =>
    simp only [work, finish, taskWork_abort, ha, At.work, List.length_append, List.length_singleton]
    omega
  case loopSent s m ha hcs hm =>
    simp only [work, ha, At.work, List.length_append, List.length_singleton]
    omega
  case taskSent t k m last hk hn hcs =>
    have := taskWork_set hk (if last then TaskAt.finished else .next)
    simp only [work, setTask, List.length_append, List.length_singleton]
    have h0 : (if last then TaskAt.finished else (.next : TaskAt R)).work = 0 := by cases last <;> rfl
    rw [h0, hn, show (TaskAt.sending m last).work = 3 from rfl] at this
    omega
  case pumpTake m q hp hq =>
    simp only [work, hp, hq, inflight, List.length_cons, List.length_nil]
    omega
  case pumpSent m hp hc =>
    simp only [work, hp, inflight, List.length_cons, List.length_nil]
    omega
  case pumpFailed m ok hp hw =>
    simp only [work, die, hp, inflight, List.length_cons, List.length_nil]
    omega

theorem settles {c : Cfg P Q R T} (n : Nat) : ∀ (st : St P Q R S), work st ≤ n →
    ∃ (js : List (In R S T)) (st' : St P Q R S), (∀ j ∈ js, internal j = true) ∧ runFrom c st js = some st' ∧
      Settled c st' := by
  induction n with
  | zero =>
    intro st hn
    refine ⟨[], st, by simp, rfl, ?_⟩
    intro i hi
    cases hs : step c st i with
    | none => rfl
    | some st' => have := internal_work hi hs; omega
  | succ n ih =>
    intro st hn
    by_cases hset : Settled c st
    · exact ⟨[], st, by simp, rfl, hset⟩
    · unfold Settled at hset
      obtain ⟨i, hi⟩ := Classical.not_forall.mp hset
      obtain ⟨hint, hne⟩ := Classical.not_imp.mp hi
      cases hs : step c st i with
      | none => exact absurd hs hne
      | some st1 =>
        have := internal_work hint hs
        obtain ⟨js, st', h1, h2, h3⟩ := ih st1 (by omega)
        refine ⟨i :: js, st', ?_, ?_, h3⟩
        · intro j hj
          rcases List.mem_cons.mp hj with e | e
          · subst e; exact hint
          · exact h1 j e
        · simp only [runFrom, hs]; exact h2

/-- With nothing left to do, all has been written. -/
theorem settled_flow {c : Cfg P Q R T} {st : St P Q R S} (h : Settled c st) (hd : st.pump ≠ .dead) :
    flow st = st.out ∧ loopPending st.at_ = [] ∧ ∀ k ∈ st.tasks, pending k.at_ = [] := by
  have hidle : st.pump = .idle := by
    cases hp : st.pump with
    | idle => rfl
    | dead => exact absurd hp hd
    | sending m =>
      have := h (.pumpSent true) rfl
      simp only [step, hp] at this
      split at this <;> simp at this
  have hq : st.queue = [] := by
    cases hq : st.queue with
    | nil => rfl
    | cons m q =>
      have := h .pumpTake rfl
      simp [step, hidle, hq] at this
  have hcs : canSend st = true := by simp [canSend, hidle, hq, capacity]
  refine ⟨by simp [flow, hidle, hq, inflight], ?_, ?_⟩
  · cases ha : st.at_ with
    | sending s m =>
      have := h .loopSent rfl
      simp [step, ha, hcs] at this
    | _ => rfl
  · intro k hk
    obtain ⟨t, ht⟩ := List.getElem?_of_mem hk
    cases ha : k.at_ with
    | sending m last =>
      have := h (.taskSent t) rfl
      simp [step, ht, ha, hcs] at this
    | _ => rfl

end Verif.WsServer
