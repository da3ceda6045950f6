import Verif.WsServer.Inv

/-!
# Invariants: the operations, and the ids in use
-/
namespace Verif.WsServer

variable {P Q R S T : Type}

theorem see_frame {c : Cfg P Q R T} {w : Seen P Q} {f : Frame T} {e : Event P Q} (ho : w.opened = true)
    (hf : (content f).bind c.parse = some e) :
    see c w (In.frame f : In R S T) = { w with events := w.events ++ [e] } := by
  simp [see, ho, hf]

theorem see_frame_none {c : Cfg P Q R T} {w : Seen P Q} {f : Frame T}
    (hf : (content f).bind c.parse = none) : see c w (In.frame f : In R S T) = w := by
  simp [see, hf]

theorem see_events (c : Cfg P Q R T) (w : Seen P Q) (i : In R S T) (h : ∀ f, i ≠ .frame f) :
    (see c w i).events = w.events := by
  cases i with
  | frame f => exact absurd rfl (h f)
  | created s => cases s <;> rfl
  | accSent ok => cases ok <;> simp only [see] <;> split <;> rfl
  | _ => rfl

theorem subscribes_snoc (es : List (Event P Q)) (e : Event P Q) :
    subscribes (es ++ [e]) = subscribes es ++ subscribes [e] := by
  simp [subscribes]

theorem inUse_snoc (es : List (Event P Q)) (e : Event P Q) (id : Id) :
    inUse (es ++ [e]) id =
      (match e with
        | .subscribe i _ => if i = id then true else inUse es id
        | .complete i => if i = id then false else inUse es id
        | _ => inUse es id) := by
  simp only [inUse, List.foldl_append, List.foldl_cons, List.foldl_nil]
  cases e <;> rfl

theorem lookup_filter (id id' : Id) (l : List (Id × Nat)) :
    lookup id (l.filter (fun e => decide (e.1 ≠ id'))) = if id' = id then none else lookup id l := by
  induction l with
  | nil => simp [lookup]
  | cons e l ih =>
    obtain ⟨i, t⟩ := e
    by_cases h : i = id'
    · subst h
      simp only [ne_eq, not_true_eq_false, decide_false, Bool.false_eq_true, not_false_eq_true, List.filter_cons_of_neg]
      rw [show (fun e : Id × Nat => decide (¬e.1 = i)) = (fun e => decide (e.1 ≠ i)) from rfl, ih]
      split
      · rfl
      · simp [lookup, *]
    · rw [List.filter_cons_of_pos (by simpa using h)]
      simp only [lookup, ih]
      by_cases h2 : i = id
      · subst h2
        simp [Ne.symm h]
      · simp [h2]

/-- What the program knows of the tasks. -/
structure Books (w : Seen P Q) (st : St P Q R S) : Prop where
  ops : ∃ rest, subscribes w.events = st.tasks.map (fun k => (k.id, k.request)) ++ rest ∧ rest.length ≤ 1 ∧
    (∀ s, st.at_ = .recv s → rest = []) ∧ (∀ s m, st.at_ = .sending s m → m ≠ .close 4409 → rest = [])
  subs : serving st.at_ = true → ∀ id t, lookup id st.subs = some t ↔
    ∃ k, st.tasks[t]? = some k ∧ k.id = id ∧ k.aborted = false
  uses : serving st.at_ = true → ∀ id, inUse w.events id = (lookup id st.subs).isSome
  stopped : ∀ k ∈ st.tasks, k.aborted = true → st.at_ = .over ∨ Event.complete k.id ∈ w.events

theorem books_start : Books ⟨false, false, []⟩ (start : St P Q R S) := by
  constructor
  · exact ⟨[], by simp [start, subscribes]⟩
  · simp [start, serving]
  · simp [start, serving]
  · simp [start]

/-- A transition of one task. -/
theorem Books.set {w w' : Seen P Q} {st : St P Q R S} {t : Nat} {k : Task Q R} (h : Books w st)
    (hw : w'.events = w.events) (hk : st.tasks[t]? = some k) (a : TaskAt R) (q : List (Tagged R)) :
    Books w' (setTask { st with queue := q } t k a) := by
  have hlt : t < st.tasks.length := (List.getElem?_eq_some_iff.mp hk).1
  constructor
  · obtain ⟨rest, e, r⟩ := h.ops
    refine ⟨rest, ?_, r⟩
    rw [hw, e]
    congr 1
    simp only [setTask]
    apply List.ext_getElem?
    intro n
    simp only [List.getElem?_map, List.getElem?_set]
    by_cases hn : t = n
    · subst hn
      rw [hk]
      simp [hlt]
    · simp [hn]
  · intro hs id u
    rw [show (setTask { st with queue := q } t k a).subs = st.subs from rfl, h.subs hs id u]
    simp only [setTask, List.getElem?_set]
    by_cases hu : t = u
    · subst hu
      rw [hk]
      simp [hlt]
    · simp [hu]
  · intro hs id
    rw [hw]
    exact h.uses hs id
  · intro k' hk' hb
    rw [hw]
    rcases mem_set hk' with hk' | hk'
    · exact h.stopped k' hk' hb
    · subst hk'
      exact h.stopped k (List.mem_of_getElem? hk) hb

/-- A transition of something else. -/
theorem Books.same {w w' : Seen P Q} {st st' : St P Q R S} (h : Books w st) (hw : w'.events = w.events)
    (ht : st'.tasks = st.tasks) (hu : st'.subs = st.subs) (ha : st'.at_ = st.at_) : Books w' st' := by
  constructor
  · rw [hw, ht, ha]; exact h.ops
  · rw [hu, ht, ha]; exact h.subs
  · rw [hw, hu, ha]; exact h.uses
  · rw [hw, ht, ha]; exact h.stopped

/-- A transition before the loop. -/
theorem Books.before {w w' : Seen P Q} {st st' : St P Q R S} (h : Books w st) (ht : st.tasks = [])
    (hu : st.subs = []) (he : w.events = []) (hw : w'.events = w.events) (ht' : st'.tasks = st.tasks)
    (hu' : st'.subs = st.subs) : Books w' st' := by
  have _ := h
  constructor
  · exact ⟨[], by simp [hw, he, ht', ht, subscribes]⟩
  · intro _ id t; simp [hu', hu, ht', ht, lookup]
  · intro _ id; simp [hw, he, hu', hu, lookup, inUse]
  · simp [ht', ht]

theorem Books.finish {w w' : Seen P Q} {st : St P Q R S} (h : Books w st) (hw : w'.events = w.events)
    (q : List (Tagged R)) : Books w' (finish { st with queue := q }) := by
  constructor
  · obtain ⟨rest, e, r, _⟩ := h.ops
    refine ⟨rest, ?_, r, ?_, ?_⟩
    · rw [hw, e]
      simp [WsServer.finish, Function.comp_def]
    · intro s hs; simp [WsServer.finish] at hs
    · intro s m hs; simp [WsServer.finish] at hs
  · intro hs; simp [WsServer.finish, serving] at hs
  · intro hs; simp [WsServer.finish, serving] at hs
  · intro k _ _; exact .inl rfl

theorem books_step {c : Cfg P Q R T} {w : Seen P Q} {st st' : St P Q R S} {i : In R S T}
    (hsh : Shape w st) (h : Books w st) (hs : step c st i = some st') : Books (see c w i) st' := by
  have hst := step_sound hs
  clear hs
  have hbefore : (accepting st.at_ = true ∨ st.at_ = .timedOut) → st.tasks = [] ∧ st.subs = [] ∧ w.events = [] := by
    intro ha
    have := hsh.empty (hsh.unopened ha)
    exact ⟨this.1, this.2.1, this.2.2.2.2⟩
  have hfr : ∀ f : Frame T, (accepting st.at_ = true ∨ st.at_ = .timedOut) →
      (see c w (In.frame f : In R S T)).events = w.events := by
    intro f ha
    exact (see_frame_made (R := R) (S := S) c w f).2.2 (hsh.unopened ha)
  have hopen : ∀ s, st.at_ = .recv s → w.opened = true := by
    intro s ha
    exact hsh.opened (by simp [ha, serving])
  cases hst with
  | accStay f ha =>
    obtain ⟨a, b, d⟩ := hbefore (.inl (by simp [ha, accepting]))
    exact h.before a b d (hfr f (.inl (by simp [ha, accepting]))) rfl rfl
  | accOver f ha =>
    obtain ⟨a, b, d⟩ := hbefore (.inl (by simp [ha, accepting]))
    exact h.before a b d (hfr f (.inl (by simp [ha, accepting]))) rfl rfl
  | accInit f p ha =>
    obtain ⟨a, b, d⟩ := hbefore (.inl (by simp [ha, accepting]))
    exact h.before a b d (hfr f (.inl (by simp [ha, accepting]))) rfl rfl
  | accPing f ha =>
    obtain ⟨a, b, d⟩ := hbefore (.inl (by simp [ha, accepting]))
    exact h.before a b d (hfr f (.inl (by simp [ha, accepting]))) rfl rfl
  | accEarly f ha =>
    obtain ⟨a, b, d⟩ := hbefore (.inl (by simp [ha, accepting]))
    exact h.before a b d (hfr f (.inl (by simp [ha, accepting]))) rfl rfl
  | createdSome p s ha =>
    obtain ⟨a, b, d⟩ := hbefore (.inl (by simp [ha, accepting]))
    exact h.before a b d (see_events c w _ (by simp)) rfl rfl
  | createdNone p ha =>
    obtain ⟨a, b, d⟩ := hbefore (.inl (by simp [ha, accepting]))
    exact h.before a b d (see_events c w _ (by simp)) rfl rfl
  | accFailed m a ok ha hw =>
    obtain ⟨a, b, d⟩ := hbefore (.inl (by simp [ha, accepting]))
    exact h.before a b d (see_events c w _ (by simp)) rfl rfl
  | accAgain m ha hc =>
    obtain ⟨a, b, d⟩ := hbefore (.inl (by simp [ha, accepting]))
    exact h.before a b d (see_events c w _ (by simp)) rfl rfl
  | accStop m ha hc =>
    obtain ⟨a, b, d⟩ := hbefore (.inl (by simp [ha, accepting]))
    exact h.before a b d (see_events c w _ (by simp)) rfl rfl
  | accServe m s ha hc =>
    obtain ⟨a, b, d⟩ := hbefore (.inl (by simp [ha, accepting]))
    exact h.before a b d (see_events c w _ (by simp)) rfl rfl
  | lateFailed ok ha hw =>
    obtain ⟨a, b, d⟩ := hbefore (.inr ha)
    exact h.before a b d (see_events c w _ (by simp)) rfl rfl
  | lateSent ha hc =>
    obtain ⟨a, b, d⟩ := hbefore (.inr ha)
    exact h.before a b d (see_events c w _ (by simp)) rfl rfl
  | timeoutRecv ok ha =>
    obtain ⟨a, b, d⟩ := hbefore (.inl (by simp [ha, accepting]))
    exact h.before a b d (see_events c w _ (by simp)) rfl rfl
  | timeoutCreating p ok ha =>
    obtain ⟨a, b, d⟩ := hbefore (.inl (by simp [ha, accepting]))
    exact h.before a b d (see_events c w _ (by simp)) rfl rfl
  | timeoutLost m a ok ha =>
    obtain ⟨a, b, d⟩ := hbefore (.inl (by simp [ha, accepting]))
    exact h.before a b d (see_events c w _ (by simp)) rfl rfl
  | timeoutWritten m a ok ha hc =>
    obtain ⟨a, b, d⟩ := hbefore (.inl (by simp [ha, accepting]))
    exact h.before a b d (see_events c w _ (by simp)) rfl rfl
  | ignored s f ha hf => rw [see_frame_none hf]; exact h
  | hangup s f ha hf => rw [see_frame_none (by rw [hf]; rfl)]; exact h.finish rfl st.queue
  | duplicate s f id q t ha hf hl =>
    rw [see_frame (hopen s ha) hf]
    obtain ⟨rest, e, _, r, _⟩ := h.ops
    have hr := r s ha
    subst hr
    constructor
    · refine ⟨[(id, q)], ?_, by simp, ?_, ?_⟩
      · simp only [subscribes_snoc, e, List.append_nil]; rfl
      · intro s' hs'; simp at hs'
      · intro s' m hs' hm
        simp at hs'
        exact absurd hs'.2.symm hm
    · intro _; exact h.subs (by simp [ha, serving])
    · intro _ id'
      simp only [inUse_snoc]
      by_cases hi : id = id'
      · subst hi; simp [hl]
      · simp only [hi, if_false]; exact h.uses (by simp [ha, serving]) id'
    · intro k hk hb
      rcases h.stopped k hk hb with h' | h'
      · simp [ha] at h'
      · exact .inr (by simp [h'])
  | subscribed s f id q ha hf hl =>
    rw [see_frame (hopen s ha) hf]
    obtain ⟨rest, e, _, r, _⟩ := h.ops
    have hr := r s ha
    subst hr
    constructor
    · refine ⟨[], ?_, by simp, fun _ _ => rfl, fun _ _ _ _ => rfl⟩
      simp only [subscribes_snoc, e, List.append_nil, List.map_append]; rfl
    · intro _ id' t
      simp only [lookup]
      have hsub := h.subs (by simp [ha, serving]) id'
      by_cases hi : id = id'
      · subst hi
        simp only [if_true]
        constructor
        · intro ht
          injection ht with ht
          subst ht
          exact ⟨{ id := id, request := q, at_ := .next, aborted := false }, by simp, rfl, rfl⟩
        · rintro ⟨k, hk, hid, hb⟩
          rw [List.getElem?_append] at hk
          split at hk
          · have := (hsub t).mpr ⟨k, hk, hid, hb⟩
            simp [hl] at this
          · rename_i hlt
            have hx := List.getElem?_eq_some_iff.mp hk
            obtain ⟨hx, _⟩ := hx
            simp at hx
            congr 1
            omega
      · simp only [hi, if_false]
        rw [hsub t]
        constructor
        · rintro ⟨k, hk, hid, hb⟩
          refine ⟨k, ?_, hid, hb⟩
          rw [List.getElem?_append_left (List.getElem?_eq_some_iff.mp hk).1]
          exact hk
        · rintro ⟨k, hk, hid, hb⟩
          rw [List.getElem?_append] at hk
          split at hk
          · exact ⟨k, hk, hid, hb⟩
          · have hx := List.mem_of_getElem? hk
            simp at hx
            subst hx
            exact absurd hid hi
    · intro _ id'
      simp only [inUse_snoc, lookup]
      by_cases hi : id = id'
      · simp [hi]
      · simp only [hi, if_false]; exact h.uses (by simp [ha, serving]) id'
    · intro k hk hb
      rcases List.mem_append.mp hk with hk | hk
      · rcases h.stopped k hk hb with h' | h'
        · simp [ha] at h'
        · exact .inr (by simp [h'])
      · simp at hk
        subst hk
        simp at hb
  | completed s f id t ha hf hl =>
    rw [see_frame (hopen s ha) hf]
    have hserv : serving st.at_ = true := by simp [ha, serving]
    obtain ⟨k, hk, hid, hb⟩ := (h.subs hserv id t).mp hl
    have hlt : t < st.tasks.length := (List.getElem?_eq_some_iff.mp hk).1
    have hmod : modifyTask st.tasks t (fun k => { k with aborted := true }) =
        st.tasks.set t { k with aborted := true } := by simp [modifyTask, hk]
    constructor
    · obtain ⟨rest, e, r1, r2, r3⟩ := h.ops
      refine ⟨rest, ?_, r1, r2, r3⟩
      simp only [subscribes_snoc, e, hmod]
      rw [show subscribes [(Event.complete id : Event P Q)] = [] from rfl, List.append_nil]
      congr 1
      apply List.ext_getElem?
      intro n
      simp only [List.getElem?_map, List.getElem?_set]
      by_cases hn : t = n
      · subst hn
        rw [hk]
        simp [hlt]
      · simp [hn]
    · intro _ id' u
      simp only [lookup_filter, hmod, List.getElem?_set]
      by_cases hi : id = id'
      · subst hi
        simp only [if_true]
        constructor
        · intro hc; simp at hc
        · rintro ⟨k', hk', hid', hb'⟩
          by_cases hu : t = u
          · subst hu
            simp [hlt] at hk'
            subst hk'
            simp at hb'
          · simp only [hu, if_false] at hk'
            have := (h.subs hserv id u).mpr ⟨k', hk', hid', hb'⟩
            rw [hl] at this
            injection this with this
            exact absurd this hu
      · simp only [hi, if_false]
        rw [h.subs hserv id' u]
        by_cases hu : t = u
        · subst hu
          simp only [if_true, hlt, hk]
          constructor
          · rintro ⟨k', hk', hid', _⟩
            injection hk' with hk'
            subst hk'
            exact absurd (hid.symm.trans hid') hi
          · rintro ⟨k', hk', _, hb'⟩
            injection hk' with hk'
            subst hk'
            simp at hb'
        · simp only [hu, if_false]
    · intro _ id'
      simp only [inUse_snoc, lookup_filter]
      by_cases hi : id = id'
      · simp [hi]
      · simp only [hi, if_false]; exact h.uses hserv id'
    · intro k' hk' hb'
      rw [hmod] at hk'
      rcases mem_set hk' with hk' | hk'
      · rcases h.stopped k' hk' hb' with h' | h'
        · simp [ha] at h'
        · exact .inr (by simp [h'])
      · subst hk'
        exact .inr (by simp [hid])
  | unknown s f id ha hf hl =>
    rw [see_frame (hopen s ha) hf]
    constructor
    · obtain ⟨rest, e, r⟩ := h.ops
      refine ⟨rest, ?_, r⟩
      simp only [subscribes_snoc, e]
      rw [show subscribes [(Event.complete id : Event P Q)] = [] from rfl, List.append_nil]
    · exact h.subs
    · intro hs id'
      simp only [inUse_snoc]
      by_cases hi : id = id'
      · subst hi; simp [hl]
      · simp only [hi, if_false]; exact h.uses hs id'
    · intro k hk hb
      rcases h.stopped k hk hb with h' | h'
      · exact .inl h'
      · exact .inr (by simp [h'])
  | ponged s f ha hf =>
    rw [see_frame (hopen s ha) hf]
    constructor
    · obtain ⟨rest, e, r⟩ := h.ops
      refine ⟨rest, ?_, r⟩
      simp only [subscribes_snoc, e]
      rw [show subscribes [(Event.pong : Event P Q)] = [] from rfl, List.append_nil]
    · exact h.subs
    · intro hs id'
      simp only [inUse_snoc]
      exact h.uses hs id'
    · intro k hk hb
      rcases h.stopped k hk hb with h' | h'
      · exact .inl h'
      · exact .inr (by simp [h'])
  | pinged s f ha hf =>
    rw [see_frame (hopen s ha) hf]
    constructor
    · obtain ⟨rest, e, r1, r2, r3⟩ := h.ops
      have hr := r2 s ha
      subst hr
      refine ⟨[], ?_, by simp, fun _ _ => rfl, fun _ _ _ _ => rfl⟩
      simp only [subscribes_snoc, e]
      rw [show subscribes [(Event.ping : Event P Q)] = [] from rfl, List.append_nil]
    · intro _; exact h.subs (by simp [ha, serving])
    · intro hs id'
      simp only [inUse_snoc]
      exact h.uses (by simp [ha, serving]) id'
    · intro k hk hb
      rcases h.stopped k hk hb with h' | h'
      · simp [ha] at h'
      · exact .inr (by simp [h'])
  | again s f p ha hf =>
    rw [see_frame (hopen s ha) hf]
    constructor
    · obtain ⟨rest, e, r1, r2, r3⟩ := h.ops
      have hr := r2 s ha
      subst hr
      refine ⟨[], ?_, by simp, fun _ _ => rfl, fun _ _ _ _ => rfl⟩
      simp only [subscribes_snoc, e]
      rw [show subscribes [(Event.init p : Event P Q)] = [] from rfl, List.append_nil]
    · intro _; exact h.subs (by simp [ha, serving])
    · intro hs id'
      simp only [inUse_snoc]
      exact h.uses (by simp [ha, serving]) id'
    · intro k hk hb
      rcases h.stopped k hk hb with h' | h'
      · simp [ha] at h'
      · exact .inr (by simp [h'])
  | loopClose s m ha hcs hm => exact h.finish (see_events c w _ (by simp)) _
  | loopSent s m ha hcs hm =>
    have hm' : m ≠ .close 4409 := by intro e; subst e; simp [isClose] at hm
    constructor
    · obtain ⟨rest, e, r1, r2, r3⟩ := h.ops
      have hr := r3 s m ha hm'
      subst hr
      refine ⟨[], ?_, by simp, fun _ _ => rfl, fun _ _ _ _ => rfl⟩
      rw [see_events c w _ (by simp)]
      exact e
    · intro _; exact h.subs (by simp [ha, serving])
    · intro hs id'
      rw [see_events c w _ (by simp)]
      exact h.uses (by simp [ha, serving]) id'
    · intro k hk hb
      rw [see_events c w _ (by simp)]
      rcases h.stopped k hk hb with h' | h'
      · simp [ha] at h'
      · exact .inr h'
  | loopFailed s m ha hp => exact h.finish (see_events c w _ (by simp)) st.queue
  | item t r k hk hn => exact h.set (see_events c w _ (by simp)) hk _ st.queue
  | streamEnd t k hk hn => exact h.set (see_events c w _ (by simp)) hk _ st.queue
  | taskSent t k m last hk hn hcs => exact h.set (see_events c w _ (by simp)) hk _ _
  | taskFailed t k m last hk hn hp => exact h.set (see_events c w _ (by simp)) hk _ st.queue
  | cancel t k hk hab hr => exact h.set (see_events c w _ (by simp)) hk _ st.queue
  | pumpTake m q hp hq => exact h.same (see_events c w _ (by simp)) rfl rfl rfl
  | pumpSent m hp hc => exact h.same (see_events c w _ (by simp)) rfl rfl rfl
  | pumpFailed m ok hp hw => exact h.same (see_events c w _ (by simp)) rfl rfl rfl
  | unencodable m hp => exact h.same (see_events c w _ (by simp)) rfl rfl rfl
  | pumpEnd hp hq ha hr => exact h.same (see_events c w _ (by simp)) rfl rfl rfl

theorem run_books {c : Cfg P Q R T} {is : List (In R S T)} {st : St P Q R S} (h : run c is = some st) :
    Books (seen c is) st :=
  (run_inv (fun is st => Shape (seen c is) st ∧ Books (seen c is) st) ⟨shape_start, books_start⟩
    (fun is st i st' hi hs => by rw [seen_snoc]; exact ⟨shape_step hi.1 hs, books_step hi.1 hi.2 hs⟩) h).2

end Verif.WsServer
