import Verif.WsServer.Books

/-!
# Invariants: no message is lost, and none is made up
-/
namespace Verif.WsServer

variable {P Q R S T : Type}

/-- The message the writing task has received. -/
def inflight : Pump R → List (Tagged R)
  | .sending m => [m]
  | _ => []

/-- The messages written, being written, and in the channel. -/
def flow (st : St P Q R S) : List (Tagged R) := st.out ++ inflight st.pump ++ st.queue

/-- The messages of a task. -/
def byTask (t : Nat) (l : List (Tagged R)) : List (Msg R) :=
  (l.filter (fun m => decide (m.origin = some t))).map (·.msg)

theorem byTask_append (t : Nat) (a b : List (Tagged R)) : byTask t (a ++ b) = byTask t a ++ byTask t b := by
  simp [byTask]

theorem byTask_none (t : Nat) (m : Msg R) : byTask t [⟨none, m⟩] = [] := by
  simp [byTask]

theorem byTask_other {t u : Nat} (h : u ≠ t) (m : Msg R) : byTask t [⟨some u, m⟩] = [] := by
  simp [byTask, h]

theorem byTask_self (t : Nat) (m : Msg R) : byTask t [⟨some t, m⟩] = [m] := by
  simp [byTask]

/-- The message a task is sending. -/
def pending : TaskAt R → List (Msg R)
  | .sending m _ => [m]
  | _ => []

theorem script_snoc (c : Cfg P Q R T) (id : Id) (t : Nat) (is : List (In R S T)) (i : In R S T) :
    script c id t (is ++ [i]) = script c id t is ++ says c id t i := by
  simp [script]

theorem script_about {c : Cfg P Q R T} {id : Id} {t : Nat} {is : List (In R S T)} {m : Msg R}
    (h : m ∈ script c id t is) : about m = some id := by
  obtain ⟨i, _, hi⟩ := List.mem_flatMap.mp h
  cases i with
  | item u r =>
    simp only [says] at hi
    split at hi
    · simp only [List.mem_singleton] at hi
      subst hi
      split <;> rfl
    · simp at hi
  | streamEnd u =>
    simp only [says] at hi
    split at hi
    · simp only [List.mem_singleton] at hi
      subst hi
      rfl
    · simp at hi
  | _ => simp [says] at hi

/-- Of a task: what it has said, and will have once what it is sending is taken. -/
def Kept (c : Cfg P Q R T) (is : List (In R S T)) (fl : List (Tagged R)) (t : Nat) (k : Task Q R) : Prop :=
  (k.at_ = .cancelled ∧ byTask t fl <+: script c k.id t is) ∨
    (k.at_ ≠ .cancelled ∧ byTask t fl ++ pending k.at_ = script c k.id t is)

theorem Kept.prefix {c : Cfg P Q R T} {is : List (In R S T)} {fl : List (Tagged R)} {t : Nat} {k : Task Q R}
    (h : Kept c is fl t k) : byTask t fl <+: script c k.id t is := by
  rcases h with ⟨_, h⟩ | ⟨_, h⟩
  · exact h
  · exact ⟨_, h⟩

structure Conserve (c : Cfg P Q R T) (is : List (In R S T)) (st : St P Q R S) : Prop where
  fresh : ∀ t, st.tasks[t]? = none → byTask t (flow st) = [] ∧ ∀ id, script c id t is = []
  kept : ∀ t k, st.tasks[t]? = some k → st.pump ≠ .dead → Kept c is (flow st) t k
  lost : ∀ t k, st.tasks[t]? = some k → st.pump = .dead → byTask t st.out <+: script c k.id t is

theorem conserve_start (c : Cfg P Q R T) : Conserve c [] (start : St P Q R S) := by
  constructor <;> simp [start, flow, inflight, byTask, script]

/-- A transition that leaves the messages of the tasks. -/
theorem Conserve.same {c : Cfg P Q R T} {is : List (In R S T)} {st st' : St P Q R S} {i : In R S T}
    (h : Conserve c is st)
    (ht : ∀ t : Nat, (st'.tasks[t]?).map (fun k => (k.id, k.at_)) = (st.tasks[t]?).map (fun k => (k.id, k.at_)))
    (hf : ∀ t, byTask t (flow st') = byTask t (flow st)) (ho : st.pump = .dead → ∀ t, byTask t st'.out = byTask t st.out)
    (hp : st'.pump = .dead ↔ st.pump = .dead) (hs : ∀ id t, says c id t i = []) : Conserve c (is ++ [i]) st' := by
  have hsc : ∀ id t, script c id t (is ++ [i]) = script c id t is := by
    intro id t; rw [script_snoc, hs, List.append_nil]
  constructor
  · intro t hn
    have := ht t
    rw [hn] at this
    have hn' : st.tasks[t]? = none := by
      cases hx : st.tasks[t]? with
      | none => rfl
      | some k => rw [hx] at this; simp at this
    have := h.fresh t hn'
    exact ⟨by rw [hf, this.1], fun id => by rw [hsc, this.2]⟩
  · intro t k hk hd
    have e := ht t
    rw [hk] at e
    cases hx : st.tasks[t]? with
    | none => rw [hx] at e; simp at e
    | some k' =>
      rw [hx] at e
      simp at e
      have := h.kept t k' hx (fun hd' => hd (hp.mpr hd'))
      unfold Kept at this ⊢
      rw [hf, hsc, e.1, e.2]
      exact this
  · intro t k hk hd
    have e := ht t
    rw [hk] at e
    cases hx : st.tasks[t]? with
    | none => rw [hx] at e; simp at e
    | some k' =>
      rw [hx] at e
      simp at e
      rw [hsc, ho (hp.mp hd), e.1]
      exact h.lost t k' hx (hp.mp hd)

theorem Conserve.dies {c : Cfg P Q R T} {is : List (In R S T)} {st : St P Q R S} {i : In R S T}
    (h : Conserve c is st) (ha : st.pump ≠ .dead) (hs : ∀ id t, says c id t i = []) :
    Conserve c (is ++ [i]) (die st) := by
  have hsc : ∀ id t, script c id t (is ++ [i]) = script c id t is := by
    intro id t; rw [script_snoc, hs, List.append_nil]
  have hpre : ∀ t, byTask t st.out <+: byTask t (flow st) := by
    intro t
    rw [flow, byTask_append, byTask_append, List.append_assoc]
    exact List.prefix_append _ _
  constructor
  · intro t hn
    have := h.fresh t hn
    refine ⟨?_, fun id => by rw [hsc, this.2]⟩
    have hp := hpre t
    rw [this.1] at hp
    simpa [flow, die, inflight] using hp
  · intro t k hk hd
    simp [die] at hd
  · intro t k hk _
    rw [hsc]
    exact (hpre t).trans (h.kept t k hk ha).prefix

/-- A transition of one task, which adds to what it says or says something. -/
theorem Conserve.task {c : Cfg P Q R T} {is : List (In R S T)} {st : St P Q R S} {i : In R S T} {t : Nat} {k : Task Q R}
    {a : TaskAt R} {q : List (Tagged R)} (h : Conserve c is st) (hk : st.tasks[t]? = some k)
    (hs : ∀ id u, u ≠ t → says c id u i = []) (hq : ∀ u, u ≠ t → byTask u q = [])
    (hkept : st.pump ≠ .dead → Kept c is (flow st) t k →
      Kept c (is ++ [i]) (flow st ++ q) t { k with at_ := a })
    (hd : st.pump = .dead → q = []) :
    Conserve c (is ++ [i]) (setTask { st with queue := st.queue ++ q } t k a) := by
  have hlt : t < st.tasks.length := (List.getElem?_eq_some_iff.mp hk).1
  have hfl : flow (setTask { st with queue := st.queue ++ q } t k a) = flow st ++ q := by
    simp [flow, setTask]
  constructor
  · intro u hu
    have hut : u ≠ t := by
      intro e
      subst e
      simp [setTask, hlt] at hu
    have hu' : st.tasks[u]? = none := by
      simpa [setTask, List.getElem?_set, Ne.symm hut] using hu
    have := h.fresh u hu'
    refine ⟨?_, fun id => by rw [script_snoc, this.2, hs id u hut]; rfl⟩
    rw [hfl, byTask_append, this.1, hq u hut]; rfl
  · intro u k' hk' hp
    rw [hfl]
    by_cases hut : u = t
    · subst hut
      simp only [setTask, List.getElem?_set, if_true, hlt] at hk'
      injection hk' with hk'
      subst hk'
      exact hkept hp (h.kept u k hk hp)
    · have hk'' : st.tasks[u]? = some k' := by
        simpa [setTask, List.getElem?_set, Ne.symm hut] using hk'
      have := h.kept u k' hk'' hp
      unfold Kept at this ⊢
      rw [byTask_append, hq u hut, List.append_nil, script_snoc, hs k'.id u hut, List.append_nil]
      exact this
  · intro u k' hk' hp
    rw [script_snoc]
    have hpre : ∀ k'', st.tasks[u]? = some k'' → k''.id = k'.id →
        byTask u st.out <+: script c k'.id u is ++ says c k'.id u i := by
      intro k'' hx e
      rw [← e]
      exact (h.lost u k'' hx hp).trans (List.prefix_append _ _)
    by_cases hut : u = t
    · subst hut
      simp only [setTask, List.getElem?_set, if_true, hlt] at hk'
      injection hk' with hk'
      subst hk'
      exact hpre k hk rfl
    · exact hpre k' (by simpa [setTask, List.getElem?_set, Ne.symm hut] using hk') rfl

theorem getElem?_map_abort (l : List (Task Q R)) (t : Nat) :
    ((l.map (fun k => { k with aborted := true }))[t]?).map (fun k => (k.id, k.at_)) =
      (l[t]?).map (fun k => (k.id, k.at_)) := by
  simp [Function.comp_def]

theorem conserve_step {c : Cfg P Q R T} {is : List (In R S T)} {w : Seen P Q} {st st' : St P Q R S} {i : In R S T}
    (hsh : Shape w st) (h : Conserve c is st) (hs : step c st i = some st') : Conserve c (is ++ [i]) st' := by
  have hst := step_sound hs
  clear hs
  have hemp : (accepting st.at_ = true ∨ st.at_ = .timedOut) → st.queue = [] ∧ inflight st.pump = [] := by
    intro ha
    have := hsh.empty (hsh.unopened ha)
    refine ⟨this.2.2.1, ?_⟩
    cases hp : st.pump with
    | sending m => exact absurd hp (this.2.2.2.1 m)
    | _ => rfl
  have hout : (accepting st.at_ = true ∨ st.at_ = .timedOut) → ∀ (m : Msg R) (a : At P R S) (b : Bool) (t : Nat),
      byTask t (flow { st with at_ := a, out := st.out ++ [⟨none, m⟩], closed := b }) = byTask t (flow st) := by
    intro ha m a b t
    obtain ⟨e1, e2⟩ := hemp ha
    simp only [flow, e1, e2, List.append_nil, byTask_append, byTask_none]
  have hacc : ∀ (m : Msg R) (a : At P R S) (b : Bool), (accepting st.at_ = true ∨ st.at_ = .timedOut) →
      (∀ id t, says c id t i = []) →
      Conserve c (is ++ [i]) { st with at_ := a, out := st.out ++ [⟨none, m⟩], closed := b } := by
    intro m a b ha hsy
    exact h.same (fun _ => rfl) (hout ha m a b) (fun _ t => by simp [byTask_append, byTask_none]) Iff.rfl hsy
  have hat : ∀ (a : At P R S), (∀ id t, says c id t i = []) → Conserve c (is ++ [i]) { st with at_ := a } := by
    intro a hsy
    exact h.same (fun _ => rfl) (fun _ => rfl) (fun _ _ => rfl) Iff.rfl hsy
  cases hst with
  | accStay f ha => exact hat st.at_ (fun _ _ => rfl)
  | accOver f ha => exact hat _ (fun _ _ => rfl)
  | accInit f p ha => exact hat _ (fun _ _ => rfl)
  | accPing f ha => exact hat _ (fun _ _ => rfl)
  | accEarly f ha => exact hat _ (fun _ _ => rfl)
  | createdSome p s ha => exact hat _ (fun _ _ => rfl)
  | createdNone p ha => exact hat _ (fun _ _ => rfl)
  | accFailed m a ok ha hw => exact hat _ (fun _ _ => rfl)
  | accAgain m ha hc => exact hacc m _ _ (.inl (by simp [ha, accepting])) (fun _ _ => rfl)
  | accStop m ha hc => exact hacc m _ _ (.inl (by simp [ha, accepting])) (fun _ _ => rfl)
  | accServe m s ha hc => exact hacc m _ _ (.inl (by simp [ha, accepting])) (fun _ _ => rfl)
  | lateFailed ok ha hw => exact hat _ (fun _ _ => rfl)
  | lateSent ha hc => exact hacc _ _ _ (.inr ha) (fun _ _ => rfl)
  | timeoutRecv ok ha => exact hat _ (fun _ _ => rfl)
  | timeoutCreating p ok ha => exact hat _ (fun _ _ => rfl)
  | timeoutLost m a ok ha => exact hat _ (fun _ _ => rfl)
  | timeoutWritten m a ok ha hc => exact hacc m _ _ (.inl (by simp [ha, accepting])) (fun _ _ => rfl)
  | ignored s f ha hf => exact hat st.at_ (fun _ _ => rfl)
  | hangup s f ha hf =>
    exact h.same (getElem?_map_abort st.tasks) (fun _ => rfl) (fun _ _ => rfl) Iff.rfl (fun _ _ => rfl)
  | duplicate s f id q t ha hf hl => exact hat _ (fun _ _ => rfl)
  | subscribed s f id q ha hf hl =>
    have hfr := h.fresh st.tasks.length (by simp)
    have hold : ∀ (t : Nat) (k : Task Q R),
        (st.tasks ++ [({ id := id, request := q, at_ := .next, aborted := false } : Task Q R)])[t]? = some k →
        st.tasks[t]? = some k ∨ (t = st.tasks.length ∧ k = { id := id, request := q, at_ := .next, aborted := false }) := by
      intro t k hk
      rw [List.getElem?_append] at hk
      split at hk
      · exact .inl hk
      · rename_i hlt
        have hx := (List.getElem?_eq_some_iff.mp hk).1
        simp at hx
        have ht : t = st.tasks.length := by omega
        subst ht
        simp at hk
        exact .inr ⟨rfl, hk.symm⟩
    have hsc : ∀ id t, script c id t (is ++ [In.frame f]) = script c id t is := by
      intro id t; rw [script_snoc]; simp [says]
    constructor
    · intro t hn
      have hn' : st.tasks[t]? = none := by
        rw [List.getElem?_eq_none_iff] at hn ⊢
        simp at hn
        omega
      exact ⟨(h.fresh t hn').1, fun id => by rw [hsc, (h.fresh t hn').2]⟩
    · intro t k hk hp
      rcases hold t k hk with hk | ⟨ht, he⟩
      · have := h.kept t k hk hp
        unfold Kept at this ⊢
        rw [hsc]
        exact this
      · subst ht; subst he
        refine .inr ⟨by simp, ?_⟩
        rw [hsc, hfr.2]
        have := hfr.1
        simp only [flow] at this ⊢
        rw [this]
        rfl
    · intro t k hk hp
      rcases hold t k hk with hk | ⟨ht, he⟩
      · rw [hsc]
        exact h.lost t k hk hp
      · subst ht; subst he
        have := hfr.1
        simp only [flow, byTask_append, List.append_eq_nil_iff] at this
        rw [this.1.1]
        exact List.nil_prefix
  | completed s f id t ha hf hl =>
    refine h.same ?_ (fun _ => rfl) (fun _ _ => rfl) Iff.rfl (fun _ _ => rfl)
    intro u
    simp only [modifyTask]
    split
    · rename_i k hk
      have hlt : t < st.tasks.length := (List.getElem?_eq_some_iff.mp hk).1
      rw [List.getElem?_set]
      by_cases hu : t = u
      · subst hu
        rw [hk]
        simp [hlt]
      · simp [hu]
    · rfl
  | unknown s f id ha hf hl => exact hat st.at_ (fun _ _ => rfl)
  | ponged s f ha hf => exact hat st.at_ (fun _ _ => rfl)
  | pinged s f ha hf => exact hat _ (fun _ _ => rfl)
  | again s f p ha hf => exact hat _ (fun _ _ => rfl)
  | loopClose s m ha hcs hm =>
    refine h.same (getElem?_map_abort st.tasks) ?_ (fun _ _ => rfl) Iff.rfl (fun _ _ => rfl)
    intro t
    simp only [flow, finish, ← List.append_assoc, byTask_append _ _ [_], byTask_none, List.append_nil]
  | loopSent s m ha hcs hm =>
    refine h.same (fun _ => rfl) ?_ (fun _ _ => rfl) Iff.rfl (fun _ _ => rfl)
    intro t
    simp only [flow, ← List.append_assoc, byTask_append _ _ [_], byTask_none, List.append_nil]
  | loopFailed s m ha hp =>
    exact h.same (getElem?_map_abort st.tasks) (fun _ => rfl) (fun _ _ => rfl) Iff.rfl (fun _ _ => rfl)
  | item t r k hk hn =>
    have := h.task (i := In.item t r) (a := .sending (toMessage c k.id r) false) (q := []) hk
      (fun id u hu => by simp [says, Ne.symm hu]) (fun _ _ => rfl) ?_ (fun _ => rfl)
    · simpa using this
    · intro _ hkept
      rcases hkept with ⟨hc, _⟩ | ⟨_, hkept⟩
      · simp [hn] at hc
      · refine .inr ⟨by simp, ?_⟩
        simp only [hn, pending, List.append_nil] at hkept
        simp only [List.append_nil, pending, script_snoc, hkept, says, if_true]
        rfl
  | streamEnd t k hk hn =>
    have := h.task (i := In.streamEnd t) (a := .sending (.complete k.id) true) (q := []) hk
      (fun id u hu => by simp [says, Ne.symm hu]) (fun _ _ => rfl) ?_ (fun _ => rfl)
    · simpa using this
    · intro _ hkept
      rcases hkept with ⟨hc, _⟩ | ⟨_, hkept⟩
      · simp [hn] at hc
      · refine .inr ⟨by simp, ?_⟩
        simp only [hn, pending, List.append_nil] at hkept
        simp only [List.append_nil, pending, script_snoc, hkept, says, if_true]
  | taskSent t k m last hk hn hcs =>
    refine h.task (i := In.taskSent t) hk (fun id u hu => rfl) (fun u hu => byTask_other (Ne.symm hu) m) ?_ ?_
    · intro _ hkept
      rcases hkept with ⟨hc, _⟩ | ⟨_, hkept⟩
      · simp [hn] at hc
      · refine .inr ⟨by cases last <;> simp, ?_⟩
        simp only [hn, pending] at hkept
        rw [byTask_append, byTask_self, script_snoc]
        simp only [says, List.append_nil]
        rw [← hkept]
        cases last <;> simp [pending]
    · intro hd
      simp [canSend, hd] at hcs
  | taskFailed t k m last hk hn hp =>
    have := h.task (i := In.taskFailed t) (a := .finished) (q := []) hk
      (fun id u hu => rfl) (fun _ _ => rfl) (fun hd => absurd hp hd) (fun _ => rfl)
    simpa using this
  | cancel t k hk hab hr =>
    have := h.task (i := In.cancel t) (a := .cancelled) (q := []) hk
      (fun id u hu => rfl) (fun _ _ => rfl) ?_ (fun _ => rfl)
    · simpa using this
    · intro _ hkept
      refine .inl ⟨rfl, ?_⟩
      simp only [List.append_nil, script_snoc, says]
      exact hkept.prefix
  | pumpTake m q hp hq =>
    refine h.same (fun _ => rfl) ?_ (fun _ _ => rfl) (by simp [hp]) (fun _ _ => rfl)
    intro t
    simp [flow, hp, hq, inflight]
  | pumpSent m hp hc =>
    refine h.same (fun _ => rfl) ?_ (fun hd => by simp [hp] at hd) (by simp [hp]) (fun _ _ => rfl)
    intro t
    simp [flow, hp, inflight]
  | pumpFailed m ok hp hw => exact h.dies (by simp [hp]) (fun _ _ => rfl)
  | unencodable m hp => exact h.dies (by simp [hp]) (fun _ _ => rfl)
  | pumpEnd hp hq ha hr => exact h.dies (by simp [hp]) (fun _ _ => rfl)

theorem run_conserve {c : Cfg P Q R T} {is : List (In R S T)} {st : St P Q R S} (h : run c is = some st) :
    Conserve c is st :=
  (run_inv (fun is st => Shape (seen c is) st ∧ Conserve c is st) ⟨shape_start, conserve_start c⟩
    (fun is st i st' hi hs => ⟨by rw [seen_snoc]; exact shape_step hi.1 hs, conserve_step hi.1 hi.2 hs⟩) h).2

end Verif.WsServer
