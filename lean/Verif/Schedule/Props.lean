import Verif.Schedule.Start

/-! # C12: plans run at most once and only after everything they depend on -/
namespace Verif.Schedule

/-! ## Tasks and executables -/

theorem task_plan {q : Query} {o : OpPlan} (b : Built q o) {n : Nat} {t : Task} :
    o.task (.plan n) = some t ↔ n < q.parts.length ∧ t = .plan n := by
  simp only [OpPlan.task, b.plans]
  by_cases h : n < q.parts.length
  · simp [List.getElem?_range, h, eq_comm]
  · rw [List.getElem?_eq_none (by simpa using h)]; simp [h]

theorem task_modifier {o : OpPlan} {n : Nat} {t : Task} :
    o.task (.modifier n) = some t ↔ ∃ m, o.mods[n]? = some m ∧ t = .modifier m.defn m.partition := by
  simp only [OpPlan.task, Option.map_eq_some_iff]
  constructor
  · rintro ⟨m, h, rfl⟩; exact ⟨m, h, rfl⟩
  · rintro ⟨m, h, rfl⟩; exact ⟨m, h, rfl⟩

theorem getElem?_inj_of_nodup {α β : Type} {f : α → β} : ∀ {l : List α} {i j : Nat} {a b : α}, (l.map f).Nodup →
    l[i]? = some a → l[j]? = some b → f a = f b → i = j
  | [], _, _, _, _, _, h, _, _ => by simp at h
  | x :: t, 0, 0, _, _, _, _, _, _ => rfl
  | x :: t, 0, j + 1, a, b, hn, hi, hj, h => by
    simp only [List.getElem?_cons_zero, Option.some.injEq, List.getElem?_cons_succ] at hi hj
    subst hi
    rw [List.map_cons, List.nodup_cons] at hn
    exact absurd (List.mem_map.2 ⟨b, List.mem_of_getElem? hj, h.symm⟩) hn.1
  | x :: t, i + 1, 0, a, b, hn, hi, hj, h => by
    simp only [List.getElem?_cons_zero, Option.some.injEq, List.getElem?_cons_succ] at hi hj
    subst hj
    rw [List.map_cons, List.nodup_cons] at hn
    exact absurd (List.mem_map.2 ⟨a, List.mem_of_getElem? hi, h⟩) hn.1
  | x :: t, i + 1, j + 1, a, b, hn, hi, hj, h => by
    simp only [List.getElem?_cons_succ] at hi hj
    rw [List.map_cons, List.nodup_cons] at hn
    rw [getElem?_inj_of_nodup hn.2 hi hj h]

theorem task_inj {q : Query} {o : OpPlan} (b : Built q o) {d e : Exe} {t : Task} (hd : o.task d = some t)
    (he : o.task e = some t) : d = e := by
  cases d with
  | plan n =>
    obtain ⟨-, rfl⟩ := (task_plan b).1 hd
    cases e with
    | plan k => obtain ⟨-, h⟩ := (task_plan b).1 he; cases h; rfl
    | modifier k => obtain ⟨m, -, h⟩ := task_modifier.1 he; cases h
  | modifier n =>
    obtain ⟨m, hm, rfl⟩ := task_modifier.1 hd
    cases e with
    | plan k => obtain ⟨-, h⟩ := (task_plan b).1 he; cases h
    | modifier k =>
      obtain ⟨m', hm', h⟩ := task_modifier.1 he
      simp only [Task.modifier.injEq] at h
      rw [getElem?_inj_of_nodup b.recs.nodup hm hm' (by simp [h.1, h.2])]

theorem hasTask_iff {q : Query} {o : OpPlan} (b : Built q o) {t : Task} :
    q.HasTask t ↔ ∃ e, o.task e = some t := by
  constructor
  · intro h
    cases h with
    | @plan P h => exact ⟨.plan P, (task_plan b).2 ⟨h, rfl⟩⟩
    | @modifier d P f h =>
      have hd : d < q.modifiers.length := by
        obtain ⟨defn, h', -⟩ := h
        exact (List.getElem?_eq_some_iff.1 h').1
      obtain ⟨m, hm, rfl, rfl⟩ := b.recs.complete d P f hd h
      obtain ⟨i, hi⟩ := List.mem_iff_getElem?.1 hm
      exact ⟨.modifier i, task_modifier.2 ⟨m, hi, rfl⟩⟩
  · rintro ⟨e, he⟩
    cases e with
    | plan n => obtain ⟨h, rfl⟩ := (task_plan b).1 he; exact .plan h
    | modifier n =>
      obtain ⟨m, hm, rfl⟩ := task_modifier.1 he
      obtain ⟨f, hf⟩ := (b.recs.sound m (List.mem_of_getElem? hm)).2.1
      exact .modifier hf

/-- The graph built satisfies what the execution needs. -/
theorem built_ok {q : Query} {o : OpPlan} (b : Built q o) : ∃ E, Ok E o.graph o.plans.length (fun e => (o.task e).isSome = true) ∧
    ∀ d e, (d, e) ∈ E ↔ ∃ t u, o.task e = some t ∧ o.task d = some u ∧ q.Depends t u := by
  obtain ⟨E, hE, hm⟩ := b.graph
  refine ⟨E, ⟨hE, ?_, ?_, ?_⟩, hm⟩
  · intro d e h
    obtain ⟨t, u, h1, h2, -⟩ := (hm d e).1 h
    simp [h1, h2]
  · intro p
    rw [Option.isSome_iff_exists]
    simp [task_plan b, b.plans]
  · intro i h
    obtain ⟨t, ht⟩ := Option.isSome_iff_exists.1 h
    obtain ⟨m, hmi, rfl⟩ := task_modifier.1 ht
    obtain ⟨f, hf⟩ := (b.recs.sound m (List.mem_of_getElem? hmi)).2.1
    have hlt := hf
    -- the plan of its partition exists since the edge was made
    have he : ∃ d, (d, .modifier i) ∈ E := by
      have hp : m.partition < q.parts.length := b.partition m (List.mem_of_getElem? hmi)
      exact ⟨.plan m.partition, (hm _ _).2 ⟨_, _, ht, (task_plan b).2 ⟨hp, rfl⟩, .modifies hf⟩⟩
    exact he

theorem reached_inv {q : Query} {o : OpPlan} {s : St} (b : Built q o) {is : List Input} (h : Executes o is s) :
    ∃ E sub, Ok E o.graph o.plans.length (fun e => (o.task e).isSome = true) ∧
      (∀ d e, (d, e) ∈ E ↔ ∃ t u, o.task e = some t ∧ o.task d = some u ∧ q.Depends t u) ∧
      Inv E (fun e => (o.task e).isSome = true) sub s := by
  obtain ⟨E, ok, hE⟩ := built_ok b
  cases h with
  | operation h =>
    exact ⟨E, none, ok, hE, run_inv ok (runStart_inv (sub := none) ok _ (fun _ _ => rfl) (by simp)) h⟩
  | subscription h0 h =>
    obtain ⟨p, c, -, hi⟩ := startSubscription_spec ok h0
    exact ⟨E, some p, ok, hE, run_inv ok hi h⟩

theorem mem_starts {o : OpPlan} {log : List Ev} {t : Task} :
    t ∈ o.starts log ↔ ∃ e ∈ startsOf log, o.task e = some t := by
  simp only [OpPlan.starts, startsOf, List.mem_filterMap, Option.bind_eq_some_iff]
  constructor
  · rintro ⟨ev, h, e, h1, h2⟩; exact ⟨e, ⟨ev, h, h1⟩, h2⟩
  · rintro ⟨e, ⟨ev, h, h1⟩, h2⟩; exact ⟨ev, h, e, h1, h2⟩

theorem mem_dones {o : OpPlan} {log : List Ev} {t : Task} :
    t ∈ o.dones log ↔ ∃ e, .completed e ∈ log ∧ o.task e = some t := by
  simp only [OpPlan.dones, List.mem_filterMap, Option.bind_eq_some_iff]
  constructor
  · rintro ⟨ev, h, e, h1, h2⟩
    cases ev <;> simp [Ev.done] at h1
    subst h1; exact ⟨_, h, h2⟩
  · rintro ⟨e, h, h2⟩; exact ⟨_, h, e, rfl, h2⟩

/-! ## The property -/

/-- Each plan and each response modifier has its turn at most once. -/
theorem C12_at_most_once {q : Query} {o : OpPlan} {s : St} (hb : build q = .ok o) {is : List Input} (hr : Executes o is s) :
    (o.starts s.log).Nodup := by
  have b := build_spec hb
  obtain ⟨E, sub, ok, hE, inv⟩ := reached_inv b hr
  have h1 : (startsOf s.log).Nodup := (List.nodup_append.1 inv.nodup).1
  have : o.starts s.log = (startsOf s.log).filterMap o.task := by
    simp only [OpPlan.starts, startsOf, List.filterMap_filterMap]
  rw [this]
  refine List.Pairwise.filterMap _ ?_ h1
  intro a a' hne t ht t' ht' he
  subst he
  exact hne (task_inj b ht ht')

/-- When a plan or a modifier has its turn, everything it depends on has completed. -/
theorem C12_after_dependencies {q : Query} {o : OpPlan} {s : St} (hb : build q = .ok o) {is : List Input} (hr : Executes o is s)
    {pre : List Ev} {ev : Ev} {post : List Ev} (hl : s.log = pre ++ ev :: post) {t u : Task}
    (ht : ev.start.bind o.task = some t) (hd : q.Depends t u) : u ∈ o.dones pre := by
  have b := build_spec hb
  obtain ⟨E, sub, ok, hE, inv⟩ := reached_inv b hr
  obtain ⟨e, h1, h2⟩ := Option.bind_eq_some_iff.1 ht
  have hu : q.HasTask u := b.closed hd
  obtain ⟨d, h3⟩ := (hasTask_iff b).1 hu
  exact mem_dones.2 ⟨d, inv.order pre ev post hl e h1 d ((hE d e).2 ⟨t, u, h2, h3, hd⟩), h3⟩

/-- Only what was started completes. -/
theorem C12_completed_was_started {q : Query} {o : OpPlan} {s : St} (hb : build q = .ok o) {is : List Input} (hr : Executes o is s)
    {pre : List Ev} {e : Exe} {post : List Ev} (hl : s.log = pre ++ .completed e :: post) : .started e ∈ pre := by
  obtain ⟨E, sub, ok, hE, inv⟩ := reached_inv (build_spec hb) hr
  exact inv.doneOrder pre e post hl

/-- At the end exactly those had their turn whose dependencies completed, whatever failed. -/
theorem C12_finished {q : Query} {o : OpPlan} {s : St} (hb : build q = .ok o) {is : List Input} (hr : Executes o is s)
    (hf : s.phase = .finished) {t : Task} (ht : q.HasTask t) :
    t ∈ o.starts s.log ↔ ∀ u, q.Depends t u → u ∈ o.dones s.log := by
  have b := build_spec hb
  obtain ⟨E, sub, ok, hE, inv⟩ := reached_inv b hr
  obtain ⟨e, he⟩ := (hasTask_iff b).1 ht
  have hiff := inv.finished_iff hf (e := e) (by simp [he])
  have h1 : t ∈ o.starts s.log ↔ e ∈ startsOf s.log := by
    rw [mem_starts]
    constructor
    · rintro ⟨e', h, h'⟩; rw [← task_inj b h' he]; exact h
    · intro h; exact ⟨e, h, he⟩
  rw [h1, hiff]
  constructor
  · intro h u hu
    obtain ⟨d, hd⟩ := (hasTask_iff b).1 (b.closed hu)
    exact mem_dones.2 ⟨d, mem_donesOf.1 (h d ((hE d e).2 ⟨t, u, he, hd, hu⟩)), hd⟩
  · intro h d hd
    obtain ⟨t', u, h1, h2, h3⟩ := (hE d e).1 hd
    rw [he] at h1; cases h1
    obtain ⟨d', h4, h5⟩ := mem_dones.1 (h u h3)
    rw [← task_inj b h5 h2]
    exact mem_donesOf.2 h4

/-- If no plan fails and every plan finds parent objects, everything is started and completes.  Missing:
plans without parent objects, see `C12_no_parent_objects`. -/
theorem C12_all_started_partial {q : Query} {o : OpPlan} {s : St} (hb : build q = .ok o) {is : List Input} (hr : Executes o is s)
    (hf : s.phase = .finished) (ha : q.Acyclic) (hn : NoFailure s.log) (hs : NoSkip s.log) {t : Task}
    (ht : q.HasTask t) : t ∈ o.starts s.log ∧ t ∈ o.dones s.log := by
  have b := build_spec hb
  obtain ⟨E, sub, ok, hE, inv⟩ := reached_inv b hr
  obtain ⟨rank, hrank⟩ := ha
  have key : ∀ k t, rank t ≤ k → q.HasTask t → t ∈ o.starts s.log ∧ t ∈ o.dones s.log := by
    intro k
    induction k with
    | zero =>
      intro t hk ht
      have h1 : t ∈ o.starts s.log := (C12_finished hb hr hf ht).2 fun u hu => by
        have := hrank t u hu; omega
      obtain ⟨e, h2, h3⟩ := mem_starts.1 h1
      exact ⟨h1, mem_dones.2 ⟨e, mem_donesOf.1 (inv.completed hf h2 hs hn), h3⟩⟩
    | succ k ih =>
      intro t hk ht
      have h1 : t ∈ o.starts s.log := (C12_finished hb hr hf ht).2 fun u hu => by
        have := hrank t u hu
        exact (ih u (by omega) (b.closed hu)).2
      obtain ⟨e, h2, h3⟩ := mem_starts.1 h1
      exact ⟨h1, mem_dones.2 ⟨e, mem_donesOf.1 (inv.completed hf h2 hs hn), h3⟩⟩
  exact key _ t (Nat.le_refl _) ht

/-- Until the end there is always a next step, -/
theorem C12_progress {q : Query} {o : OpPlan} {s : St} (_hb : build q = .ok o) {is : List Input} (_hr : Executes o is s)
    (hf : s.phase ≠ .finished) : ∃ i s', step o.graph s i = some s' := by
  obtain ⟨i, h⟩ := progress (g := o.graph) s hf
  obtain ⟨s', h⟩ := Option.isSome_iff_exists.1 h
  exact ⟨i, s', h⟩

/-- and every execution comes to its end: the number of steps is bounded. -/
theorem C12_terminates {q : Query} {o : OpPlan} {s : St} {is : List Input} (hb : build q = .ok o)
    (h : Executes o is s) : is.length ≤ 9 * (o.plans.length + o.mods.length) + 1 := by
  have b := build_spec hb
  obtain ⟨E, ok, hE⟩ := built_ok b
  have hall : ∀ e, (o.task e).isSome = true →
      e ∈ (List.range o.plans.length).map .plan ++ (List.range o.mods.length).map .modifier := by
    intro e he
    obtain ⟨t, ht⟩ := Option.isSome_iff_exists.1 he
    cases e with
    | plan n =>
      have := ((task_plan b).1 ht).1
      simp [b.plans, this]
    | modifier n =>
      obtain ⟨m, hm, -⟩ := task_modifier.1 ht
      have := (List.getElem?_eq_some_iff.1 hm).1
      simp [this]
  have hfut : ∀ (c : Exe → Nat) (f : Nat → Bool), ((executablePlans c o.plans.length).filter f).length ≤ o.plans.length := by
    intro c f
    refine Nat.le_trans (List.length_filter_le _ _) ?_
    refine Nat.le_trans (List.length_filter_le _ _) ?_
    simp
  cases h with
  | @operation hi h =>
    have := run_left (sub := none) ok hall (by simp) (runStart_inv (sub := none) ok hi (fun _ _ => rfl) (by simp)) h
    simp only [St.left, Phase.weight, runStart, List.length_append, List.length_map, List.length_range] at this
    have := hfut o.graph.parents hi
    omega
  | @subscription hi s₀ h0 h =>
    obtain ⟨p, c, rfl, hinv⟩ := startSubscription_spec ok h0
    have hp : .plan p ∈ (List.range o.plans.length).map Exe.plan ++ (List.range o.mods.length).map .modifier := by
      simp only [startSubscription] at h0
      split at h0
      · cases h0
      · rename_i p' c' hps
        have hpp : p' = p := by
          have := congrArg St.results (Option.some.inj h0)
          simpa [runStart] using this
        subst hpp
        simp only [popSubscription] at hps
        split at hps
        · rename_i p'' hq
          simp only [Option.some.injEq, Prod.mk.injEq] at hps
          have : p'' ∈ executablePlans o.graph.parents o.plans.length := by rw [hq]; simp
          rw [hps.1] at this
          simp only [executablePlans, List.mem_filter, List.mem_range] at this
          simp [this.1]
        · cases hps
    have := run_left (sub := some p) ok hall (by rintro p' ⟨⟩; exact hp) hinv h
    simp only [St.left, Phase.weight, runStart, List.length_append, List.length_map, List.length_range] at this
    have := hfut c hi
    omega

/-! ## Examples -/

/-- Partition `0` is the root, `1` and `2` need it.  Field `7` of partition `2` is authorized; this reads a
field of `1` below a field of `0`. -/
def authorized : Query :=
  { parts := [⟨[], [], none⟩, ⟨[.mk 0 []], [], some 0⟩, ⟨[], [[.mk 0 []]], some 0⟩]
    modifiers := [[⟨true, 2, some 1, 0, 7⟩, ⟨false, 0, none, 0, 6⟩]]
    requiredBySupergraph := fun f => if f = 7 then [.mk 0 [.mk 1 []]] else []
    mutationOrder := [] }

theorem mentions_one {a p : Nat} : Mentions [.mk a []] p ↔ p = a := by
  rw [visit_spec]; simp [visit]

theorem authorized_needs {P Q : Nat} (h : authorized.Needs P Q) : (P = 1 ∨ P = 2) ∧ Q = 0 := by
  obtain ⟨p, hp, h⟩ := needs_iff.1 h
  match P, hp with
  | 0, hp =>
    cases hp
    rcases h with h | ⟨-, h⟩
    · exact absurd h not_mentions_nil
    · cases h
  | 1, hp =>
    cases hp
    rcases h with h | ⟨h, -⟩
    · exact ⟨.inl rfl, mentions_one.1 h⟩
    · cases h
  | 2, hp =>
    cases hp
    rcases h with h | ⟨h, -⟩
    · exact ⟨.inr rfl, mentions_one.1 h⟩
    · cases h
  | n + 3, hp => simp [authorized] at hp

theorem authorized_impacts {d P f : Nat} (h : authorized.Impacts d P f) : d = 0 ∧ P = 2 ∧ f = 7 := by
  obtain ⟨defn, hd, i, hi, h1, h2, h3⟩ := h
  match d, hd with
  | 0, hd =>
    cases hd
    simp only [List.mem_cons, List.not_mem_nil, or_false] at hi
    rcases hi with rfl | rfl
    · exact ⟨rfl, h2.symm, h3.symm⟩
    · cases h1
  | n + 1, hd => simp [authorized] at hd

theorem authorized_acyclic : authorized.Acyclic := by
  refine ⟨fun t => match t with | .plan 0 => 0 | .plan _ => 1 | .modifier _ _ => 2, ?_⟩
  intro t u h
  cases h with
  | required h => obtain ⟨rfl | rfl, rfl⟩ := authorized_needs h <;> decide
  | modified h hI =>
    obtain ⟨-, rfl⟩ := authorized_needs h
    obtain ⟨-, h, -⟩ := authorized_impacts hI
    cases h
  | serial h => simp [authorized] at h
  | modifies hI => obtain ⟨rfl, rfl, rfl⟩ := authorized_impacts hI; decide
  | reads hI hM =>
    obtain ⟨rfl, rfl, rfl⟩ := authorized_impacts hI
    have : Mentions [.mk 0 [.mk 1 []]] _ := hM
    rw [visit_spec] at this
    simp only [visit, List.isEmpty_cons, Bool.false_eq_true, ↓reduceIte, List.mem_cons, List.not_mem_nil, or_false,
      exists_eq_left, mentions_one] at this
    rcases this with rfl | rfl <;> decide

/-- All three plans and the modifier run. -/
example : ∃ o s is, build authorized = .ok o ∧ Executes o is s ∧ s.phase = .finished ∧
    s.log = [.started (.plan 0), .completed (.plan 0), .started (.plan 2), .started (.plan 1),
      .completed (.plan 1), .completed (.plan 2), .started (.modifier 0), .completed (.modifier 0)] :=
  ⟨_, _, [.complete 0, .ingest true, .handle true, .handle true, .ingested, .complete 1, .ingest true, .complete 2,
      .ingested, .ingest true, .handle true, .modifierDone, .ingested, .stop], rfl,
    .operation (hasInput := fun _ => true) rfl, rfl, rfl⟩

/-- The statement is false as it stands: nothing fails and the dependencies are acyclic, but partition `1` has
no parent objects.  The response modifier of the data of partition `2` is never started. -/
theorem C12_no_parent_objects : ∃ q o is s, build q = .ok o ∧ Executes o is s ∧ s.phase = .finished ∧ q.Acyclic ∧
    NoFailure s.log ∧ q.HasTask (.modifier 0 2) ∧ .plan 2 ∈ o.dones s.log ∧ .modifier 0 2 ∉ o.starts s.log := by
  refine ⟨authorized, _, [.complete 0, .ingest true, .handle true, .handle false, .ingested, .complete 2, .ingest true,
    .ingested, .stop], _, rfl, .operation (hasInput := fun _ => true) rfl, rfl, authorized_acyclic, ?_, ?_, ?_, ?_⟩
  · intro p h
    have h : Ev.failed p ∈ [Ev.started (.plan 0), .completed (.plan 0), .started (.plan 2), .skipped 1,
      .completed (.plan 2)] := h
    simp at h
  · exact .modifier (f := 7) ⟨_, rfl, _, List.mem_cons_self, rfl, rfl, rfl⟩
  · show Task.plan 2 ∈ [Task.plan 0, .plan 2]
    decide
  · show Task.modifier 0 2 ∉ [Task.plan 0, .plan 2, .plan 1]
    decide

/-- The authorized field is in partition `0` and reads a field of partition `1`, which needs `0`. -/
def entangled : Query :=
  { parts := [⟨[], [], none⟩, ⟨[.mk 0 []], [], some 0⟩]
    modifiers := [[⟨true, 0, some 0, 0, 7⟩]]
    requiredBySupergraph := fun _ => [.mk 1 []]
    mutationOrder := [] }

/-- The dependencies among partitions are acyclic, but those added for modifiers (lines 93-96 of the builder) are
not: neither the modifier nor partition `1` is ever started, though nothing fails and no plan lacks parent objects. -/
theorem C12_modifier_cycle : ∃ q o is s, build q = .ok o ∧ Executes o is s ∧ s.phase = .finished ∧
    (∃ rank : Nat → Nat, ∀ P Q, q.Needs P Q → rank Q < rank P) ∧ NoFailure s.log ∧ NoSkip s.log ∧
    .plan 0 ∈ o.dones s.log ∧ q.HasTask (.modifier 0 0) ∧ .modifier 0 0 ∉ o.starts s.log ∧
    q.HasTask (.plan 1) ∧ .plan 1 ∉ o.starts s.log := by
  refine ⟨entangled, _, [.complete 0, .ingest true, .ingested, .stop], _, rfl,
    .operation (hasInput := fun _ => true) rfl, rfl, ⟨id, ?_⟩, ?_, ?_, ?_, ?_, ?_, ?_, ?_⟩
  · intro P Q h
    obtain ⟨p, hp, h⟩ := needs_iff.1 h
    match P, hp with
    | 0, hp =>
      cases hp
      rcases h with h | ⟨-, h⟩
      · exact absurd h not_mentions_nil
      · cases h
    | 1, hp =>
      cases hp
      rcases h with h | ⟨h, -⟩
      · rw [mentions_one.1 h]; decide
      · cases h
    | n + 2, hp => simp [entangled] at hp
  · intro p h
    have h : Ev.failed p ∈ [Ev.started (.plan 0), .completed (.plan 0)] := h
    simp at h
  · intro p h
    have h : Ev.skipped p ∈ [Ev.started (.plan 0), .completed (.plan 0)] := h
    simp at h
  · show Task.plan 0 ∈ [Task.plan 0]
    decide
  · exact .modifier (f := 7) ⟨_, rfl, _, List.mem_cons_self, rfl, rfl, rfl⟩
  · show Task.modifier 0 0 ∉ [Task.plan 0]
    decide
  · exact .plan (by decide)
  · show Task.plan 1 ∉ [Task.plan 0]
    decide

/-- Two mutations. -/
def mutations : Query :=
  { parts := [⟨[], [], none⟩, ⟨[], [], none⟩]
    modifiers := []
    requiredBySupergraph := fun _ => []
    mutationOrder := [0, 1] }

/-- A failing plan: what depends on it is not started, here the second mutation. -/
example : ∃ o s is, build mutations = .ok o ∧ Executes o is s ∧ s.phase = .finished ∧
    s.log = [.started (.plan 0), .failed 0] :=
  ⟨_, _, [.complete 0, .ingest false, .ingested, .stop], rfl, .operation (hasInput := fun _ => true) rfl, rfl, rfl⟩

/-- An event of a subscription. -/
example : ∃ o s is, build authorized = .ok o ∧ startSubscription o (fun _ => true) ≠ none ∧ Executes o is s ∧
    s.log = [.started (.plan 0), .completed (.plan 0), .started (.plan 2)] :=
  ⟨_, _, [.ingest true, .handle true], rfl, by simp [startSubscription, popSubscription, executablePlans]; decide,
    .subscription (hasInput := fun _ => true) rfl rfl, rfl⟩

end Verif.Schedule
