import Verif.Schedule.RunLemmas
import Verif.Schedule.Build
import Verif.ResponseKeys.Total

/-! # The start of the execution, its end and its length -/
namespace Verif.Schedule

variable {E : List (Exe × Exe)} {g : Graph} {n : Nat} {valid : Exe → Prop} {sub : Option Nat}

theorem parents_zero (hg : IsGraph E g) {e : Exe} : g.parents e = 0 ↔ ∀ d, (d, e) ∉ E := by
  rw [hg.parents, List.countP_eq_zero]
  constructor
  · intro h d hd
    exact h (d, e) hd (by simp)
  · rintro h ⟨d, e'⟩ hd
    simp only [decide_eq_true_eq]
    rintro rfl
    exact h d hd

theorem runStart_inv (ok : Ok E g n valid) {c : Exe → Nat} (hasInput : Nat → Bool)
    (hc : ∀ e, (∀ p, sub = some p → e ≠ .plan p) → c e = g.parents e)
    (hs : ∀ p, sub = some p → c (.plan p) ≠ 0 ∧ ∀ d, (d, .plan p) ∉ E) :
    Inv E valid sub (runStart n c hasInput sub.toList (sub.map fun p => Ev.started (.plan p)).toList) := by
  have hmem : ∀ p, p ∈ executablePlans c n ↔ p < n ∧ c (.plan p) = 0 := by
    intro p; simp [executablePlans]
  have hnsub : ∀ p, p ∈ executablePlans c n → ∀ p', sub = some p' → Exe.plan p ≠ .plan p' := by
    rintro p hp p' hp' h
    cases h
    exact (hs p hp').1 ((hmem p).1 hp).2
  have hno : ∀ p, p ∈ executablePlans c n → ∀ d, (d, .plan p) ∉ E := by
    intro p hp
    have h0 := ((hmem p).1 hp).2
    rw [hc _ (hnsub p hp)] at h0
    exact (parents_zero ok.graph).1 h0
  have hlog : ∀ l : List Nat, startsOf (l.map fun p => startEv (hasInput p) p) = l.map .plan := by
    intro l
    induction l with
    | nil => rfl
    | cons a t ih =>
      simp only [startsOf] at ih
      simp only [startsOf, List.map_cons, List.filterMap_cons, ih]
      cases hasInput a <;> rfl
  have hst : ∀ l : List Nat, (l.map fun p => startEv (hasInput p) p).filterMap Ev.started? =
      (l.filter hasInput).map .plan := by
    intro l
    induction l with
    | nil => rfl
    | cons a t ih =>
      simp only [List.map_cons, List.filterMap_cons, ih, List.filter_cons]
      cases hasInput a <;> rfl
  have hd : ∀ l : List Nat, donesOf (l.map fun p => startEv (hasInput p) p) = [] := by
    intro l
    induction l with
    | nil => rfl
    | cons a t ih =>
      simp only [donesOf] at ih
      simp only [donesOf, List.map_cons, List.filterMap_cons, ih]
      cases hasInput a <;> rfl
  have hfa : ∀ l : List Nat, (l.map fun p => startEv (hasInput p) p).filterMap Ev.failed? = [] := by
    intro l
    induction l with
    | nil => rfl
    | cons a t ih =>
      simp only [List.map_cons, List.filterMap_cons, ih]
      cases hasInput a <;> rfl
  have hstarts : startsOf ((sub.map fun p => Ev.started (.plan p)).toList ++
      (executablePlans c n).map fun p => startEv (hasInput p) p) =
      sub.toList.map .plan ++ (executablePlans c n).map .plan := by
    have := hlog (executablePlans c n)
    simp only [startsOf] at this
    simp only [startsOf, List.filterMap_append, this]
    cases sub <;> rfl
  have hdones : donesOf ((sub.map fun p => Ev.started (.plan p)).toList ++
      (executablePlans c n).map fun p => startEv (hasInput p) p) = [] := by
    have := hd (executablePlans c n)
    simp only [donesOf] at this
    simp only [donesOf, List.filterMap_append, this]
    cases sub <;> rfl
  constructor
  · intro e he
    simp only [runStart, hdones]
    rw [hc e he, ok.graph.parents]
    simp [doneIn]
  · exact fun p hp => (hs p hp).2
  · exact fun p hp => (hs p hp).1
  · simp only [runStart, Phase.stack, List.append_nil, hstarts]
    rw [← List.map_append]
    refine List.Pairwise.map (R := (· ≠ ·)) _ (fun a b hab h => hab (by cases h; rfl)) ?_
    show (sub.toList ++ executablePlans c n).Nodup
    rw [List.nodup_append]
    refine ⟨by cases sub <;> simp, (List.nodup_range).filter _, ?_⟩
    rintro a ha b hb rfl
    exact hnsub a hb a (by cases sub <;> simp_all) rfl
  · intro e
    simp only [runStart, Phase.stack, List.append_nil, hstarts, List.mem_append, List.mem_map]
    constructor
    · rintro (⟨p, hp, rfl⟩ | ⟨p, hp, rfl⟩)
      · exact .inr ⟨p, by cases sub <;> simp_all, rfl⟩
      · exact .inl ⟨(ok.plan p).2 ((hmem p).1 hp).1, ((hmem p).1 hp).2⟩
    · rintro (⟨hv, h0⟩ | ⟨p, hp, rfl⟩)
      · cases e with
        | plan p => exact .inr ⟨p, (hmem p).2 ⟨(ok.plan p).1 hv, h0⟩, rfl⟩
        | modifier i =>
          rw [hc _ (by simp)] at h0
          obtain ⟨d, hd⟩ := ok.modifier i hv
          exact absurd hd ((parents_zero ok.graph).1 h0 d)
      · exact .inl ⟨p, by simp [hp], rfl⟩
  · simp only [runStart, hdones, St.active, Phase.running, List.append_nil, List.filterMap_append, hst, hfa]
    cases sub with
    | none => simp
    | some p => simp [Ev.started?, Ev.failed?]; exact List.perm_append_comm (l₁ := [_])
  · intro pre ev post he e hev d hde
    exfalso
    have hm : e ∈ startsOf ((sub.map fun p => Ev.started (.plan p)).toList ++
        (executablePlans c n).map fun p => startEv (hasInput p) p) := by
      simp only [runStart] at he
      rw [he]
      exact List.mem_filterMap.2 ⟨ev, by simp, hev⟩
    rw [hstarts, List.mem_append, List.mem_map, List.mem_map] at hm
    rcases hm with ⟨p, hp, rfl⟩ | ⟨p, hp, rfl⟩
    · exact (hs p (by cases sub <;> simp_all)).2 d hde
    · exact hno p hp d hde
  · intro pre e post he
    exfalso
    have hm : e ∈ donesOf ((sub.map fun p => Ev.started (.plan p)).toList ++
        (executablePlans c n).map fun p => startEv (hasInput p) p) := by
      simp only [runStart] at he
      rw [he]
      exact List.mem_filterMap.2 ⟨_, List.mem_append_right _ (List.mem_cons_self), rfl⟩
    rw [hdones] at hm; simp at hm
  · intro h; simp [runStart] at h

theorem startSubscription_spec {o : OpPlan} {hasInput : Nat → Bool} {s : St} (ok : Ok E o.graph o.plans.length valid)
    (h : startSubscription o hasInput = some s) : ∃ p c, s = runStart o.plans.length c hasInput [p] [.started (.plan p)] ∧
      Inv E valid (some p) s := by
  simp only [startSubscription] at h
  split at h
  · cases h
  · rename_i p c hp
    cases h
    refine ⟨p, c, rfl, ?_⟩
    simp only [popSubscription] at hp
    split at hp
    · rename_i p' hps
      cases hp
      refine runStart_inv (sub := some p) ok hasInput ?_ ?_
      · intro e he
        have : e ≠ .plan p := he p rfl
        simp [this]
      · rintro p' h'; cases h'
        refine ⟨by simp [usizeMax], ?_⟩
        have : p ∈ executablePlans o.graph.parents o.plans.length := by rw [hps]; simp
        simp only [executablePlans, List.mem_filter, decide_eq_true_eq] at this
        exact (parents_zero ok.graph).1 this.2
    · cases hp

/-! ## The end -/

theorem Inv.finished_iff {s : St} (h : Inv E valid sub s) (hf : s.phase = .finished) {e : Exe} (hv : valid e) :
    e ∈ startsOf s.log ↔ ∀ d, (d, e) ∈ E → d ∈ donesOf s.log := by
  have hst : startsOf s.log ++ s.phase.stack = startsOf s.log := by simp [hf, Phase.stack]
  have ht := h.turn e
  rw [hst] at ht
  by_cases hsub : ∃ p, sub = some p ∧ e = .plan p
  · obtain ⟨p, hp, rfl⟩ := hsub
    constructor
    · intro _ d hd; exact absurd hd (h.subEdges p hp d)
    · intro _; exact ht.2 (.inr ⟨p, hp, rfl⟩)
  · have hc := h.counts e (fun p hp he => hsub ⟨p, hp, he⟩)
    rw [ht]
    constructor
    · rintro (⟨-, h0⟩ | h') d hd
      · rw [h0, Nat.zero_add] at hc
        have := countP_eq_imp (α := Exe × Exe) (p := fun x => decide (x.1 ∈ donesOf s.log ∧ x.2 = e))
          (q := fun x => decide (x.2 = e)) (by simp) hc (d, e) hd (by simp)
        simpa using this
      · exact absurd h' hsub
    · intro hall
      refine .inl ⟨hv, ?_⟩
      have : doneIn E (donesOf s.log) e = E.countP fun x => x.2 = e := by
        apply List.countP_congr
        rintro ⟨d, e'⟩ hx
        simp only [decide_eq_true_eq, and_iff_right_iff_imp]
        rintro rfl
        exact hall d hx
      omega

theorem Inv.completed {s : St} (h : Inv E valid sub s) (hf : s.phase = .finished) {e : Exe}
    (he : e ∈ startsOf s.log) (hs : NoSkip s.log) (hn : NoFailure s.log) : e ∈ donesOf s.log := by
  rcases mem_startsOf.1 he with h1 | ⟨p, -, h1⟩
  · have : e ∈ s.log.filterMap Ev.started? := List.mem_filterMap.2 ⟨_, h1, rfl⟩
    rw [h.life.mem_iff] at this
    obtain ⟨hfu, hre⟩ := h.finished hf
    simp only [St.active, hfu, hre, hf, Phase.running, List.map_nil, List.append_nil, List.nil_append,
      List.mem_append, List.mem_map, List.mem_filterMap] at this
    rcases this with h2 | ⟨p, ⟨ev, h2, h3⟩, rfl⟩
    · exact h2
    · cases ev <;> simp [Ev.failed?] at h3
      exact absurd h2 (hn _)
  · exact absurd h1 (hs p)

/-! ## Progress and length -/

theorem progress (s : St) (h : s.phase ≠ .finished) : ∃ i, (step g s i).isSome = true := by
  cases hp : s.phase with
  | finished => exact absurd hp h
  | execution =>
    cases hr : s.results with
    | cons p t => exact ⟨.ingest true, by simp [step, hp, hr]⟩
    | nil =>
      cases hf : s.futures with
      | nil => exact ⟨.stop, by simp [step, hp, hr, hf]⟩
      | cons p t => exact ⟨.complete p, by simp [step, hp, hr, hf]⟩
  | ingestion r st nx =>
    cases r with
    | some m => exact ⟨.modifierDone, by simp [step, hp]⟩
    | none =>
      cases st with
      | nil => exact ⟨.ingested, by simp [step, hp]⟩
      | cons e t => cases e <;> exact ⟨.handle true, by simp [step, hp]⟩

/-- The log holds at most two observations of each executable. -/
theorem Inv.log_length {s : St} (h : Inv E valid sub s) {all : List Exe} (hall : ∀ e, valid e → e ∈ all)
    (hsub : ∀ p, sub = some p → .plan p ∈ all) : s.log.length ≤ 2 * all.length := by
  have h1 : (startsOf s.log).length ≤ all.length := by
    refine ResponseKeys.length_le_of_nodup_subset (List.nodup_append.1 h.nodup).1 ?_
    intro e he
    rcases (h.turn e).1 (List.mem_append_left _ he) with ⟨hv, -⟩ | ⟨p, hp, rfl⟩
    · exact hall e hv
    · exact hsub p hp
  have h2 : (s.log.filterMap Ev.started?).length ≤ (startsOf s.log).length := by
    unfold startsOf
    generalize s.log = l
    induction l with
    | nil => simp
    | cons a t ih => cases a <;> simp only [List.filterMap_cons, Ev.started?, Ev.start, List.length_cons] <;> omega
  have h3 := h.life.length_eq
  simp only [List.length_append, List.length_map] at h3
  have h4 : s.log.length = (startsOf s.log).length + (donesOf s.log).length + (s.log.filterMap Ev.failed?).length := by
    unfold startsOf donesOf
    generalize s.log = l
    induction l with
    | nil => simp
    | cons a t ih =>
      cases a <;> simp only [List.filterMap_cons, Ev.failed?, Ev.start, Ev.done, List.length_cons] <;> omega
  omega

/-- Weight of the phase. -/
def Phase.weight : Phase → Nat
  | .execution => 1
  | .ingestion _ _ nx => 2 + nx.length
  | .finished => 0

/-- Steps left. -/
def St.left (k : Nat) (s : St) : Nat := 4 * (2 * k - s.log.length) + s.futures.length + s.phase.weight

theorem step_left {s s' : St} {i : Input} {k : Nat} (hs : step g s i = some s') (hl : s'.log.length ≤ 2 * k) :
    s'.left k < s.left k := by
  cases i with
  | complete p =>
    simp only [step] at hs
    split at hs
    · rename_i hp
      have hlen := List.length_erase_of_mem hp
      have hpos := List.length_pos_of_mem hp
      split at hs
      · split at hs
        · cases hs; simp only [St.left]; rw [hlen]; omega
        · cases hs
      · cases hs; simp only [St.left]; rw [hlen]; omega
      · cases hs
    · cases hs
  | ingest ok =>
    simp only [step] at hs
    split at hs
    · rename_i hph _
      split at hs <;> cases hs <;>
        simp only [St.left, List.length_append, List.length_singleton, Phase.weight, hph, List.length_nil] at * <;> omega
    · cases hs
  | handle hi =>
    simp only [step] at hs
    split at hs
    · rename_i hph
      cases hs
      cases hi <;>
        simp only [St.left, List.length_append, List.length_singleton, Phase.weight, hph, ↓reduceIte,
          Bool.false_eq_true] at * <;> omega
    · rename_i hph
      cases hs
      simp only [St.left, List.length_append, List.length_singleton, Phase.weight, hph] at *; omega
    · cases hs
  | modifierDone =>
    simp only [step] at hs
    split at hs
    · rename_i hph
      cases hs
      simp only [St.left, List.length_append, List.length_singleton, Phase.weight, hph] at *; omega
    · cases hs
  | ingested =>
    simp only [step] at hs
    split at hs
    · rename_i hph
      cases hs
      simp only [St.left, List.length_append, Phase.weight, hph] at *; omega
    · cases hs
  | stop =>
    simp only [step] at hs
    split at hs
    · rename_i hph
      split at hs
      · cases hs; simp only [St.left, Phase.weight, hph] at *; omega
      · cases hs
    · cases hs

theorem run_left (ok : Ok E g n valid) {all : List Exe} (hall : ∀ e, valid e → e ∈ all)
    (hsub : ∀ p, sub = some p → .plan p ∈ all) : ∀ {is : List Input} {s s' : St}, Inv E valid sub s →
    run g s is = some s' → is.length ≤ s.left all.length
  | [], s, s', _, _ => by simp
  | i :: t, s, s', h, e => by
    simp only [run, Option.bind_eq_some_iff] at e
    obtain ⟨s₁, h1, h2⟩ := e
    have hi := step_inv ok h i h1
    have := run_left ok hall hsub hi h2
    have := step_left h1 (hi.log_length hall hsub)
    simp only [List.length_cons]; omega

end Verif.Schedule
