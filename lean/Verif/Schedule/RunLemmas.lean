import Verif.Schedule.Edges

/-! # Invariant of the execution -/
namespace Verif.Schedule

/-- Executables whose turn it was. -/
def startsOf (log : List Ev) : List Exe := log.filterMap Ev.start
/-- Completed executables. -/
def donesOf (log : List Ev) : List Exe := log.filterMap Ev.done
/-- Executables that were really started. -/
def Ev.started? : Ev → Option Exe
  | .started e => some e
  | _ => none
/-- Plans that failed. -/
def Ev.failed? : Ev → Option Nat
  | .failed p => some p
  | _ => none

/-- The stack during ingestion. -/
def Phase.stack : Phase → List Exe
  | .ingestion _ st _ => st
  | _ => []
/-- The executables that are neither completed nor failed, besides `futures` and `results`. -/
def Phase.running : Phase → List Exe
  | .ingestion (some m) _ next => .modifier m :: next.map .plan
  | .ingestion none _ next => next.map .plan
  | _ => []

/-- Started and not yet over. -/
def St.active (s : St) : List Exe := s.futures.map .plan ++ s.results.map .plan ++ s.phase.running

/-- What the graph must satisfy. -/
structure Ok (E : List (Exe × Exe)) (g : Graph) (n : Nat) (valid : Exe → Prop) : Prop where
  graph : IsGraph E g
  mem : ∀ d e, (d, e) ∈ E → valid d ∧ valid e
  plan : ∀ p, valid (.plan p) ↔ p < n
  modifier : ∀ i, valid (.modifier i) → ∃ d, (d, .modifier i) ∈ E

/-- Edges from completed executables. -/
def doneIn (E : List (Exe × Exe)) (dones : List Exe) (e : Exe) : Nat := E.countP fun x => x.1 ∈ dones ∧ x.2 = e

/-- The invariant; `sub` is the plan of the subscription, if any. -/
structure Inv (E : List (Exe × Exe)) (valid : Exe → Prop) (sub : Option Nat) (s : St) : Prop where
  counts : ∀ e, (∀ p, sub = some p → e ≠ .plan p) →
    s.counts e + doneIn E (donesOf s.log) e = E.countP fun x => x.2 = e
  subEdges : ∀ p, sub = some p → ∀ d, (d, .plan p) ∉ E
  subCount : ∀ p, sub = some p → s.counts (.plan p) ≠ 0
  nodup : (startsOf s.log ++ s.phase.stack).Nodup
  turn : ∀ e, e ∈ startsOf s.log ++ s.phase.stack ↔ (valid e ∧ s.counts e = 0) ∨ ∃ p, sub = some p ∧ e = .plan p
  life : (s.log.filterMap Ev.started?).Perm (s.active ++ donesOf s.log ++ (s.log.filterMap Ev.failed?).map .plan)
  order : ∀ pre ev post, s.log = pre ++ ev :: post → ∀ e, ev.start = some e → ∀ d, (d, e) ∈ E → .completed d ∈ pre
  doneOrder : ∀ pre e post, s.log = pre ++ .completed e :: post → .started e ∈ pre
  finished : s.phase = .finished → s.futures = [] ∧ s.results = []

theorem mem_donesOf {log : List Ev} {e : Exe} : e ∈ donesOf log ↔ .completed e ∈ log := by
  simp only [donesOf, List.mem_filterMap]
  constructor
  · rintro ⟨ev, h, h'⟩
    cases ev <;> simp [Ev.done] at h'
    subst h'; exact h
  · intro h; exact ⟨_, h, rfl⟩

theorem mem_startsOf {log : List Ev} {e : Exe} :
    e ∈ startsOf log ↔ .started e ∈ log ∨ ∃ p, e = .plan p ∧ .skipped p ∈ log := by
  simp only [startsOf, List.mem_filterMap]
  constructor
  · rintro ⟨ev, h, h'⟩
    cases ev <;> simp [Ev.start] at h'
    · subst h'; exact .inl h
    · exact .inr ⟨_, h'.symm, h⟩
  · rintro (h | ⟨p, rfl, h⟩)
    · exact ⟨_, h, rfl⟩
    · exact ⟨_, h, rfl⟩

/-! ## Counting -/

theorem countP_le_of_imp {α : Type} {p q : α → Bool} (h : ∀ x, p x = true → q x = true) (l : List α) :
    l.countP p ≤ l.countP q := List.countP_mono_left fun x _ => h x

theorem countP_eq_imp {α : Type} {p q : α → Bool} (h : ∀ x, p x = true → q x = true) :
    ∀ {l : List α}, l.countP p = l.countP q → ∀ x ∈ l, q x = true → p x = true
  | [], _, x, hx, _ => by simp at hx
  | a :: t, e, x, hx, hq => by
    have ht := countP_le_of_imp h t
    simp only [List.countP_cons] at e
    have ha := h a
    rcases List.mem_cons.1 hx with rfl | hx
    · rw [hq] at e
      simp only [↓reduceIte] at e
      cases hp : p x with
      | true => rfl
      | false => rw [hp] at e; simp at e; omega
    · refine countP_eq_imp h ?_ x hx hq
      cases hp : p a with
      | true => rw [hp, ha hp] at e; simpa using e
      | false =>
        rw [hp] at e
        cases hq' : q a with
        | true => rw [hq'] at e; simp at e; omega
        | false => rw [hq'] at e; simpa using e

theorem children_count {E : List (Exe × Exe)} {g : Graph} (h : IsGraph E g) (d e : Exe) :
    (g.children d).count e = E.countP fun x => x.1 = d ∧ x.2 = e := by
  rw [h.children, List.count_eq_countP, List.countP_map, List.countP_filter]
  apply List.countP_congr
  intro x _
  simp [and_comm]

theorem mem_children {E : List (Exe × Exe)} {g : Graph} (h : IsGraph E g) {d e : Exe} :
    e ∈ g.children d ↔ (d, e) ∈ E := by
  rw [h.children]
  simp only [List.mem_map, List.mem_filter, decide_eq_true_eq]
  constructor
  · rintro ⟨⟨a, b⟩, ⟨h1, rfl⟩, rfl⟩; exact h1
  · intro h; exact ⟨_, ⟨h, rfl⟩, rfl⟩

theorem doneIn_add {E : List (Exe × Exe)} {dones : List Exe} {d e : Exe} (hd : d ∉ dones) :
    doneIn E (dones ++ [d]) e = doneIn E dones e + E.countP fun x => x.1 = d ∧ x.2 = e := by
  unfold doneIn
  induction E with
  | nil => rfl
  | cons x t ih =>
    simp only [List.countP_cons]
    rw [ih]
    by_cases h1 : x.1 = d
    · have h3 : x.1 ∉ dones := by rw [h1]; exact hd
      by_cases h2 : x.2 = e
      · simp [h1, h2, hd]; omega
      · simp [h1, h2]
    · by_cases h3 : x.1 ∈ dones
      · by_cases h2 : x.2 = e
        · simp [h1, h2, h3]; omega
        · simp [h1, h2]
      · simp [h1, h3]

theorem nextExecutables_spec : ∀ {l : List Exe} {c : Exe → Nat}, (∀ e ∈ l, l.count e ≤ c e) →
    (∀ e, (nextExecutables c l).1 e = c e - l.count e) ∧ (nextExecutables c l).2.Nodup ∧
    ∀ e, e ∈ (nextExecutables c l).2 ↔ e ∈ l ∧ c e = l.count e
  | [], c, _ => by simp [nextExecutables]
  | a :: t, c, h => by
    have ha : t.count a + 1 ≤ c a := by simpa using h a (by simp)
    have hda : decAt c a a = c a - 1 := by
      simp only [decAt, ↓reduceIte, dec]; split <;> omega
    have hdo : ∀ x, x ≠ a → decAt c a x = c x := by
      intro x hx; simp [decAt, hx]
    have ht : ∀ e ∈ t, t.count e ≤ decAt c a e := by
      intro e he
      by_cases hea : e = a
      · subst hea; rw [hda]; omega
      · rw [hdo e hea]
        have := h e (by simp [he])
        rw [List.count_cons] at this; omega
    obtain ⟨h1, h2, h3⟩ := nextExecutables_spec ht
    refine ⟨?_, ?_, ?_⟩
    · intro e
      simp only [nextExecutables]
      rw [h1]
      by_cases hea : e = a
      · subst hea; rw [hda]; simp; omega
      · rw [hdo e hea, List.count_cons_of_ne (fun h => hea h.symm)]
    · simp only [nextExecutables]
      split
      · rename_i h0
        refine List.nodup_cons.2 ⟨?_, h2⟩
        rw [h3]
        rintro ⟨hm, -⟩
        have := List.count_pos_iff.2 hm
        omega
      · exact h2
    · intro e
      simp only [nextExecutables]
      by_cases hea : e = a
      · subst hea
        split
        · rename_i h0
          simp; omega
        · rename_i h0
          rw [h3, hda]
          simp only [List.mem_cons, true_or, true_and, List.count_cons_self]
          constructor
          · rintro ⟨-, h⟩; omega
          · intro h
            have : t.count e = c e - 1 := by omega
            refine ⟨List.count_pos_iff.1 ?_, by omega⟩
            rw [hda] at h0; omega
      · have hc : (a :: t).count e = t.count e := List.count_cons_of_ne (fun h => hea h.symm)
        rw [hc]
        split
        · simp [hea, h3, hdo e hea]
        · simp [hea, h3, hdo e hea]

theorem mem_next {x : Exe} : ∀ {l : List Exe} {c : Exe → Nat}, x ∈ (nextExecutables c l).2 → x ∈ l
  | [], c, h => by simp [nextExecutables] at h
  | a :: t, c, h => by
    simp only [nextExecutables] at h
    split at h
    · rcases List.mem_cons.1 h with rfl | h
      · simp
      · exact List.mem_cons_of_mem _ (mem_next h)
    · exact List.mem_cons_of_mem _ (mem_next h)

/-! ## Steps -/

theorem order_snoc {E : List (Exe × Exe)} {log : List Ev} {x : Ev}
    (h : ∀ pre ev post, log = pre ++ ev :: post → ∀ e, ev.start = some e → ∀ d, (d, e) ∈ E → .completed d ∈ pre)
    (hx : ∀ e, x.start = some e → ∀ d, (d, e) ∈ E → .completed d ∈ log) :
    ∀ pre ev post, log ++ [x] = pre ++ ev :: post → ∀ e, ev.start = some e → ∀ d, (d, e) ∈ E →
      .completed d ∈ pre := by
  intro pre ev post he
  rcases List.eq_nil_or_concat post with rfl | ⟨post', y, rfl⟩
  · obtain ⟨rfl, h2⟩ := List.append_inj' he rfl
    cases h2
    exact hx
  · rw [List.concat_eq_append, ← List.cons_append, ← List.append_assoc] at he
    obtain ⟨h1, -⟩ := List.append_inj' he rfl
    exact h pre ev post' h1

theorem doneOrder_snoc {log : List Ev} {x : Ev}
    (h : ∀ pre e post, log = pre ++ .completed e :: post → .started e ∈ pre)
    (hx : ∀ e, x = .completed e → .started e ∈ log) :
    ∀ pre e post, log ++ [x] = pre ++ .completed e :: post → .started e ∈ pre := by
  intro pre e post he
  rcases List.eq_nil_or_concat post with rfl | ⟨post', y, rfl⟩
  · obtain ⟨rfl, h2⟩ := List.append_inj' he rfl
    cases h2
    exact hx e rfl
  · rw [List.concat_eq_append, ← List.cons_append, ← List.append_assoc] at he
    obtain ⟨h1, -⟩ := List.append_inj' he rfl
    exact h pre e post' h1

variable {E : List (Exe × Exe)} {g : Graph} {n : Nat} {valid : Exe → Prop} {sub : Option Nat}

theorem Inv.ready {s : St} (h : Inv E valid sub s) {e : Exe} (he : e ∈ s.phase.stack) :
    ∀ d, (d, e) ∈ E → .completed d ∈ s.log := by
  intro d hd
  rcases (h.turn e).1 (List.mem_append_right _ he) with ⟨-, h0⟩ | ⟨p, hp, rfl⟩
  · have hs : ∀ p, sub = some p → e ≠ .plan p := by
      rintro p hp rfl
      exact h.subEdges p hp d hd
    have hc := h.counts e hs
    rw [h0, Nat.zero_add] at hc
    have := countP_eq_imp (α := Exe × Exe) (p := fun x => decide (x.1 ∈ donesOf s.log ∧ x.2 = e))
      (q := fun x => decide (x.2 = e)) (by simp) hc (d, e) hd (by simp)
    simp only [and_true, decide_eq_true_eq] at this
    exact mem_donesOf.1 this
  · exact absurd hd (h.subEdges p hp d)

/-- What is active was started and is not over yet. -/
theorem Inv.active_nodup {s : St} (h : Inv E valid sub s) :
    (s.active ++ donesOf s.log ++ (s.log.filterMap Ev.failed?).map Exe.plan).Nodup := by
  refine h.life.nodup_iff.1 ?_
  have h1 : (startsOf s.log).Nodup := (List.nodup_append.1 h.nodup).1
  -- started ones are among those whose turn it was
  have : (s.log.filterMap Ev.started?).Sublist (startsOf s.log) := by
    unfold startsOf
    generalize s.log = l
    induction l with
    | nil => simp
    | cons a t ih =>
      cases a <;> simp only [List.filterMap_cons, Ev.started?, Ev.start]
      · exact ih.cons_cons _
      · exact ih.cons _
      · exact ih
      · exact ih
  exact h1.sublist this

theorem Inv.active_started {s : St} (h : Inv E valid sub s) {e : Exe} (he : e ∈ s.active) : .started e ∈ s.log := by
  have : e ∈ s.log.filterMap Ev.started? := h.life.mem_iff.2 (by simp [he])
  obtain ⟨ev, h1, h2⟩ := List.mem_filterMap.1 this
  cases ev <;> simp [Ev.started?] at h2
  subst h2; exact h1

theorem Inv.not_done {s : St} (h : Inv E valid sub s) {e : Exe} (he : e ∈ s.active) : e ∉ donesOf s.log := by
  have := h.active_nodup
  rw [List.append_assoc, List.nodup_append] at this
  intro hd
  exact this.2.2 e he e (by simp [hd]) rfl

/-- Everything about completing `d`. -/
theorem complete_counts {s : St} (h : Inv E valid sub s) (hg : IsGraph E g) {d : Exe} (hd : d ∉ donesOf s.log) :
    let r := nextExecutables s.counts (g.children d)
    (∀ e, (∀ p, sub = some p → e ≠ .plan p) →
      r.1 e + doneIn E (donesOf s.log ++ [d]) e = E.countP fun x => x.2 = e) ∧
    (∀ p, sub = some p → r.1 (.plan p) ≠ 0) ∧ r.2.Nodup ∧
    (∀ e, e ∈ r.2 ↔ s.counts e ≠ 0 ∧ r.1 e = 0) ∧ (∀ e, s.counts e = 0 → r.1 e = 0) := by
  have hle : ∀ e, (∀ p, sub = some p → e ≠ .plan p) →
      (g.children d).count e + doneIn E (donesOf s.log) e ≤ E.countP fun x => x.2 = e := by
    intro e _
    rw [children_count hg, Nat.add_comm, ← doneIn_add hd]
    exact countP_le_of_imp (by simp) E
  have hsub : ∀ e ∈ g.children d, ∀ p, sub = some p → e ≠ .plan p := by
    rintro e he p hp rfl
    exact h.subEdges p hp d ((mem_children hg).1 he)
  have hpre : ∀ e ∈ g.children d, (g.children d).count e ≤ s.counts e := by
    intro e he
    have h1 := hle e (hsub e he)
    have h2 := h.counts e (hsub e he)
    omega
  obtain ⟨h1, h2, h3⟩ := nextExecutables_spec hpre
  have hz : ∀ e, e ∉ g.children d → (g.children d).count e = 0 := fun e he => List.count_eq_zero.2 he
  refine ⟨?_, ?_, h2, ?_, ?_⟩
  · intro e he
    have h4 := h.counts e he
    have h5 := hle e he
    rw [h1, doneIn_add hd, ← children_count hg]
    omega
  · intro p hp
    rw [h1, hz]
    · exact h.subCount p hp
    · intro hm
      exact hsub _ hm p hp rfl
  · intro e
    rw [h3, h1]
    constructor
    · rintro ⟨hm, he⟩
      have := List.count_pos_iff.2 hm
      omega
    · rintro ⟨hne, he⟩
      by_cases hm : e ∈ g.children d
      · have := hpre e hm
        exact ⟨hm, by omega⟩
      · rw [hz e hm] at he; omega
  · intro e he
    rw [h1, he]; simp

theorem filterMap_snoc {α β : Type} (f : α → Option β) (l : List α) (x : α) :
    (l ++ [x]).filterMap f = l.filterMap f ++ (f x).toList := by
  rw [List.filterMap_append]
  cases h : f x <;> simp [h]

theorem step_inv {s s' : St} (ok : Ok E g n valid) (h : Inv E valid sub s) (i : Input) (hs : step g s i = some s') :
    Inv E valid sub s' := by
  cases i with
  | complete p =>
    simp only [step] at hs
    split at hs
    · rename_i hp
      have hperm : s.futures.Perm (p :: s.futures.erase p) := List.perm_cons_erase hp
      split at hs
      · rename_i hph
        split at hs
        · rename_i hr
          have hr' : s.results = [] := by simpa using hr
          cases hs
          refine ⟨h.counts, h.subEdges, h.subCount, h.nodup, h.turn, ?_, h.order, h.doneOrder, fun hf => by simp [hph] at hf⟩
          refine h.life.trans ?_
          refine List.Perm.append_right _ (List.Perm.append_right _ ?_)
          simp only [St.active, hr', hph, Phase.running, List.map_nil, List.append_nil, List.map_cons]
          refine (hperm.map Exe.plan).trans ?_
          rw [List.map_cons]
          exact List.perm_append_comm (l₁ := [Exe.plan p])
        · cases hs
      · rename_i r st nx hph
        cases hs
        refine ⟨h.counts, h.subEdges, h.subCount, h.nodup, h.turn, ?_, h.order, h.doneOrder, fun hf => by simp [hph] at hf⟩
        refine h.life.trans ?_
        refine List.Perm.append_right _ (List.Perm.append_right _ ?_)
        simp only [St.active]
        refine List.Perm.append_right _ ?_
        rw [List.map_append, ← List.append_assoc]
        refine ((hperm.map Exe.plan).append_right _).trans ?_
        rw [List.map_cons, List.cons_append]
        exact List.perm_append_comm (l₁ := [Exe.plan p])
      · cases hs
    · cases hs
  | ingest ok' =>
    simp only [step] at hs
    split at hs
    · rename_i p rest hph hres
      have hact : .plan p ∈ s.active := by simp [St.active, hres]
      split at hs
      · cases hs
        obtain ⟨k1, k2, k3, k4, k5⟩ := complete_counts (g := g) h ok.graph (h.not_done hact)
        have hd : donesOf (s.log ++ [.completed (.plan p)]) = donesOf s.log ++ [.plan p] := filterMap_snoc _ _ _
        have hst : startsOf (s.log ++ [.completed (.plan p)]) = startsOf s.log := by
          simp [startsOf, Ev.start]
        have hn0 : startsOf s.log ++ s.phase.stack = startsOf s.log := by simp [hph, Phase.stack]
        have hturn := h.turn
        have hnod := h.nodup
        rw [hn0] at hturn hnod
        refine ⟨?_, h.subEdges, k2, ?_, ?_, ?_, ?_, ?_, fun hf => by simp at hf⟩
        · simp only [hd]; exact k1
        · simp only [hst, Phase.stack]
          rw [List.nodup_append]
          refine ⟨hnod, (List.reverse_perm _).nodup_iff.2 k3, ?_⟩
          rintro a ha b hb rfl
          rw [List.mem_reverse, k4] at hb
          rcases (hturn a).1 ha with ⟨-, h0⟩ | ⟨p', hp', rfl⟩
          · exact hb.1 h0
          · exact k2 p' hp' hb.2
        · intro e
          simp only [hst, Phase.stack, List.mem_append, List.mem_reverse]
          rw [hturn, k4]
          constructor
          · rintro ((⟨hv, h0⟩ | hp) | ⟨h1, h2⟩)
            · exact .inl ⟨hv, k5 e h0⟩
            · exact .inr hp
            · refine .inl ⟨?_, h2⟩
              have hm : e ∈ (nextExecutables s.counts (g.children (.plan p))).2 := (k4 e).2 ⟨h1, h2⟩
              by_cases hch : e ∈ g.children (.plan p)
              · exact (ok.mem _ _ ((mem_children ok.graph).1 hch)).2
              · exact absurd (mem_next hm) hch
          · rintro (⟨hv, h0⟩ | hp)
            · by_cases h1 : s.counts e = 0
              · exact .inl (.inl ⟨hv, h1⟩)
              · exact .inr ⟨h1, h0⟩
            · exact .inl (.inr hp)
        · have h1 : (s.log ++ [Ev.completed (.plan p)]).filterMap Ev.started? = s.log.filterMap Ev.started? := by
            simp [Ev.started?]
          have h2 : (s.log ++ [Ev.completed (.plan p)]).filterMap Ev.failed? = s.log.filterMap Ev.failed? := by
            simp [Ev.failed?]
          simp only [h1, h2, hd]
          refine h.life.trans (List.Perm.append_right _ ?_)
          simp only [St.active, hph, hres, Phase.running, List.map_nil, List.append_nil, List.map_cons]
          simp only [List.append_assoc]
          refine List.Perm.append_left _ ?_
          simp only [List.cons_append, ← List.append_assoc]
          exact List.perm_append_comm (l₁ := [Exe.plan p])
        · exact order_snoc h.order (by simp [Ev.start])
        · exact doneOrder_snoc h.doneOrder (by rintro e ⟨⟩; exact h.active_started hact)
      · cases hs
        have hd : donesOf (s.log ++ [.failed p]) = donesOf s.log := by simp [donesOf, Ev.done]
        have hst : startsOf (s.log ++ [.failed p]) = startsOf s.log := by simp [startsOf, Ev.start]
        have hn0 : startsOf s.log ++ s.phase.stack = startsOf s.log := by simp [hph, Phase.stack]
        have hturn := h.turn
        have hnod := h.nodup
        rw [hn0] at hturn hnod
        refine ⟨?_, h.subEdges, h.subCount, ?_, ?_, ?_, ?_, ?_, fun hf => by simp at hf⟩
        · simp only [hd]; exact h.counts
        · simpa only [hst, Phase.stack, List.append_nil] using hnod
        · simpa only [hst, Phase.stack, List.append_nil] using hturn
        · have h1 : (s.log ++ [Ev.failed p]).filterMap Ev.started? = s.log.filterMap Ev.started? := by
            simp [Ev.started?]
          have h2 : (s.log ++ [Ev.failed p]).filterMap Ev.failed? = s.log.filterMap Ev.failed? ++ [p] := by
            simp [Ev.failed?]
          simp only [h1, h2, hd, List.map_append, List.map_cons, List.map_nil]
          refine h.life.trans ?_
          simp only [St.active, hph, hres, Phase.running, List.map_nil, List.append_nil, List.map_cons]
          simp only [List.append_assoc]
          refine List.Perm.append_left _ ?_
          simp only [List.cons_append, ← List.append_assoc]
          exact List.perm_append_comm (l₁ := [Exe.plan p])
        · exact order_snoc h.order (by simp [Ev.start])
        · exact doneOrder_snoc h.doneOrder (by rintro e ⟨⟩)
    · cases hs
  | handle hi =>
    simp only [step] at hs
    split at hs
    · rename_i p st nx hph
      cases hs
      have hready := h.ready (e := .plan p) (by simp [hph, Phase.stack])
      have hst : startsOf (s.log ++ [startEv hi p]) = startsOf s.log ++ [.plan p] := by
        cases hi <;> simp [startsOf, Ev.start, startEv]
      have hd : donesOf (s.log ++ [startEv hi p]) = donesOf s.log := by
        cases hi <;> simp [donesOf, Ev.done, startEv]
      have hf : (s.log ++ [startEv hi p]).filterMap Ev.failed? = s.log.filterMap Ev.failed? := by
        cases hi <;> simp [Ev.failed?, startEv]
      have hEq : startsOf (s.log ++ [startEv hi p]) ++ st = startsOf s.log ++ s.phase.stack := by
        rw [hst, hph]; simp [Phase.stack]
      refine ⟨?_, h.subEdges, h.subCount, ?_, ?_, ?_, ?_, ?_, fun hf => by simp at hf⟩
      · simp only [hd]; exact h.counts
      · simp only [Phase.stack]; rw [hEq]; exact h.nodup
      · simp only [Phase.stack]; rw [hEq]; exact h.turn
      · simp only [hd, hf]
        cases hi with
        | false =>
          have : (s.log ++ [startEv false p]).filterMap Ev.started? = s.log.filterMap Ev.started? := by
            simp [startEv, Ev.started?]
          rw [this]
          have := h.life
          simpa [St.active, hph, Phase.running] using this
        | true =>
          have : (s.log ++ [startEv true p]).filterMap Ev.started? = s.log.filterMap Ev.started? ++ [.plan p] := by
            simp [startEv, Ev.started?]
          rw [this]
          have := h.life
          simp only [St.active, hph, Phase.running] at this
          refine (this.append_right [.plan p]).trans ?_
          simp only [St.active, Phase.running, ↓reduceIte, List.map_append, List.append_assoc]
          refine List.Perm.append_left _ (List.Perm.append_left _ (List.Perm.append_left _ ?_))
          rw [← List.append_assoc]
          exact List.perm_append_comm
      · refine order_snoc h.order ?_
        intro e he
        have : e = .plan p := by cases hi <;> simp [startEv, Ev.start] at he <;> exact he.symm
        subst this; exact hready
      · exact doneOrder_snoc h.doneOrder (by intro e he; cases hi <;> cases he)
    · rename_i m st nx hph
      cases hs
      have hready := h.ready (e := .modifier m) (by simp [hph, Phase.stack])
      have hst : startsOf (s.log ++ [.started (.modifier m)]) = startsOf s.log ++ [.modifier m] := by
        simp [startsOf, Ev.start]
      have hd : donesOf (s.log ++ [.started (.modifier m)]) = donesOf s.log := by simp [donesOf, Ev.done]
      have hf : (s.log ++ [Ev.started (.modifier m)]).filterMap Ev.failed? = s.log.filterMap Ev.failed? := by
        simp [Ev.failed?]
      have hEq : startsOf (s.log ++ [.started (.modifier m)]) ++ st = startsOf s.log ++ s.phase.stack := by
        rw [hst, hph]; simp [Phase.stack]
      refine ⟨?_, h.subEdges, h.subCount, ?_, ?_, ?_, ?_, ?_, fun hf => by simp at hf⟩
      · simp only [hd]; exact h.counts
      · simp only [Phase.stack]; rw [hEq]; exact h.nodup
      · simp only [Phase.stack]; rw [hEq]; exact h.turn
      · simp only [hd, hf]
        have : (s.log ++ [Ev.started (.modifier m)]).filterMap Ev.started? =
            s.log.filterMap Ev.started? ++ [.modifier m] := by simp [Ev.started?]
        rw [this]
        have := h.life
        simp only [St.active, hph, Phase.running] at this
        refine (this.append_right [.modifier m]).trans ?_
        simp only [St.active, Phase.running, List.append_assoc]
        refine List.Perm.append_left _ (List.Perm.append_left _ ?_)
        simp only [List.cons_append, ← List.append_assoc]
        exact List.perm_append_comm (l₂ := [Exe.modifier m])
      · refine order_snoc h.order ?_
        intro e he
        simp only [Ev.start, Option.some.injEq] at he
        subst he; exact hready
      · exact doneOrder_snoc h.doneOrder (by rintro e ⟨⟩)
    · cases hs
  | modifierDone =>
    simp only [step] at hs
    split at hs
    · rename_i m st nx hph
      have hact : .modifier m ∈ s.active := by simp [St.active, hph, Phase.running]
      cases hs
      obtain ⟨k1, k2, k3, k4, k5⟩ := complete_counts (g := g) h ok.graph (h.not_done hact)
      have hd : donesOf (s.log ++ [.completed (.modifier m)]) = donesOf s.log ++ [.modifier m] := filterMap_snoc _ _ _
      have hst : startsOf (s.log ++ [.completed (.modifier m)]) = startsOf s.log := by
        simp [startsOf, Ev.start]
      have hn0 : startsOf s.log ++ s.phase.stack = startsOf s.log ++ st := by simp [hph, Phase.stack]
      have hturn := h.turn
      have hnod := h.nodup
      rw [hn0] at hturn hnod
      have hpm : (startsOf s.log ++ ((nextExecutables s.counts (g.children (.modifier m))).2.reverse ++ st)).Perm
          ((startsOf s.log ++ st) ++ (nextExecutables s.counts (g.children (.modifier m))).2) := by
        rw [List.append_assoc]
        exact List.Perm.append_left _ (((List.reverse_perm _).append_right st).trans List.perm_append_comm)
      refine ⟨?_, h.subEdges, k2, ?_, ?_, ?_, ?_, ?_, fun hf => by simp at hf⟩
      · simp only [hd]; exact k1
      · simp only [hst, Phase.stack]
        rw [hpm.nodup_iff, List.nodup_append]
        refine ⟨hnod, k3, ?_⟩
        rintro a ha b hb rfl
        rw [k4] at hb
        rcases (hturn a).1 ha with ⟨-, h0⟩ | ⟨p', hp', rfl⟩
        · exact hb.1 h0
        · exact k2 p' hp' hb.2
      · intro e
        simp only [hst, Phase.stack]
        rw [hpm.mem_iff, List.mem_append, hturn, k4]
        constructor
        · rintro ((⟨hv, h0⟩ | hp) | ⟨h1, h2⟩)
          · exact .inl ⟨hv, k5 e h0⟩
          · exact .inr hp
          · refine .inl ⟨?_, h2⟩
            have hm : e ∈ (nextExecutables s.counts (g.children (.modifier m))).2 := (k4 e).2 ⟨h1, h2⟩
            exact (ok.mem _ _ ((mem_children ok.graph).1 (mem_next hm))).2
        · rintro (⟨hv, h0⟩ | hp)
          · by_cases h1 : s.counts e = 0
            · exact .inl (.inl ⟨hv, h1⟩)
            · exact .inr ⟨h1, h0⟩
          · exact .inl (.inr hp)
      · have h1 : (s.log ++ [Ev.completed (.modifier m)]).filterMap Ev.started? = s.log.filterMap Ev.started? := by
          simp [Ev.started?]
        have h2 : (s.log ++ [Ev.completed (.modifier m)]).filterMap Ev.failed? = s.log.filterMap Ev.failed? := by
          simp [Ev.failed?]
        simp only [h1, h2, hd]
        refine h.life.trans (List.Perm.append_right _ ?_)
        simp only [St.active, hph, Phase.running]
        simp only [List.append_assoc]
        refine List.Perm.append_left _ (List.Perm.append_left _ ?_)
        simp only [List.cons_append, ← List.append_assoc]
        exact List.perm_append_comm (l₁ := [Exe.modifier m])
      · exact order_snoc h.order (by simp [Ev.start])
      · exact doneOrder_snoc h.doneOrder (by rintro e ⟨⟩; exact h.active_started hact)
    · cases hs
  | ingested =>
    simp only [step] at hs
    split at hs
    · rename_i nx hph
      cases hs
      have hn0 : startsOf s.log ++ s.phase.stack = startsOf s.log := by simp [hph, Phase.stack]
      have hturn := h.turn
      have hnod := h.nodup
      rw [hn0] at hturn hnod
      refine ⟨h.counts, h.subEdges, h.subCount, ?_, ?_, ?_, h.order, h.doneOrder, fun hf => by simp at hf⟩
      · simpa [Phase.stack] using hnod
      · simpa only [Phase.stack, List.append_nil] using hturn
      · refine h.life.trans (List.Perm.append_right _ (List.Perm.append_right _ ?_))
        simp only [St.active, hph, Phase.running, List.map_append, List.append_nil, List.append_assoc]
        exact List.Perm.append_left _ List.perm_append_comm
    · cases hs
  | stop =>
    simp only [step] at hs
    split at hs
    · rename_i hph
      split at hs
      · rename_i he
        cases hs
        refine ⟨h.counts, h.subEdges, h.subCount, ?_, ?_, ?_, h.order, h.doneOrder, fun _ => by simpa [and_comm] using he⟩
        · have := h.nodup; rw [hph] at this; exact this
        · have := h.turn; rw [hph] at this; exact this
        · have := h.life; simp only [St.active, hph] at this; exact this
      · cases hs
    · cases hs

theorem run_inv (ok : Ok E g n valid) : ∀ {is : List Input} {s s' : St}, Inv E valid sub s → run g s is = some s' →
    Inv E valid sub s'
  | [], s, s', h, e => by cases e; exact h
  | i :: t, s, s', h, e => by
    simp only [run, Option.bind_eq_some_iff] at e
    obtain ⟨s₁, h1, h2⟩ := e
    exact run_inv ok (step_inv ok h i h1) h2

end Verif.Schedule
