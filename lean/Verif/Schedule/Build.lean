import Verif.Schedule.Edges

/-! # What the builder collects -/
namespace Verif.Schedule
open Verif.OpChecks

/-! ## Lists -/

theorem mem_dedup {α : Type} [DecidableEq α] {x : α} : ∀ {l : List α}, x ∈ dedup l ↔ x ∈ l
  | [] => by simp [dedup]
  | [a] => by simp [dedup]
  | a :: b :: t => by
    simp only [dedup]
    split
    · rename_i h; subst h
      rw [mem_dedup (l := a :: t)]; simp
    · rw [List.mem_cons, mem_dedup (l := b :: t)]; simp

theorem dedup_sublist {α : Type} [DecidableEq α] : ∀ (l : List α), (dedup l).Sublist l
  | [] => by simp [dedup]
  | [a] => by simp [dedup]
  | a :: b :: t => by
    simp only [dedup]
    split
    · exact (dedup_sublist (b :: t)).cons _
    · exact (dedup_sublist (b :: t)).cons_cons _

/-! ## Required fields -/

theorem not_mentions_nil {p : Nat} : ¬ Mentions [] p := by
  intro h
  cases h <;> simp_all

theorem mentions_append {a b : List Req} {p : Nat} : Mentions (a ++ b) p ↔ Mentions a p ∨ Mentions b p := by
  constructor
  · rintro (h | ⟨h, h'⟩)
    · rcases List.mem_append.1 h with h | h
      · exact .inl (.here h)
      · exact .inr (.here h)
    · rcases List.mem_append.1 h with h | h
      · exact .inl (.deeper h h')
      · exact .inr (.deeper h h')
  · rintro (h | h)
    · cases h with
      | here h => exact .here (List.mem_append_left _ h)
      | deeper h h' => exact .deeper (List.mem_append_left _ h) h'
    · cases h with
      | here h => exact .here (List.mem_append_right _ h)
      | deeper h h' => exact .deeper (List.mem_append_right _ h) h'

theorem mentions_flatten {ls : List (List Req)} {p : Nat} : Mentions ls.flatten p ↔ ∃ l ∈ ls, Mentions l p := by
  induction ls with
  | nil => simpa using not_mentions_nil
  | cons a t ih => rw [List.flatten_cons, mentions_append, ih]; simp

theorem visit_spec {p : Nat} : ∀ {l : List Req}, Mentions l p ↔ p ∈ (visit l).1 ∨ ∃ s ∈ (visit l).2, Mentions s p
  | [] => by simpa [visit] using not_mentions_nil
  | .mk a sub :: t => by
    have ih := visit_spec (p := p) (l := t)
    have hs : Mentions (.mk a sub :: t) p ↔ p = a ∨ Mentions sub p ∨ Mentions t p := by
      constructor
      · intro h
        cases h with
        | here h =>
          rcases List.mem_cons.1 h with h | h
          · cases h; exact .inl rfl
          · exact .inr (.inr (.here h))
        | deeper h h' =>
          rcases List.mem_cons.1 h with h | h
          · cases h; exact .inr (.inl h')
          · exact .inr (.inr (.deeper h h'))
      · rintro (rfl | h | h)
        · exact .here List.mem_cons_self
        · exact .deeper List.mem_cons_self h
        · exact (mentions_append (a := [_])).2 (.inr h)
    rw [hs, ih]
    simp only [visit]
    by_cases he : sub = []
    · subst he
      have := not_mentions_nil (p := p)
      simp [this, or_assoc]
    · have : sub.isEmpty = false := by simpa using he
      rw [this]
      simp only [List.mem_cons, Bool.false_eq_true, ↓reduceIte, exists_eq_or_imp]
      constructor
      · rintro (h | h | h | h)
        · exact .inl (.inl h)
        · exact .inr (.inl h)
        · exact .inl (.inr h)
        · exact .inr (.inr h)
      · rintro ((h | h) | (h | h))
        · exact .inl h
        · exact .inr (.inr (.inl h))
        · exact .inr (.inl h)
        · exact .inr (.inr (.inr h))

/-- Work left. -/
def weight (st : List (List Req)) : Nat := (st.map fun s => 1 + Req.size.sizes s).sum

theorem weight_append (a b : List (List Req)) : weight (a ++ b) = weight a + weight b := by
  simp [weight]

theorem weight_reverse (a : List (List Req)) : weight a.reverse = weight a := by
  induction a with
  | nil => rfl
  | cons x t ih => rw [List.reverse_cons, weight_append, ih]; simp [weight]; omega

theorem weight_visit : ∀ (l : List Req), weight (visit l).2 ≤ Req.size.sizes l
  | [] => by simp [visit, weight]
  | .mk a sub :: t => by
    have ih := weight_visit t
    simp only [visit, Req.size.sizes, Req.size]
    split
    · omega
    · simp only [weight, List.map_cons, List.sum_cons] at *; omega

theorem mem_collect {p : Nat} : ∀ {n : Nat} {st : List (List Req)} {acc : List Nat}, weight st ≤ n →
    (p ∈ collect n st acc ↔ p ∈ acc ∨ ∃ s ∈ st, Mentions s p)
  | 0, [], acc, _ => by simp [collect]
  | 0, s :: t, acc, h => by simp [weight] at h
  | n + 1, [], acc, _ => by simp [collect]
  | n + 1, s :: t, acc, h => by
    have hw : weight ((visit s).2.reverse ++ t) ≤ n := by
      have := weight_visit s
      rw [weight_append, weight_reverse]
      simp only [weight, List.map_cons, List.sum_cons] at *; omega
    simp only [collect]
    rw [mem_collect hw]
    simp only [List.mem_append, List.mem_reverse, List.mem_cons, exists_eq_or_imp]
    rw [visit_spec (l := s)]
    constructor
    · rintro ((h | h) | ⟨s', (h' | h'), h⟩)
      · exact .inl h
      · exact .inr (.inl (.inl h))
      · exact .inr (.inl (.inr ⟨s', h', h⟩))
      · exact .inr (.inr ⟨s', h', h⟩)
    · rintro (h | (h | ⟨s', h', h⟩) | ⟨s', h', h⟩)
      · exact .inl (.inl h)
      · exact .inl (.inr h)
      · exact .inr ⟨s', .inl h', h⟩
      · exact .inr ⟨s', .inr h', h⟩

theorem registerDependencies_deps {b : Builder} {e : Exe} {r : List Req} {x : Exe × Nat} :
    x ∈ (registerDependencies b e r).deps ↔ x ∈ b.deps ∨ x.1 = e ∧ Mentions r x.2 := by
  simp only [registerDependencies, List.mem_append, List.mem_map, mem_dedup, (sortBy_perm _ _).mem_iff]
  refine or_congr Iff.rfl ?_
  have hw : weight [r] ≤ Req.size.sizes r + 1 := by simp [weight]; omega
  constructor
  · rintro ⟨d, hd, rfl⟩
    rw [mem_collect hw] at hd
    exact ⟨rfl, by simpa using hd⟩
  · rintro ⟨h1, h2⟩
    refine ⟨x.2, ?_, by rw [← h1]⟩
    rw [mem_collect hw]
    exact .inr ⟨r, by simp, h2⟩

/-! ## Plans -/

/-- What a partition depends on. -/
def NeedsP (p : Part) (Q : Nat) : Prop :=
  Mentions (requiredOf p) Q ∨ requiredOf p = [] ∧ p.parent = some Q

theorem needs_iff {q : Query} {P Q : Nat} : q.Needs P Q ↔ ∃ p, q.parts[P]? = some p ∧ NeedsP p Q := by
  have he : ∀ p : Part, requiredOf p = [] ↔ p.required = [] ∧ ∀ fs ∈ p.fields, fs = [] := by
    intro p; simp [requiredOf]
  constructor
  · rintro (⟨h, m⟩ | ⟨h, hf, m⟩ | ⟨h, h1, h2, h3⟩)
    · exact ⟨_, h, .inl (mentions_append.2 (.inl m))⟩
    · exact ⟨_, h, .inl (mentions_append.2 (.inr (mentions_flatten.2 ⟨_, hf, m⟩)))⟩
    · exact ⟨_, h, .inr ⟨(he _).2 ⟨h1, h2⟩, h3⟩⟩
  · rintro ⟨p, h, (m | ⟨h1, h2⟩)⟩
    · rcases mentions_append.1 m with m | m
      · exact .partition h m
      · obtain ⟨fs, hf, m⟩ := mentions_flatten.1 m
        exact .field h hf m
    · exact .parent h ((he _).1 h1).1 ((he _).1 h1).2 h2

theorem generatePlan_spec {b : Builder} {id : Nat} {p : Part} :
    (generatePlan b id p).plans = b.plans ++ [id] ∧ (generatePlan b id p).mods = b.mods ∧
    (generatePlan b id p).partMods = b.partMods ∧
    (generatePlan b id p).partToPlan = b.partToPlan.set id (some b.plans.length) ∧
    ∀ x, x ∈ (generatePlan b id p).deps ↔ x ∈ b.deps ∨ x.1 = .plan b.plans.length ∧ NeedsP p x.2 := by
  unfold generatePlan
  by_cases he : requiredOf p = []
  · have hi : (requiredOf p).isEmpty = true := by simp [he]
    simp only [hi, ↓reduceIte]
    have hn : ∀ Q, NeedsP p Q ↔ p.parent = some Q := by
      intro Q; simp [NeedsP, he, not_mentions_nil]
    cases hp : p.parent with
    | none => simp [hn, hp]
    | some Q =>
      simp only [hn, hp, List.mem_append, List.mem_singleton, true_and]
      intro x
      refine or_congr Iff.rfl ?_
      constructor
      · rintro rfl; exact ⟨rfl, rfl⟩
      · rintro ⟨h1, h2⟩; cases h2; rw [← h1]
  · have hi : (requiredOf p).isEmpty = false := by simpa using he
    simp only [hi, Bool.false_eq_true, ↓reduceIte]
    refine ⟨rfl, rfl, rfl, rfl, fun x => ?_⟩
    rw [registerDependencies_deps]
    simp [NeedsP, he]

theorem generatePlans_spec : ∀ {l : List Part} {b : Builder} {id : Nat}, b.plans.length = id →
    id + l.length ≤ b.partToPlan.length →
    (generatePlans b id l).plans = b.plans ++ List.range' id l.length ∧ (generatePlans b id l).mods = b.mods ∧
    (generatePlans b id l).partMods = b.partMods ∧
    (∀ j : Nat, (generatePlans b id l).partToPlan[j]? =
      if id ≤ j ∧ j < id + l.length then some (some j) else b.partToPlan[j]?) ∧
    ∀ x, x ∈ (generatePlans b id l).deps ↔ x ∈ b.deps ∨ ∃ k p, l[k]? = some p ∧ x.1 = .plan (id + k) ∧ NeedsP p x.2
  | [], b, id, _, _ => by
    refine ⟨by simp [generatePlans], rfl, rfl, fun j => ?_, by simp [generatePlans]⟩
    have : ¬ (id ≤ j ∧ j < id + ([] : List Part).length) := by simp
    rw [if_neg this]; rfl
  | p :: t, b, id, hb, hl => by
    obtain ⟨h1, h2, h3, h4, h5⟩ := generatePlan_spec (b := b) (id := id) (p := p)
    have hl' : id + 1 + t.length ≤ (generatePlan b id p).partToPlan.length := by
      rw [h4, List.length_set]; simp only [List.length_cons] at hl; omega
    obtain ⟨g1, g2, g3, g4, g5⟩ := generatePlans_spec (l := t) (b := generatePlan b id p) (id := id + 1)
      (by rw [h1]; simp [hb]) hl'
    refine ⟨?_, ?_, ?_, ?_, ?_⟩
    · rw [generatePlans, g1, h1, List.length_cons, List.range'_succ]; simp
    · rw [generatePlans, g2, h2]
    · rw [generatePlans, g3, h3]
    · intro j
      rw [generatePlans, g4, h4]
      simp only [List.length_cons] at *
      rw [List.getElem?_set]
      by_cases hj : id = j
      · subst hj
        have : id < b.partToPlan.length := by omega
        simp [this, hb]
      · by_cases hj' : id + 1 ≤ j ∧ j < id + 1 + t.length
        · have : id ≤ j ∧ j < id + (t.length + 1) := by omega
          simp [hj', this]
        · have : ¬ (id ≤ j ∧ j < id + (t.length + 1)) := by omega
          simp only [hj', this, if_false, hj]
    · intro x
      rw [generatePlans, g5, h5, hb]
      constructor
      · rintro ((h | ⟨h, h'⟩) | ⟨k, p', hk, h, h'⟩)
        · exact .inl h
        · exact .inr ⟨0, p, rfl, by simpa using h, h'⟩
        · exact .inr ⟨k + 1, p', by simpa using hk, by rw [h]; congr 1; omega, h'⟩
      · rintro (h | ⟨k, p', hk, h, h'⟩)
        · exact .inl (.inl h)
        · cases k with
          | zero => simp at hk; subst hk; exact .inl (.inr ⟨by simpa using h, h'⟩)
          | succ k => exact .inr ⟨k, p', by simpa using hk, by rw [h]; congr 1; omega, h'⟩

/-! ## Modifiers -/

theorem impacted_spec : ∀ {l : List Impacted} {r : List Target}, impacted l = .ok r →
    ∀ P f, (∃ t ∈ r, t.partition = P ∧ t.field = f) ↔ ∃ i ∈ l, i.included = true ∧ i.partition = P ∧ i.field = f
  | [], r, h, P, f => by simp only [impacted, Except.ok.injEq] at h; subst h; simp
  | i :: t, r, h, P, f => by
    simp only [impacted] at h
    split at h
    · rename_i hi
      split at h
      · cases h
      · split at h
        · cases h
        · rename_i l hl
          simp only [Except.ok.injEq] at h; subst h
          have := impacted_spec hl P f
          simp only [List.mem_cons, exists_eq_or_imp, hi, true_and, this]
    · rename_i hi
      have := impacted_spec h P f
      simp only [List.mem_cons, exists_eq_or_imp, hi, Bool.false_eq_true, false_and, false_or, this]

theorem chunks_mem : ∀ {l : List Target} {c : Nat × List Target}, c ∈ chunks l →
    c.2 ≠ [] ∧ ∀ t ∈ c.2, t ∈ l ∧ t.partition = c.1
  | [], c, h => by simp [chunks] at h
  | i :: t, c, h => by
    have ih := fun {c} => chunks_mem (l := t) (c := c)
    simp only [chunks] at h
    split at h
    · simp only [List.mem_singleton] at h; subst h; simp
    · rename_i p l rest hc
      rw [hc] at ih
      split at h
      · rename_i hp
        rcases List.mem_cons.1 h with rfl | h
        · refine ⟨by simp, ?_⟩
          intro x hx
          rcases List.mem_cons.1 hx with rfl | hx
          · exact ⟨by simp, hp⟩
          · obtain ⟨h1, h2⟩ := (ih (c := (p, l)) (by simp)).2 x hx
            exact ⟨by simp [h1], h2⟩
        · obtain ⟨h1, h2⟩ := ih (List.mem_cons_of_mem _ h)
          exact ⟨h1, fun x hx => ⟨by simp [(h2 x hx).1], (h2 x hx).2⟩⟩
      · rcases List.mem_cons.1 h with rfl | h
        · simp
        · obtain ⟨h1, h2⟩ := ih h
          exact ⟨h1, fun x hx => ⟨by simp [(h2 x hx).1], (h2 x hx).2⟩⟩

theorem mem_chunks : ∀ {l : List Target} {t : Target}, t ∈ l → ∃ c ∈ chunks l, t ∈ c.2
  | [], _, h => by simp at h
  | i :: u, t, h => by
    simp only [chunks]
    split
    · rename_i hc
      rcases List.mem_cons.1 h with rfl | h
      · exact ⟨_, List.mem_singleton_self _, by simp⟩
      · obtain ⟨c, h1, _⟩ := mem_chunks h
        rw [hc] at h1; simp at h1
    · rename_i p l rest hc
      have ih := fun (h : t ∈ u) => mem_chunks h
      rw [hc] at ih
      split
      · rcases List.mem_cons.1 h with rfl | h
        · exact ⟨_, List.mem_cons_self, by simp⟩
        · obtain ⟨c, h1, h2⟩ := ih h
          rcases List.mem_cons.1 h1 with rfl | h1
          · exact ⟨_, List.mem_cons_self, by simp [h2]⟩
          · exact ⟨c, List.mem_cons_of_mem _ h1, h2⟩
      · rcases List.mem_cons.1 h with rfl | h
        · exact ⟨_, List.mem_cons_self, by simp⟩
        · obtain ⟨c, h1, h2⟩ := ih h
          exact ⟨c, List.mem_cons_of_mem _ h1, h2⟩

theorem chunks_keys : ∀ {l : List Target}, l.Pairwise (fun a b => a.partition ≤ b.partition) →
    (chunks l).Pairwise fun a b => a.1 < b.1
  | [], _ => by simp [chunks]
  | i :: t, h => by
    obtain ⟨h1, h2⟩ := List.pairwise_cons.1 h
    have ih := chunks_keys h2
    have hm := fun {c} => chunks_mem (l := t) (c := c)
    simp only [chunks]
    split
    · exact List.pairwise_singleton _ _
    · rename_i p l rest hc
      rw [hc] at ih hm
      obtain ⟨g1, g2⟩ := List.pairwise_cons.1 ih
      split
      · exact List.pairwise_cons.2 ⟨g1, g2⟩
      · rename_i hp
        refine List.pairwise_cons.2 ⟨?_, ih⟩
        have hp' : i.partition < p := by
          obtain ⟨n1, n2⟩ := hm (c := (p, l)) (by simp)
          cases l with
          | nil => simp at n1
          | cons x l =>
            obtain ⟨n3, n4⟩ := n2 x (by simp)
            have := h1 x n3
            simp only at n4; omega
        intro c hc
        rcases List.mem_cons.1 hc with rfl | hc
        · exact hp'
        · have := g1 c hc; simp only at *; omega

theorem eq_of_key_lt {l : List (Nat × List Target)} (h : l.Pairwise fun a b => a.1 < b.1) {c c' : Nat × List Target}
    (hc : c ∈ l) (hc' : c' ∈ l) (he : c.1 = c'.1) : c = c' := by
  induction l with
  | nil => cases hc
  | cons a t ih =>
    obtain ⟨h1, h2⟩ := List.pairwise_cons.1 h
    rcases List.mem_cons.1 hc with rfl | g <;> rcases List.mem_cons.1 hc' with rfl | g'
    · rfl
    · have := h1 _ g'; omega
    · have := h1 _ g; omega
    · exact ih h2 g g'

theorem tupleLe_trans (a b c : Target) (h1 : tupleLe a b = true) (h2 : tupleLe b c = true) : tupleLe a c = true := by
  simp only [tupleLe] at *
  repeat' split at h1
  all_goals repeat' split at h2
  all_goals repeat' split
  all_goals simp_all
  all_goals omega

theorem tupleLe_total (a b : Target) : (tupleLe a b || tupleLe b a) = true := by
  simp only [tupleLe, Bool.or_eq_true]
  repeat' split
  all_goals simp_all
  all_goals omega

theorem tupleLe_partition {a b : Target} (h : tupleLe a b = true) : a.partition ≤ b.partition := by
  simp only [tupleLe] at h
  repeat' split at h
  all_goals simp_all
  all_goals omega

theorem sortTargets_sorted (l : List Target) :
    (dedup (sortBy tupleLe l)).Pairwise fun a b => a.partition ≤ b.partition := by
  have := sortBy_sorted tupleLe_trans tupleLe_total l
  exact (this.sublist (dedup_sublist _)).imp tupleLe_partition

/-- The dependencies registered for the targets of a modifier. -/
theorem registerAll_spec {q : Query} {id : Nat} : ∀ {ts : List Target} {b : Builder},
    let b' := ts.foldl (fun b i => registerDependencies b (.modifier id) (q.requiredBySupergraph i.field)) b
    b'.plans = b.plans ∧ b'.mods = b.mods ∧ b'.partMods = b.partMods ∧ b'.partToPlan = b.partToPlan ∧
    ∀ x, x ∈ b'.deps ↔ x ∈ b.deps ∨ x.1 = .modifier id ∧ ∃ t ∈ ts, Mentions (q.requiredBySupergraph t.field) x.2
  | [], b => by simp
  | t :: ts, b => by
    obtain ⟨h1, h2, h3, h4, h5⟩ := registerAll_spec (q := q) (id := id) (ts := ts)
      (b := registerDependencies b (.modifier id) (q.requiredBySupergraph t.field))
    refine ⟨h1, h2, h3, h4, fun x => ?_⟩
    refine (h5 x).trans ?_
    rw [registerDependencies_deps]
    simp only [List.mem_cons, exists_eq_or_imp]
    constructor
    · rintro ((h | ⟨h, h'⟩) | ⟨h, h'⟩)
      · exact .inl h
      · exact .inr ⟨h, .inl h'⟩
      · exact .inr ⟨h, .inr h'⟩
    · rintro (h | ⟨h, (h' | h')⟩)
      · exact .inl (.inl h)
      · exact .inl (.inr ⟨h, h'⟩)
      · exact .inr ⟨h, h'⟩

/-- The tables of modifiers agree. -/
structure MInv (q : Query) (b₀ b : Builder) : Prop where
  plans : b.plans = b₀.plans
  partToPlan : b.partToPlan = b₀.partToPlan
  partMods : ∀ x, x ∈ b.partMods ↔ ∃ m, b.mods[x.2]? = some m ∧ m.partition = x.1
  planDeps : ∀ n Q, (.plan n, Q) ∈ b.deps ↔ (.plan n, Q) ∈ b₀.deps
  modDeps : ∀ n Q, (.modifier n, Q) ∈ b.deps ↔
    ∃ m, b.mods[n]? = some m ∧ ∃ t ∈ m.targets, Mentions (q.requiredBySupergraph t.field) Q

theorem pushModifier_inv {q : Query} {b₀ b : Builder} (h : MInv q b₀ b) (d : Nat) (c : Nat × List Target) :
    MInv q b₀ (pushModifier q d b c) ∧ (pushModifier q d b c).mods = b.mods ++ [⟨d, c.1, c.2⟩] := by
  obtain ⟨h1, h2, h3, h4, h5⟩ := registerAll_spec (q := q) (id := b.mods.length) (ts := c.2) (b := b)
  have hm : (pushModifier q d b c).mods = b.mods ++ [⟨d, c.1, c.2⟩] := by
    simp only [pushModifier]; rw [h2]
  have hlen : ∀ {n : Nat} {m}, b.mods[n]? = some m → n < b.mods.length := by
    intro n m h
    rcases Nat.lt_or_ge n b.mods.length with h' | h'
    · exact h'
    · rw [List.getElem?_eq_none h'] at h; cases h
  have hget : ∀ {n : Nat} {m}, (b.mods ++ [(⟨d, c.1, c.2⟩ : ModRec)])[n]? = some m ↔
      b.mods[n]? = some m ∨ n = b.mods.length ∧ m = ⟨d, c.1, c.2⟩ := by
    intro n m
    rw [List.getElem?_append]
    split
    · rename_i hn
      constructor
      · exact .inl
      · rintro (h | ⟨h, -⟩)
        · exact h
        · omega
    · rename_i hn
      rw [List.getElem?_singleton, List.getElem?_eq_none (by omega)]
      split
      · have : n = b.mods.length := by omega
        simp [this, eq_comm]
      · have : n ≠ b.mods.length := by omega
        simp [this]
  refine ⟨⟨?_, ?_, ?_, ?_, ?_⟩, hm⟩
  · exact h1.trans h.plans
  · exact h4.trans h.partToPlan
  · intro x
    rw [hm]
    have : (pushModifier q d b c).partMods = b.partMods ++ [(c.1, b.mods.length)] := by
      simp only [pushModifier]; rw [h3]
    rw [this, List.mem_append, h.partMods, List.mem_singleton]
    constructor
    · rintro (⟨m, hx, hp⟩ | rfl)
      · exact ⟨m, hget.2 (.inl hx), hp⟩
      · exact ⟨_, hget.2 (.inr ⟨rfl, rfl⟩), rfl⟩
    · rintro ⟨m, hx, hp⟩
      rcases hget.1 hx with g | ⟨g, rfl⟩
      · exact .inl ⟨m, g, hp⟩
      · exact .inr (by rw [← g]; simp only at hp; rw [hp])
  · intro n Q
    refine (h5 _).trans ?_
    rw [h.planDeps]; simp
  · intro n Q
    refine (h5 _).trans ?_
    rw [h.modDeps, hm]
    constructor
    · rintro (⟨m, hx, hp⟩ | ⟨hn, hp⟩)
      · exact ⟨m, hget.2 (.inl hx), hp⟩
      · cases hn
        exact ⟨_, hget.2 (.inr ⟨rfl, rfl⟩), hp⟩
    · rintro ⟨m, hx, hp⟩
      rcases hget.1 hx with g | ⟨g, rfl⟩
      · exact .inl ⟨m, g, hp⟩
      · exact .inr ⟨by rw [g], hp⟩

theorem pushModifiers_inv {q : Query} {b₀ : Builder} {d : Nat} : ∀ {cs : List (Nat × List Target)} {b : Builder},
    MInv q b₀ b → MInv q b₀ (cs.foldl (pushModifier q d) b) ∧
      (cs.foldl (pushModifier q d) b).mods = b.mods ++ cs.map fun c => ⟨d, c.1, c.2⟩
  | [], b, h => by simpa using h
  | c :: cs, b, h => by
    obtain ⟨h1, h2⟩ := pushModifier_inv h d c
    obtain ⟨g1, g2⟩ := pushModifiers_inv (cs := cs) (d := d) h1
    exact ⟨g1, by rw [List.foldl_cons, g2, h2]; simp⟩

/-- The records of the first `k` definitions. -/
structure Recs (q : Query) (k : Nat) (mods : List ModRec) : Prop where
  sound : ∀ m ∈ mods, m.defn < k ∧ (∃ f, q.Impacts m.defn m.partition f) ∧
    ∀ f, (∃ t ∈ m.targets, t.field = f) ↔ q.Impacts m.defn m.partition f
  nodup : (mods.map fun m => (m.defn, m.partition)).Nodup
  complete : ∀ d P f, d < k → q.Impacts d P f → ∃ m ∈ mods, m.defn = d ∧ m.partition = P

theorem generateModifier_inv {q : Query} {b₀ b b' : Builder} {d : Nat} {defn : List Impacted}
    (hd : q.modifiers[d]? = some defn) (h : MInv q b₀ b) (hr : Recs q d b.mods)
    (e : generateModifier q b d defn = .ok b') : MInv q b₀ b' ∧ Recs q (d + 1) b'.mods := by
  simp only [generateModifier] at e
  split at e
  · cases e
  · rename_i l hl
    simp only [Except.ok.injEq] at e; subst e
    obtain ⟨h1, h2⟩ := pushModifiers_inv (cs := chunks (dedup (sortBy tupleLe l))) (d := d) h
    refine ⟨h1, ?_⟩
    rw [h2]
    have hI : ∀ P f, q.Impacts d P f ↔ ∃ t ∈ l, t.partition = P ∧ t.field = f := by
      intro P f
      rw [impacted_spec hl P f]
      simp [Query.Impacts, hd]
    have hmem : ∀ {t}, t ∈ dedup (sortBy tupleLe l) ↔ t ∈ l := by
      intro t; rw [mem_dedup, (sortBy_perm _ _).mem_iff]
    have hk := chunks_keys (sortTargets_sorted l)
    have hcov : ∀ {t : Target}, t ∈ l → ∃ c ∈ chunks (dedup (sortBy tupleLe l)), c.1 = t.partition ∧ t ∈ c.2 := by
      intro t ht
      obtain ⟨c, hc, h'⟩ := mem_chunks (hmem.2 ht)
      exact ⟨c, hc, ((chunks_mem hc).2 t h').2.symm, h'⟩
    have huniq : ∀ {c c'}, c ∈ chunks (dedup (sortBy tupleLe l)) → c' ∈ chunks (dedup (sortBy tupleLe l)) →
        c.1 = c'.1 → c = c' := by
      intro c c' hc hc' he
      exact eq_of_key_lt hk hc hc' he
    constructor
    · intro m hm
      rcases List.mem_append.1 hm with hm | hm
      · obtain ⟨a, b⟩ := hr.sound m hm
        exact ⟨by omega, b⟩
      · obtain ⟨c, hc, rfl⟩ := List.mem_map.1 hm
        obtain ⟨n1, n2⟩ := chunks_mem hc
        have hf : ∀ f, (∃ t ∈ c.2, t.field = f) ↔ q.Impacts d c.1 f := by
          intro f
          rw [hI]
          constructor
          · rintro ⟨t, ht, rfl⟩
            exact ⟨t, hmem.1 (n2 t ht).1, (n2 t ht).2, rfl⟩
          · rintro ⟨t, ht, hp, rfl⟩
            obtain ⟨c', hc', h3, h4⟩ := hcov ht
            have := huniq hc' hc (h3.trans hp)
            subst this
            exact ⟨t, h4, rfl⟩
        refine ⟨by simp, ?_, hf⟩
        obtain ⟨t, ht⟩ := List.exists_mem_of_ne_nil _ n1
        exact ⟨t.field, (hf _).1 ⟨t, ht, rfl⟩⟩
    · rw [List.map_append, List.nodup_append]
      refine ⟨hr.nodup, ?_, ?_⟩
      · rw [List.map_map]
        refine List.Pairwise.map _ ?_ hk
        intro a b hab he
        simp at he; omega
      · intro x hx y hy he
        obtain ⟨m, hm, rfl⟩ := List.mem_map.1 hx
        simp only [List.map_map, List.mem_map] at hy
        obtain ⟨c, _, rfl⟩ := hy
        have := (hr.sound m hm).1
        simp at he; omega
    · intro d' P f hd' hi
      by_cases hlt : d' < d
      · obtain ⟨m, hm, h3⟩ := hr.complete d' P f hlt hi
        exact ⟨m, by simp [hm], h3⟩
      · have : d' = d := by omega
        subst this
        obtain ⟨t, ht, hp, -⟩ := (hI P f).1 hi
        obtain ⟨c, hc, h3, h4⟩ := hcov ht
        exact ⟨⟨d', c.1, c.2⟩, by simp only [List.mem_append, List.mem_map]; exact .inr ⟨c, hc, rfl⟩, rfl,
          h3.trans hp⟩

theorem generateModifiers_inv {q : Query} {b₀ : Builder} : ∀ {l : List (List Impacted)} {b b' : Builder} {d : Nat},
    (∀ j : Nat, q.modifiers[d + j]? = l[j]?) → MInv q b₀ b → Recs q d b.mods →
    generateModifiers q b d l = .ok b' → MInv q b₀ b' ∧ Recs q q.modifiers.length b'.mods
  | [], b, b', d, hq, h, hr, e => by
    simp only [generateModifiers, Except.ok.injEq] at e; subst e
    refine ⟨h, ⟨?_, hr.nodup, ?_⟩⟩
    · intro m hm
      obtain ⟨a, b⟩ := hr.sound m hm
      refine ⟨?_, b⟩
      obtain ⟨f, defn, hd, -⟩ := b.1
      exact (List.getElem?_eq_some_iff.1 hd).1
    · intro d' P f hd' hi
      have h0 := hq (d' - d)
      by_cases hlt : d' < d
      · exact hr.complete d' P f hlt hi
      · rw [show d + (d' - d) = d' by omega] at h0
        simp at h0; omega
  | defn :: t, b, b', d, hq, h, hr, e => by
    simp only [generateModifiers] at e
    split at e
    · cases e
    · rename_i b₁ h₁
      obtain ⟨h1, h2⟩ := generateModifier_inv (by simpa using hq 0) h hr h₁
      refine generateModifiers_inv ?_ h1 h2 e
      intro j
      have := hq (j + 1)
      rw [show d + 1 + j = d + (j + 1) by omega, this]; simp

/-! ## The graph -/

/-- What is known of the result of building. -/
structure Built (q : Query) (o : OpPlan) : Prop where
  plans : o.plans = List.range q.parts.length
  recs : Recs q q.modifiers.length o.mods
  partition : ∀ m ∈ o.mods, m.partition < q.parts.length
  closed : ∀ {t u}, q.Depends t u → q.HasTask u
  graph : ∃ E, IsGraph E o.graph ∧ ∀ d e, (d, e) ∈ E ↔
    ∃ t u, o.task e = some t ∧ o.task d = some u ∧ q.Depends t u

theorem planOf_ok {m : List (Option Nat)} {k : Nat}
    (hm : ∀ j : Nat, m[j]? = if j < k then some (some j) else none) {p n : Nat} :
    planOf m p = .ok n ↔ p < k ∧ n = p := by
  simp only [planOf, hm]
  by_cases h : p < k
  · simp [h, eq_comm]
  · simp [h]

theorem build_spec {q : Query} {o : OpPlan} (e : build q = .ok o) : Built q o := by
  simp only [build] at e
  split at e
  · cases e
  · rename_i b hb
    split at e
    · cases e
    · rename_i g hg
      simp only [Except.ok.injEq] at e; subst e
      obtain ⟨p1, p2, p3, p4, p5⟩ := generatePlans_spec (l := q.parts) (b := emptyBuilder q) (id := 0) rfl
        (by simp [emptyBuilder])
      have hb₀ : MInv q (generatePlans (emptyBuilder q) 0 q.parts) (generatePlans (emptyBuilder q) 0 q.parts) := by
        refine ⟨rfl, rfl, ?_, fun _ _ => Iff.rfl, ?_⟩
        · intro x; rw [p3, p2]; simp [emptyBuilder]
        · intro n Q; rw [p5, p2]; simp [emptyBuilder]
      have hr₀ : Recs q 0 (generatePlans (emptyBuilder q) 0 q.parts).mods := by
        rw [p2]
        exact ⟨by simp [emptyBuilder], by simp [emptyBuilder], by simp⟩
      obtain ⟨hi, hr⟩ := generateModifiers_inv (by simp) hb₀ hr₀ hb
      have hplans : b.plans = List.range q.parts.length := by
        rw [hi.plans, p1]; simp [emptyBuilder, List.range_eq_range']
      simp only [finalize] at hg
      split at hg
      · cases hg
      · rename_i g₁ hg₁
        split at hg
        · cases hg
        · rename_i g₂ hg₂
          obtain ⟨N₁, a1, a2, a3⟩ := linkModifiers_graph isGraph_nil hg₁
          obtain ⟨N₂, b1, b2, b3⟩ := linkDependencies_graph a1 hg₂
          obtain ⟨N₃, c1, c2, c3⟩ := linkMutations_graph b1 hg
          have hm : ∀ j : Nat, b.partToPlan[j]? = if j < q.parts.length then some (some j) else none := by
            intro j
            rw [hi.partToPlan, p4]
            by_cases h : j < q.parts.length
            · simp [h]
            · simp only [Nat.zero_le, Nat.zero_add, true_and, h, if_false, emptyBuilder]
              rw [List.getElem?_eq_none]; simp; omega
          have hok := fun {p n} => planOf_ok (k := q.parts.length) hm (p := p) (n := n)
          have hpm : ∀ p i, (p, i) ∈ sortBy pairLe b.partMods ↔ ∃ m, b.mods[i]? = some m ∧ m.partition = p := by
            intro p i; rw [(sortBy_perm _ _).mem_iff, hi.partMods]
          have hfa : ∀ p i, i ∈ findAll (sortBy pairLe b.partMods) p ↔ ∃ m, b.mods[i]? = some m ∧ m.partition = p := by
            intro p i; rw [mem_findAll (sortPairs_sorted _), hpm]
          have hpd : ∀ n Q, (.plan n, Q) ∈ b.deps ↔ q.Needs n Q := by
            intro n Q
            rw [hi.planDeps, p5, needs_iff]
            simp only [emptyBuilder, List.not_mem_nil, Nat.zero_add, Exe.plan.injEq, false_or]
            constructor
            · rintro ⟨k, p, h1, rfl, h2⟩; exact ⟨p, h1, h2⟩
            · rintro ⟨p, h1, h2⟩; exact ⟨n, p, h1, rfl, h2⟩
          have htp : ∀ n t, (OpPlan.mk g b.plans b.mods).task (.plan n) = some t ↔ n < q.parts.length ∧ t = .plan n := by
            intro n t
            simp only [OpPlan.task, hplans]
            by_cases h : n < q.parts.length
            · simp [List.getElem?_range, h, eq_comm]
            · rw [List.getElem?_eq_none (by simpa using h)]; simp [h]
          have htm : ∀ n t, (OpPlan.mk g b.plans b.mods).task (.modifier n) = some t ↔
              ∃ m, b.mods[n]? = some m ∧ t = .modifier m.defn m.partition := by
            intro n t
            simp only [OpPlan.task, Option.map_eq_some_iff]
            constructor
            · rintro ⟨m, h, rfl⟩; exact ⟨m, h, rfl⟩
            · rintro ⟨m, h, rfl⟩; exact ⟨m, h, rfl⟩
          have hneeds : ∀ {P Q}, q.Needs P Q → P < q.parts.length ∧ Q < q.parts.length := by
            intro P Q h
            constructor
            · obtain ⟨p, hp, -⟩ := needs_iff.1 h
              exact (List.getElem?_eq_some_iff.1 hp).1
            · obtain ⟨n, hn⟩ := b3 _ ((hpd P Q).2 h)
              exact (hok.1 hn).1
          have hmpart : ∀ {i : Nat} {m : ModRec}, b.mods[i]? = some m → m.partition < q.parts.length := by
            intro i m h
            obtain ⟨n, hn⟩ := a3 _ ((hpm m.partition i).2 ⟨m, h, rfl⟩)
            exact (hok.1 hn).1
          have hmdep : ∀ {i : Nat} {m : ModRec} {Q : Nat}, b.mods[i]? = some m →
              ((.modifier i, Q) ∈ b.deps ↔ ∃ f, q.Impacts m.defn m.partition f ∧
                Mentions (q.requiredBySupergraph f) Q) := by
            intro i m Q h
            rw [hi.modDeps]
            have hs := (hr.sound m (List.mem_of_getElem? h)).2.2
            constructor
            · rintro ⟨m', h', t, ht, hM⟩
              rw [h] at h'; cases h'
              exact ⟨t.field, (hs _).1 ⟨t, ht, rfl⟩, hM⟩
            · rintro ⟨f, hf, hM⟩
              obtain ⟨t, ht, rfl⟩ := (hs _).2 hf
              exact ⟨m, h, t, ht, hM⟩
          have hid : ∀ {d P f}, q.Impacts d P f → ∃ (i : Nat) (m : ModRec), b.mods[i]? = some m ∧ ModRec.defn m = d ∧ ModRec.partition m = P := by
            intro d P f h
            have hd : d < q.modifiers.length := by
              obtain ⟨defn, h', -⟩ := h
              exact (List.getElem?_eq_some_iff.1 h').1
            obtain ⟨m, hm, h1, h2⟩ := hr.complete d P f hd h
            obtain ⟨i, hi⟩ := List.mem_iff_getElem?.1 hm
            exact ⟨i, m, hi, h1, h2⟩
          refine ⟨hplans, hr, ?_, ?_, _, c1, ?_⟩
          · intro m hm
            obtain ⟨i, hi⟩ := List.mem_iff_getElem?.1 hm
            exact hmpart hi
          · intro t u h
            cases h with
            | required h => exact .plan (hneeds h).2
            | modified h hI => exact .modifier hI
            | serial h =>
              obtain ⟨n, k, h1, -⟩ := c3 _ _ h
              exact .plan (hok.1 h1).1
            | modifies hI =>
              obtain ⟨i, m, h1, -, rfl⟩ := hid hI
              exact .plan (hmpart h1)
            | reads hI hM =>
              obtain ⟨i, m, h1, rfl, rfl⟩ := hid hI
              obtain ⟨n, hn⟩ := b3 _ ((hmdep h1).2 ⟨_, hI, hM⟩)
              exact .plan (hok.1 hn).1
          intro d e
          simp only [List.nil_append, List.mem_append, a2, b2, c2]
          constructor
          · rintro ((⟨p, i, n, h1, h2, rfl, rfl⟩ | ⟨⟨x, p⟩, hx, (⟨n, h1, rfl, rfl⟩ | ⟨i, n, h1, h2, rfl, rfl⟩)⟩) |
              ⟨p, p', n, n', h1, h2, h3, rfl, rfl⟩)
            · obtain ⟨m, hm', rfl⟩ := (hpm p i).1 h1
              obtain ⟨hlt, rfl⟩ := hok.1 h2
              obtain ⟨f, hf⟩ := (hr.sound m (List.mem_of_getElem? hm')).2.1
              exact ⟨_, _, (htm _ _).2 ⟨m, hm', rfl⟩, (htp _ _).2 ⟨hlt, rfl⟩, .modifies hf⟩
            · obtain ⟨hlt, rfl⟩ := hok.1 h1
              cases e with
              | plan k =>
                have hn := (hpd k _).1 hx
                exact ⟨_, _, (htp _ _).2 ⟨(hneeds hn).1, rfl⟩, (htp _ _).2 ⟨hlt, rfl⟩, .required hn⟩
              | modifier k =>
                obtain ⟨m, hm', -⟩ := (hi.modDeps k _).1 hx
                obtain ⟨f, hf, hM⟩ := (hmdep hm').1 hx
                exact ⟨_, _, (htm _ _).2 ⟨m, hm', rfl⟩, (htp _ _).2 ⟨hlt, rfl⟩, .reads hf hM⟩
            · simp only at h1; subst h1
              have hn := (hpd n p).1 hx
              obtain ⟨m, hm', rfl⟩ := (hfa p i).1 h2
              obtain ⟨f, hf⟩ := (hr.sound m (List.mem_of_getElem? hm')).2.1
              exact ⟨_, _, (htp _ _).2 ⟨(hneeds hn).1, rfl⟩, (htm _ _).2 ⟨m, hm', rfl⟩, .modified hn hf⟩
            · obtain ⟨hlt, rfl⟩ := hok.1 h2
              obtain ⟨hlt', rfl⟩ := hok.1 h3
              exact ⟨_, _, (htp _ _).2 ⟨hlt', rfl⟩, (htp _ _).2 ⟨hlt, rfl⟩, .serial h1⟩
          · rintro ⟨t, u, ht, hu, hd⟩
            cases hd with
            | @required P Q hn =>
              cases e with
              | modifier i => obtain ⟨m, -, h⟩ := (htm _ _).1 ht; cases h
              | plan n =>
                obtain ⟨-, h⟩ := (htp _ _).1 ht; cases h
                cases d with
                | modifier i => obtain ⟨m, -, h⟩ := (htm _ _).1 hu; cases h
                | plan k =>
                  obtain ⟨hlt, h⟩ := (htp _ _).1 hu; cases h
                  exact .inl (.inr ⟨_, (hpd _ _).2 hn, .inl ⟨_, hok.2 ⟨hlt, rfl⟩, rfl, rfl⟩⟩)
            | @modified P Q d' f hn hI =>
              cases e with
              | modifier i => obtain ⟨m, -, h⟩ := (htm _ _).1 ht; cases h
              | plan n =>
                obtain ⟨-, h⟩ := (htp _ _).1 ht; cases h
                cases d with
                | plan k => obtain ⟨-, h⟩ := (htp _ _).1 hu; cases h
                | modifier i =>
                  obtain ⟨m, hm', h⟩ := (htm _ _).1 hu; cases h
                  exact .inl (.inr ⟨_, (hpd _ _).2 hn, .inr ⟨i, _, rfl, (hfa _ _).2 ⟨m, hm', rfl⟩, rfl, rfl⟩⟩)
            | @serial P Q hs =>
              cases e with
              | modifier i => obtain ⟨m, -, h⟩ := (htm _ _).1 ht; cases h
              | plan n =>
                obtain ⟨hlt', h⟩ := (htp _ _).1 ht; cases h
                cases d with
                | modifier i => obtain ⟨m, -, h⟩ := (htm _ _).1 hu; cases h
                | plan k =>
                  obtain ⟨hlt, h⟩ := (htp _ _).1 hu; cases h
                  exact .inr ⟨_, _, _, _, hs, hok.2 ⟨hlt, rfl⟩, hok.2 ⟨hlt', rfl⟩, rfl, rfl⟩
            | @modifies d' P f hI =>
              cases e with
              | plan n => obtain ⟨-, h⟩ := (htp _ _).1 ht; cases h
              | modifier i =>
                obtain ⟨m, hm', h⟩ := (htm _ _).1 ht; cases h
                cases d with
                | modifier i => obtain ⟨m, -, h⟩ := (htm _ _).1 hu; cases h
                | plan k =>
                  obtain ⟨hlt, h⟩ := (htp _ _).1 hu; cases h
                  exact .inl (.inl ⟨_, i, _, (hpm _ _).2 ⟨m, hm', rfl⟩, hok.2 ⟨hlt, rfl⟩, rfl, rfl⟩)
            | @reads d' P f Q hI hM =>
              cases e with
              | plan n => obtain ⟨-, h⟩ := (htp _ _).1 ht; cases h
              | modifier i =>
                obtain ⟨m, hm', h⟩ := (htm _ _).1 ht; cases h
                cases d with
                | modifier i => obtain ⟨m, -, h⟩ := (htm _ _).1 hu; cases h
                | plan k =>
                  obtain ⟨hlt, h⟩ := (htp _ _).1 hu; cases h
                  exact .inl (.inr ⟨_, (hmdep hm').2 ⟨f, hI, hM⟩, .inl ⟨_, hok.2 ⟨hlt, rfl⟩, rfl, rfl⟩⟩)

end Verif.Schedule
