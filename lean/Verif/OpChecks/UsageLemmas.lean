import Verif.OpChecks.AggLemmas
/-!
# Operation checks: lemmas about aggregating several operations
-/
namespace Verif.OpChecks
open Verif.CheckTypes Verif.Common

/-! ## Several operations -/

/-- Registering several lists of keys, each with its increment. -/
def multi {K : Type} [DecidableEq K] (l : List (Nat × List K)) (m : Counts K) : Counts K :=
  l.foldl (fun m e => bumpAll m e.2 e.1) m

theorem get_multi {K : Type} [DecidableEq K] (k : K) (l : List (Nat × List K)) (hl : ∀ e ∈ l, e.1 < 2 ^ 64) :
    ∀ m : Counts K, (multi l m).get k = if l.all (fun e => decide (e.2.count k = 0)) then m.get k
      else some (((m.get k).getD 0 + (l.map fun e => e.1 * e.2.count k).sum) % 2 ^ 64) := by
  induction l with
  | nil => intro m; rfl
  | cons e t ih =>
    intro m
    have hm : multi (e :: t) m = multi t (bumpAll m e.2 e.1) := rfl
    rw [hm, ih fun x hx => hl x (List.mem_cons_of_mem _ hx), get_bumpAll _ _ (hl e List.mem_cons_self)]
    simp only [List.all_cons, List.map_cons, List.sum_cons]
    by_cases h0 : e.2.count k = 0
    · have hd : decide (e.2.count k = 0) = true := decide_eq_true h0
      rw [hd, h0]
      simp only [if_true, Bool.true_and, Nat.mul_zero, Nat.zero_add]
    · simp only [h0, if_false, decide_false, Bool.false_and, Bool.false_eq_true, Option.getD_some]
      split
      · rename_i hall
        have : (t.map fun e => e.1 * e.2.count k).sum = 0 := by
          clear ih hm hl
          induction t with
          | nil => rfl
          | cons x t ih =>
            simp only [List.all_cons, Bool.and_eq_true, decide_eq_true_eq] at hall
            rw [List.map_cons, List.sum_cons, ih hall.2, hall.1]
            rfl
        rw [this, Nat.add_zero, Nat.mul_comm]
      · rw [Nat.mod_add_mod, Nat.mul_comm, Nat.add_assoc]

/-- Aggregating operations whose registrations are known. -/
def runAll (l : List (Nat × List Ev)) (u : Usage) : Usage :=
  l.foldl (fun u e => e.2.foldl Usage.apply (u.setIncrement e.1)) u

theorem runAll_proj (l : List (Nat × List Ev)) : ∀ u : Usage,
    (runAll l u).fields = multi (l.map fun e => (e.1, fieldsOf e.2)) u.fields ∧
    (runAll l u).args = multi (l.map fun e => (e.1, argsOf e.2)) u.args ∧
    (runAll l u).enums = multi (l.map fun e => (e.1, enumsOf e.2)) u.enums ∧
    (runAll l u).leftOut = multi (l.map fun e => (e.1, leftOutOf e.2)) u.leftOut ∧
    (runAll l u).conds = multi (l.map fun e => (1, condsOf e.2)) u.conds := by
  induction l with
  | nil => intro u; exact ⟨rfl, rfl, rfl, rfl, rfl⟩
  | cons e t ih =>
    intro u
    have hr : runAll (e :: t) u = runAll t (e.2.foldl Usage.apply (u.setIncrement e.1)) := rfl
    obtain ⟨h1, h2, h3, h4, h5⟩ := ih (e.2.foldl Usage.apply (u.setIncrement e.1))
    rw [hr, h1, h2, h3, h4, h5, apply_all]
    exact ⟨rfl, rfl, rfl, rfl, rfl⟩

/-- The recorded operations are well-formed: counts are `u64`, the uses are those of the document, and
fragment names are distinct (they are the keys of a map). -/
def RecordedOk (d : SDoc) (ops : Recorded) : Prop :=
  ∀ o ∈ ops, o.1 < 2 ^ 64 ∧ Uses d o.2.1 o.2.2 ∧ (o.2.1.fragments.map (·.1)).Nodup

/-- `u` is the result of aggregating the operations, with any sufficient depth of the stack. -/
def Result (d : SDoc) (ops : Recorded) (u : Usage) : Prop :=
  ∃ N, ∀ fuel, N ≤ fuel →
    aggregateAll fuel (Schema.ofDoc d) (ops.map fun o => (o.1, o.2.1)) Usage.init = some u

theorem aggregateAll_spec {d : SDoc} (hv : d.Valid) (ops : Recorded) (hok : RecordedOk d ops) :
    ∃ (pl : List (Nat × List Ev × List Use)) (N : Nat),
      pl.map (fun p => (p.1, p.2.2)) = ops.map (fun o => (o.1, o.2.2)) ∧
      (∀ p ∈ pl, p.1 < 2 ^ 64 ∧ Matches d p.2.1 p.2.2) ∧
      ∀ fuel, N ≤ fuel → ∀ u, aggregateAll fuel (Schema.ofDoc d) (ops.map fun o => (o.1, o.2.1)) u =
        some (runAll (pl.map fun p => (p.1, p.2.1)) u) := by
  induction ops with
  | nil => exact ⟨[], 0, rfl, by simp, fun _ _ _ => rfl⟩
  | cons o t ih =>
    obtain ⟨pl, N, h1, h2, h3⟩ := ih fun x hx => hok x (List.mem_cons_of_mem _ hx)
    obtain ⟨hlt, hu, hn⟩ := hok o List.mem_cons_self
    obtain ⟨evs, M, ha, hm⟩ := aggregate_spec hv hn hu
    refine ⟨(o.1, evs, o.2.2) :: pl, max N M, by simp [h1], ?_, fun fuel hN u => ?_⟩
    · intro p hp
      rcases List.mem_cons.1 hp with rfl | hp
      · exact ⟨hlt, hm⟩
      · exact h2 p hp
    · simp only [List.map_cons, aggregateAll]
      rw [ha fuel (by omega)]
      simp only
      rw [h3 fuel (by omega)]
      rfl

theorem result_unique {d : SDoc} {ops : Recorded} {u v : Usage} (h1 : Result d ops u) (h2 : Result d ops v) : u = v := by
  obtain ⟨N, h1⟩ := h1
  obtain ⟨M, h2⟩ := h2
  have a := h1 (max N M) (by omega)
  have b := h2 (max N M) (by omega)
  rw [a] at b
  exact Option.some.inj b

theorem result_spec {d : SDoc} (hv : d.Valid) {ops : Recorded} (hok : RecordedOk d ops) {u : Usage}
    (hr : Result d ops u) : ∃ pl : List (Nat × List Ev × List Use),
      pl.map (fun p => (p.1, p.2.2)) = ops.map (fun o => (o.1, o.2.2)) ∧
      (∀ p ∈ pl, p.1 < 2 ^ 64 ∧ Matches d p.2.1 p.2.2) ∧
      u = runAll (pl.map fun p => (p.1, p.2.1)) Usage.init := by
  obtain ⟨pl, N, h1, h2, h3⟩ := aggregateAll_spec hv ops hok
  refine ⟨pl, h1, h2, result_unique hr ⟨N, fun fuel hN => h3 fuel hN _⟩⟩

theorem total_pl {ops : Recorded} {pl : List (Nat × List Ev × List Use)}
    (h : pl.map (fun p => (p.1, p.2.2)) = ops.map (fun o => (o.1, o.2.2))) (p : Use → Bool) :
    total ops p = (pl.map fun e => e.1 * e.2.2.countP p).sum ∧
    used ops p = !(pl.all fun e => decide (e.2.2.countP p = 0)) := by
  have e1 : total ops p = ((ops.map fun o => (o.1, o.2.2)).map fun e => e.1 * e.2.countP p).sum := by
    rw [List.map_map]; rfl
  have e2 : used ops p = (ops.map fun o => (o.1, o.2.2)).any fun e => e.2.any p := by
    rw [List.any_map]; rfl
  rw [e1, e2, ← h, List.map_map, List.any_map]
  refine ⟨rfl, ?_⟩
  rw [List.not_all_eq_any_not]
  congr 1
  funext e
  simp only [Function.comp]
  have : (e.2.2.any p = true) ↔ ¬ (e.2.2.countP p = 0) := by
    rw [List.countP_eq_zero, List.any_eq_true]
    constructor
    · rintro ⟨x, hx, hp⟩ hall
      exact hall x hx hp
    · intro hall
      obtain ⟨x, hx⟩ := Classical.not_forall.1 hall
      have hx' := Classical.not_imp.1 hx
      exact ⟨x, hx'.1, by simpa using hx'.2⟩
  by_cases h0 : e.2.2.countP p = 0
  · have : e.2.2.any p = false := by
      cases ha : e.2.2.any p
      · rfl
      · exact absurd h0 (this.1 ha)
    simp [h0, this]
  · simp [h0, this.2 h0]

/-- The count of one key, from the correspondence of counts. -/
theorem count_of_match {K : Type} [DecidableEq K] {ops : Recorded} {pl : List (Nat × List Ev × List Use)}
    (h : pl.map (fun p => (p.1, p.2.2)) = ops.map (fun o => (o.1, o.2.2))) (hlt : ∀ p ∈ pl, p.1 < 2 ^ 64)
    {ks : List Ev → List K} {k : K} {p : Use → Bool}
    (hm : ∀ e ∈ pl, (ks e.2.1).count k = e.2.2.countP p) :
    (multi ((pl.map fun p => (p.1, p.2.1)).map fun e => (e.1, ks e.2)) ([] : Counts K)).get k =
      if used ops p then some (total ops p % 2 ^ 64) else none := by
  obtain ⟨ht, hu⟩ := total_pl h p
  rw [get_multi]
  · rw [ht, hu, List.all_map, List.all_map, List.map_map, List.map_map]
    have e1 : pl.all ((fun e => decide (List.count k e.2 = 0)) ∘ (fun e => (e.1, ks e.2)) ∘ fun p => (p.1, p.2.1)) =
        pl.all fun e => decide (e.2.2.countP p = 0) := by
      rw [Bool.eq_iff_iff, List.all_eq_true, List.all_eq_true]
      constructor <;> intro h x hx <;> have h1 := h x hx <;> have h2 := hm x hx <;>
        simp only [Function.comp, decide_eq_true_eq] at h1 ⊢ <;> omega
    have e2 : pl.map ((fun e => e.1 * List.count k e.2) ∘ (fun e => (e.1, ks e.2)) ∘ fun p => (p.1, p.2.1)) =
        pl.map fun e => e.1 * e.2.2.countP p := by
      apply List.map_congr_left
      intro e he
      simp only [Function.comp]
      rw [hm e he]
    have e1' : (pl.all (((fun e => decide (List.count k e.2 = 0)) ∘ fun e => (e.1, ks e.2)) ∘ fun p => (p.1, p.2.1))) =
        pl.all fun e => decide (e.2.2.countP p = 0) := e1
    have e2' : (pl.map (((fun e => e.1 * List.count k e.2) ∘ fun e => (e.1, ks e.2)) ∘ fun p => (p.1, p.2.1))).sum =
        (pl.map fun e => e.1 * e.2.2.countP p).sum := congrArg List.sum e2
    rw [e1', e2']
    cases pl.all fun e => decide (e.2.2.countP p = 0) <;> simp [get_nil]
  · intro e he
    rw [List.map_map] at he
    obtain ⟨x, hx, rfl⟩ := List.mem_map.1 he
    exact hlt x hx

/-! ## More fuel gives the same result -/

theorem aggItems_mono {op : Operation} {s : Schema} {f g : Nat → Name → Usage → Option Usage}
    (h : ∀ sid ty u v, f sid ty u = some v → g sid ty u = some v) (parent : Name) (l : List Selection) :
    ∀ u v, aggItems f op s parent l u = some v → aggItems g op s parent l u = some v := by
  have hs : ∀ base sub u v, aggSub f base sub u = some v → aggSub g base sub u = some v := by
    intro base sub u v hv
    cases sub with
    | none => exact hv
    | some sid => exact h _ _ _ _ hv
  induction l with
  | nil => intro u v hv; exact hv
  | cons x rest ih =>
    intro u v hv
    cases x with
    | field name args sub =>
      unfold aggItems at hv ⊢
      split at hv
      · exact ih _ _ hv
      · split at hv
        · cases hv
        · try simp only at hv
          split at hv
          · cases hv
          · rename_i he
            try simp only
            rw [hs _ _ _ _ he]
            exact ih _ _ hv
    | spread fragment =>
      unfold aggItems at hv ⊢
      split at hv
      · exact ih _ _ hv
      · try simp only at hv
        split at hv
        · cases hv
        · rename_i he
          try simp only
          rw [h _ _ _ _ he]
          exact ih _ _ hv
    | inline on sid =>
      cases on with
      | none =>
        unfold aggItems at hv ⊢
        try simp only at hv
        split at hv
        · cases hv
        · rename_i he
          try simp only
          rw [h _ _ _ _ he]
          exact ih _ _ hv
      | some on =>
        unfold aggItems at hv ⊢
        try simp only at hv
        split at hv
        · cases hv
        · rename_i he
          try simp only
          rw [h _ _ _ _ he]
          exact ih _ _ hv

theorem aggInner_mono {op : Operation} {s : Schema} (n : Nat) : ∀ (m : Nat), n ≤ m → ∀ sid ty u v,
    aggInner op s n sid ty u = some v → aggInner op s m sid ty u = some v := by
  induction n with
  | zero => intro m _ sid ty u v h; cases h
  | succ n ih =>
    intro m hm sid ty u v h
    obtain ⟨k, rfl⟩ : ∃ k, m = k + 1 := ⟨m - 1, by omega⟩
    exact aggItems_mono (ih k (by omega)) _ _ _ _ h

theorem aggregateAll_mono {s : Schema} {n m : Nat} (hm : n ≤ m) (l : List (Nat × Doc)) : ∀ u v,
    aggregateAll n s l u = some v → aggregateAll m s l u = some v := by
  induction l with
  | nil => intro u v h; exact h
  | cons o rest ih =>
    intro u v h
    obtain ⟨inc, d⟩ := o
    unfold aggregateAll at h ⊢
    cases h1 : aggregate n (Operation.ofDoc d) s (u.setIncrement inc) with
    | none => rw [h1] at h; cases h
    | some w =>
      rw [h1] at h
      have h2 : aggregate m (Operation.ofDoc d) s (u.setIncrement inc) = some w := aggInner_mono n m hm _ _ _ _ h1
      rw [h2]
      exact ih _ _ h

/-- One computation gives the result. -/
theorem result_of {d : SDoc} {ops : Recorded} {u : Usage} (fuel : Nat)
    (h : aggregateAll fuel (Schema.ofDoc d) (ops.map fun o => (o.1, o.2.1)) Usage.init = some u) :
    Result d ops u := ⟨fuel, fun _ hm => aggregateAll_mono hm _ _ _ h⟩

end Verif.OpChecks
