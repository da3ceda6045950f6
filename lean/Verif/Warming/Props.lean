import Verif.Warming.Model

namespace Verif.Warming

/-- The number of operations to warm: `p` percent, rounded down. -/
def share (p n : Nat) : Nat := n * p / 100

/-- With 100 percent (or more) everything is warmed. What is missing: smaller percentages, see below, and the order,
which is that of the cache's iterator. -/
theorem C43_full_partial {α : Type} (c : Config) (he : c.enabled = true) (hw : c.warmOnReload = true)
    (hp : 100 ≤ c.warmingPercent) (values : List α) (n : Nat) : operationsToWarm c values n = values := by
  simp [operationsToWarm, he, hw, hp]

/-- Nothing is warmed if caching or warming is off. -/
theorem C43_off {α : Type} (c : Config) (h : c.enabled = false ∨ c.warmOnReload = false) (values : List α) (n : Nat) :
    operationsToWarm c values n = [] := by
  rcases h with h | h <;> simp [operationsToWarm, h]

/-- Below 100 percent nothing is warmed at all. -/
theorem C43_never_warms {α : Type} (c : Config) (hp : c.warmingPercent < 100) (values : List α) (n : Nat) :
    operationsToWarm c values n = [] := by
  unfold operationsToWarm
  split
  · rfl
  · rw [if_neg (by omega), Nat.div_eq_of_lt hp]
    simp

/-- So the number of operations warmed is right exactly for 100 percent and for caches so small that the share
rounds down to nothing. -/
theorem C43_wrong_iff {α : Type} (c : Config) (he : c.enabled = true) (hw : c.warmOnReload = true)
    (hp : c.warmingPercent ≤ 100) (values : List α) :
    (operationsToWarm c values values.length).length = share c.warmingPercent values.length ↔
      (c.warmingPercent = 100 ∨ values.length * c.warmingPercent < 100) := by
  unfold share
  by_cases h : 100 ≤ c.warmingPercent
  · have : c.warmingPercent = 100 := by omega
    rw [C43_full_partial c he hw h, this]
    simp
  · rw [C43_never_warms c (by omega)]
    simp only [List.length_nil]
    constructor
    · intro h0; right
      rw [eq_comm, Nat.div_eq_zero_iff] at h0
      omega
    · rintro (h0 | h0)
      · omega
      · rw [Nat.div_eq_of_lt h0]

/-- A cache of ten operations and 50 percent: five should be warmed, none is. -/
theorem C43_counterexample : ∃ (c : Config) (values : List Nat), c.enabled = true ∧ c.warmOnReload = true ∧
    share c.warmingPercent values.length = 5 ∧ operationsToWarm c values values.length = [] :=
  ⟨⟨true, true, 50⟩, List.range 10, rfl, rfl, by decide, by decide⟩

/-- With the multiplication first the claim would hold for all percentages. -/
theorem C43_fixed {α : Type} (values : List α) (p : Nat) (hp : p ≤ 100) :
    (values.take (values.length * p / 100)).length = share p values.length := by
  rw [List.length_take, share]
  apply Nat.min_eq_left
  apply Nat.div_le_of_le_mul
  rw [Nat.mul_comm]
  exact Nat.mul_le_mul_right _ hp

example : operationsToWarm ⟨true, true, 100⟩ [1, 2, 3] 3 = [1, 2, 3] := by decide

end Verif.Warming
