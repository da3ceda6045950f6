/-! Byte strings as lists of numbers below 256, and fixed-width little-endian integers. -/
namespace Verif

abbrev Bytes := List Nat

/-- The `k` low bytes of `n`, least significant first (`to_le_bytes`; `to_ne_bytes` on the supported targets). -/
def le : Nat → Nat → Bytes
  | 0, _ => []
  | k + 1, n => n % 256 :: le k (n / 256)

theorem le_length (k n : Nat) : (le k n).length = k := by
  induction k generalizing n with
  | zero => rfl
  | succ k ih => simp [le, ih]

theorem le_inj (k : Nat) {a b : Nat} (ha : a < 256 ^ k) (hb : b < 256 ^ k) (h : le k a = le k b) : a = b := by
  induction k generalizing a b with
  | zero => simp at ha hb; omega
  | succ k ih =>
    simp only [le, List.cons.injEq] at h
    rw [Nat.pow_succ] at ha hb
    have := ih (a := a / 256) (b := b / 256) (by omega) (by omega) h.2
    omega

theorem le_append_inj {k a b : Nat} {x y : Bytes} (ha : a < 256 ^ k) (hb : b < 256 ^ k)
    (h : le k a ++ x = le k b ++ y) : a = b ∧ x = y := by
  have := List.append_inj h (by simp [le_length])
  exact ⟨le_inj k ha hb this.1, this.2⟩

/-- Splitting at the first zero byte. -/
theorem zero_split {a b x y : Bytes} (ha : ∀ c ∈ a, c ≠ 0) (hb : ∀ c ∈ b, c ≠ 0)
    (h : a ++ 0 :: x = b ++ 0 :: y) : a = b ∧ x = y := by
  induction a generalizing b with
  | nil =>
    cases b with
    | nil => simpa using h
    | cons c b =>
      simp at h
      exact (hb c (by simp) h.1.symm).elim
  | cons c a ih =>
    cases b with
    | nil =>
      simp at h
      exact (ha c (by simp) h.1).elim
    | cons d b =>
      simp at h
      obtain ⟨rfl, h⟩ := h
      obtain ⟨rfl, rfl⟩ := ih (fun c hc => ha c (by simp [hc])) (fun c hc => hb c (by simp [hc])) h
      exact ⟨rfl, rfl⟩

end Verif
