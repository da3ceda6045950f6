import Verif.Complexity.Lemmas

namespace Verif.Complexity
open Spec

/-- C06. The cost computed is the cost of the operation modulo 2^64, and there is one exactly when every
field that requires one slicing argument has exactly one. (A default list size of 2^32 or more is
truncated by `as u32` on line 222, hence the hypothesis.) -/
theorem C06_cost_modulo (io : InObjects) (size : Word) (hsize : size.toNat < 2 ^ 32) (mutation : Bool)
    (s : Sels) :
    (∀ t, Cost io size.toNat mutation s t →
      calculateComplexity io size mutation s = some (BitVec.ofInt 64 t)) ∧
    (calculateComplexity io size mutation s = none ↔ ∀ t, ¬ Cost io size.toNat mutation s t) := by
  have hs : ∀ t, Cost io size.toNat mutation s t →
      calculateComplexity io size mutation s = some (BitVec.ofInt 64 t) := by
    rintro t ⟨cs, hcs, rfl⟩
    obtain ⟨w, hw, hsum⟩ := charges_sound io size hsize s 1 none cs hcs
    have : W cs.sum = w := by
      rw [hsum, W_one]; exact BitVec.one_mul w
    simp only [calculateComplexity, hw, Option.bind_eq_bind, Option.bind_some]
    show some _ = some (W _)
    rw [W_add, this]
    cases mutation <;> rfl
  refine ⟨hs, ?_⟩
  constructor
  · intro h t ht
    rw [hs t ht] at h; exact nomatch h
  · intro h
    cases hc : selectionSetComplexity io size s none with
    | none => simp [calculateComplexity, hc]
    | some w =>
      obtain ⟨cs, hcs⟩ := charges_complete io size hsize s 1 none w hc
      exact (h _ ⟨cs, hcs, rfl⟩).elim

/-- C06, when the cost fits in 64 bits: in enforce mode the operation is accepted exactly when its cost
is at most the limit. Missing from the full property: costs of 2^64 and more, see `C06_overflow`. -/
theorem C06_enforced_partial (io : InObjects) (limit size : Word) (hsize : size.toNat < 2 ^ 32)
    (mutation : Bool) (s : Sels) (t : Int) (ht : Cost io size.toNat mutation s t)
    (h0 : 0 ≤ t) (h1 : t < 2 ^ 64) :
    (∃ c, computeAndValidate io (.enforce limit size) mutation s = .accepted c) ↔ t ≤ limit.toNat := by
  have := (C06_cost_modulo io size hsize mutation s).1 t ht
  simp only [computeAndValidate, this]
  have hn : (BitVec.ofInt 64 t).toNat = t.toNat := by
    rw [BitVec.toNat_ofInt]; omega
  have hlt : (BitVec.ofInt 64 t > limit) ↔ ¬ (t ≤ limit.toNat) := by
    show limit.toNat < (BitVec.ofInt 64 t).toNat ↔ _
    rw [hn]; omega
  by_cases hle : t ≤ limit.toNat
  · rw [if_neg (by rw [hlt]; simpa using hle)]
    simp [hle]
  · rw [if_pos (hlt.2 hle)]
    simp [hle]

/-- C06. Whatever the cost, an operation refused for its cost exceeds the limit, unless its cost is
negative (negative weights). -/
theorem C06_refused_exceeds_partial (io : InObjects) (limit size : Word) (hsize : size.toNat < 2 ^ 32)
    (mutation : Bool) (s : Sels) (t : Int) (ht : Cost io size.toNat mutation s t) (h0 : 0 ≤ t)
    (h : computeAndValidate io (.enforce limit size) mutation s = .limitReached) : limit.toNat < t := by
  have := (C06_cost_modulo io size hsize mutation s).1 t ht
  simp only [computeAndValidate, this] at h
  split at h
  · rename_i hlt
    have hlt : limit.toNat < (BitVec.ofInt 64 t).toNat := hlt
    rw [BitVec.toNat_ofInt] at hlt
    omega
  · exact nomatch h

/-- The configuration only disables enforcement when it does not ask for it or gives no limit. -/
theorem C06_config_enforces (limit : Word) (listSize : Option Word) :
    Control.ofConfig (some true) (some limit) listSize = .enforce limit (listSize.getD 10) := rfl

/-- A list field `name(first: n)` of an object type with `@listSize(slicingArguments: ["first"])`. -/
def sliced (name : Nat) (n : Word) (sub : Sels) : Sels :=
  .field name 1#32 true (some ⟨none, [0], true, []⟩) [⟨0, 0#32, none, some (.num n)⟩] sub .nil

/-- `{ a(first: 2^30) { b(first: 2^30-1) { c(first: 2^30) { x } } } }`; all three are valid `Int`s. -/
def overflowing : Sels :=
  sliced 1 (BitVec.ofNat 64 (2 ^ 30)) (sliced 2 (BitVec.ofNat 64 (2 ^ 30 - 1))
    (sliced 3 (BitVec.ofNat 64 (2 ^ 30)) (.field 4 0#32 false none [] .nil .nil)))

theorem sliced_charges (io : InObjects) (dflt : Nat) (occ : Int) (name : Nat) (n : Word) (sub : Sels)
    (cs : List Int) (h : Charges io dflt (occ * n.toNat) none sub cs) :
    Charges io dflt occ none (sliced name n sub)
      ((occ * n.toNat) * 1 :: [(occ * n.toNat) * 0] ++ cs ++ []) :=
  .field (weight := 1#32) (.sized (by simp) (.greatest (by simp) (by simp [given]) (by simp [given, Greatest])) rfl)
    h .nil

/-- C06 is false: this operation costs 2^90 and is accepted whatever the limit. -/
theorem C06_overflow (io : InObjects) (limit size : Word) :
    Cost io size.toNat false overflowing (2 ^ 90) ∧
    computeAndValidate io (.enforce limit size) false overflowing = .accepted (some 0) := by
  constructor
  · refine ⟨_, sliced_charges _ _ _ _ _ _ _ (sliced_charges _ _ _ _ _ _ _ (sliced_charges _ _ _ _ _ _ _
      (.field (.single (by simp) rfl) .nil .nil))), ?_⟩
    simp
  · have h : calculateComplexity io size false overflowing = some 0 := by
      simp [overflowing, sliced, calculateComplexity, selectionSetComplexity, calculateChildCount,
        slicingValues, asSize, maxWord, costForArgument, costForInputScalar, asUsize]
    simp only [computeAndValidate, h]
    rw [if_neg]
    simp

/-- Non-vacuity of the partial theorems: `{ a(first: 3) { x } }` costs 3. -/
example (io : InObjects) : Cost io 10 false (sliced 1 3#64 (.field 4 0#32 false none [] .nil .nil)) 3 :=
  ⟨_, sliced_charges _ _ _ _ _ _ _ (.field (.single (by simp) rfl) .nil .nil), by simp⟩
example (io : InObjects) : computeAndValidate io (.enforce 2#64 10#64) false
    (sliced 1 3#64 (.field 4 0#32 false none [] .nil .nil)) = .limitReached := rfl
example (io : InObjects) : computeAndValidate io (.enforce 3#64 10#64) false
    (sliced 1 3#64 (.field 4 0#32 false none [] .nil .nil)) = .accepted (some 3#64) := rfl

end Verif.Complexity
