import Verif.IdSets.Model
/-! Sets of ids below a bound. -/
namespace Verif.IdSets

/-- A set of ids and the bound below which ids may be added. -/
structure IdSet where
  bound : Nat
  mem : Nat → Prop

/-- The set of a list of bits. -/
def asSet (c : Bits) : IdSet := ⟨c.length, fun i => c[i]? = some true⟩

/-- What each operation does to a set; `False` for a failure. -/
def Means (s : IdSet) : Op → IdSet → Prop
  | .put i, s' => i < s.bound ∧ s' = ⟨s.bound, fun j => j = i ∨ s.mem j⟩
  | .insert i, s' => i < s.bound ∧ s' = ⟨s.bound, fun j => j = i ∨ s.mem j⟩
  | .set i v, s' => i < s.bound ∧ s' = ⟨s.bound, fun j => if j = i then v = true else s.mem j⟩
  | .setRange a b v, s' => a ≤ b ∧ b ≤ s.bound ∧
      s' = ⟨s.bound, fun j => if a ≤ j ∧ j < b then v = true else s.mem j⟩
  | .grow n, s' => s' = ⟨Nat.max s.bound n, s.mem⟩
  | .setAll v, s' => s' = ⟨s.bound, fun j => v = true ∧ j < s.bound⟩
  | .not, s' => s' = ⟨s.bound, fun j => j < s.bound ∧ ¬ s.mem j⟩
  | .or c, s' => s' = ⟨Nat.max s.bound (asSet c).bound, fun j => s.mem j ∨ (asSet c).mem j⟩
  | .and c, s' => s' = ⟨s.bound, fun j => s.mem j ∧ (asSet c).mem j⟩
  | .xor c, s' => s' = ⟨Nat.max s.bound (asSet c).bound, fun j => ¬ (s.mem j ↔ (asSet c).mem j)⟩

/-- The sets reached by a sequence of operations. -/
inductive Reaches : IdSet → List Op → IdSet → Prop where
  | nil {s} : Reaches s [] s
  | cons {s s' s'' o t} : Means s o s' → Reaches s' t s'' → Reaches s (o :: t) s''

end Verif.IdSets
