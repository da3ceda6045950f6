import Verif.ExtCache.Model

/-!
# What the cache should do
-/
namespace Verif.ExtCache

/-- The latest value set for a key; `puts` has the latest first. -/
def Latest (s : State) (k : Nat) (e : Entry) : Prop :=
  ∃ newer older, s.puts = newer ++ (k, e) :: older ∧ ∀ p ∈ newer, p.1 ≠ k

/-- A value which is not yet too old. -/
def Fresh (now : Nat) (e : Entry) : Prop := ∀ t, e.expires = some t → now ≤ t

/-- The states of the program: what is reached by any actions in any order. -/
def Reached (s : State) : Prop := ∃ acts, s = run acts {}

/-- Whose step it is, for the steps of callers of `get`. -/
def ofCaller : Action → Option Nat
  | .call n _ => some n
  | .look n => some n
  | .enlist n => some n
  | .send n => some n
  | .expire n => some n
  | .cleanup n => some n
  | _ => none

end Verif.ExtCache
