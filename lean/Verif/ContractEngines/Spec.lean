import Verif.ContractEngines.Model
/-! What is expected of engines of contracts. -/
namespace Verif.ContractEngines

def Reached (env : Env) (s : State) : Prop := ∃ acts, s = run env acts {}

/-- Request `n` makes the engine of contract `k`. -/
def Builds (s : State) (n : Nat) (k : Key) : Prop :=
  s.reqs n = some ⟨k, .constructing⟩ ∨ ∃ sch, s.reqs n = some ⟨k, .adjusting sch⟩

/-- Request `n` has to get the engine of contract `k` yet. -/
def Waits (s : State) (n : Nat) (k : Key) : Prop := s.reqs n = some ⟨k, .start⟩ ∨ s.reqs n = some ⟨k, .waiting⟩

end Verif.ContractEngines
