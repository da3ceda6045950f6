import Verif.AccessToken.Model
/-! What an access token is. -/
namespace Verif.AccessToken

/-- The code points with the property `White_Space`, as listed in Unicode's `PropList.txt`. -/
def spaces : List Nat :=
  [9, 10, 11, 12, 13, 32, 133, 160, 5760, 8192, 8193, 8194, 8195, 8196, 8197, 8198, 8199, 8200, 8201, 8202, 8232, 8233, 8239, 8287, 12288]

/-- `t` is `s` without the space around it. -/
def Inner (s t : List Nat) : Prop :=
  ∃ a b, s = a ++ t ++ b ∧ (∀ c ∈ a, c ∈ spaces) ∧ (∀ c ∈ b, c ∈ spaces) ∧
    (∀ c t', t = c :: t' → c ∉ spaces) ∧ (∀ t' c, t = t' ++ [c] → c ∉ spaces)

/-- No control characters but the tab. -/
def Clean (t : List Nat) : Prop := ∀ c ∈ t, c = 9 ∨ (32 ≤ c ∧ c ≠ 127)

end Verif.AccessToken
