import Verif.DirectiveDefs.Model

/-!
# What the definition of a composed directive has to be
-/
namespace Verif.DirectiveDefs

/-- Sorting by names: the same definitions, names in order. -/
def Sorts (sort : List Definition → List Definition) : Prop :=
  ∀ l, (sort l).Perm l ∧ (sort l).Pairwise (fun a b => a.name ≤ b.name)

/-- The definition is there and its subgraph asks for it. -/
def Wanted (asked : Nat → Nat → Bool) (definitions : List Definition) (n : Nat) (d : Definition) : Prop :=
  d ∈ definitions ∧ asked d.sg d.name = true ∧ d.name = n

/-- The definitions can be made one: arguments of the same name are the same, and repeatable are all or none. -/
structure Agree (wanted : Definition → Prop) : Prop where
  arguments : ∀ d, wanted d → ∀ e, wanted e → ∀ a ∈ d.arguments, ∀ b ∈ e.arguments, a.name = b.name →
    a.type = b.type ∧ a.default = b.default
  repeatable : ∀ d, wanted d → ∀ e, wanted e → d.repeatable = e.repeatable

/-- A definition has all arguments which another one requires. -/
def Covers (d : Definition) (wanted : Definition → Prop) : Prop :=
  ∀ e, wanted e → ∀ a ∈ e.arguments, a.type.nonNull = true → ∃ b ∈ d.arguments, b.name = a.name

/-- The first definition of the name, in the order of sorting. -/
def First (sort : List Definition → List Definition) (asked : Nat → Nat → Bool) (definitions : List Definition) (n : Nat)
    (d : Definition) : Prop :=
  ∃ before after, sort (definitions.filter (fun d => asked d.sg d.name)) = before ++ d :: after ∧ d.name = n ∧
    ∀ e ∈ before, e.name ≠ n

end Verif.DirectiveDefs
