import Verif.OperationLimits.Model
/-
Specification for C05, independent of the visitor: the expansion of an operation replaces each fragment
spread and inline fragment by the fields it contains. The limits are stated on the expanded forest.
-/
namespace Verif.OperationLimits

/-- An expanded selection set: fields only. -/
inductive Forest where
  | nil
  | node (aliased : Bool) (sub rest : Forest)
  deriving DecidableEq, Repr

namespace Forest

def append : Forest → Forest → Forest
  | .nil, g => g
  | .node a s r, g => .node a s (append r g)

/-- Number of top-level fields. -/
def width : Forest → Nat
  | .nil => 0
  | .node _ _ r => 1 + width r

/-- Number of fields. -/
def size : Forest → Nat
  | .nil => 0
  | .node _ s r => 1 + size s + size r

/-- Number of aliased fields. -/
def aliases : Forest → Nat
  | .nil => 0
  | .node a s r => (if a then 1 else 0) + aliases s + aliases r

/-- Longest chain of nested fields. -/
def height : Forest → Nat
  | .nil => 0
  | .node _ s r => max (1 + height s) (height r)

end Forest

/-- `Expands fs sels f`: expanding all fragments in `sels` terminates with `f`. A derivation exists
exactly when every fragment reachable from `sels` is defined and no fragment reaches itself. -/
inductive Expands (fs : Frags) : Sels → Forest → Prop where
  | nil : Expands fs .nil .nil
  | field {a sub rest f g} : Expands fs sub f → Expands fs rest g →
      Expands fs (.field a sub rest) (.node a f g)
  | spread {n rest body f g} : fs.find n = some body → Expands fs body f → Expands fs rest g →
      Expands fs (.spread n rest) (f.append g)
  | inline {sub rest f g} : Expands fs sub f → Expands fs rest g →
      Expands fs (.inline sub rest) (f.append g)

/-- `n` is below the limit, or there is none. -/
def AtMost (n : Nat) (limit : Option Nat) : Prop := ∀ m, limit = some m → n ≤ m

/-- The expanded operation is within every configured limit. -/
structure WithinLimits (lim : Limits) (f : Forest) : Prop where
  depth : AtMost f.height lim.depth
  rootFields : AtMost f.width lim.rootFields
  aliases : AtMost f.aliases lim.aliases
  complexity : AtMost f.size lim.complexity

/-- A spread of `n` occurs in `sels` itself (not through another fragment). -/
inductive Mentions (n : Nat) : Sels → Prop where
  | here {rest} : Mentions n (.spread n rest)
  | fieldSub {a sub rest} : Mentions n sub → Mentions n (.field a sub rest)
  | fieldRest {a sub rest} : Mentions n rest → Mentions n (.field a sub rest)
  | spreadRest {m rest} : Mentions n rest → Mentions n (.spread m rest)
  | inlineSub {sub rest} : Mentions n sub → Mentions n (.inline sub rest)
  | inlineRest {sub rest} : Mentions n rest → Mentions n (.inline sub rest)

/-- Fragment `n` is reachable from `sels` through fragment spreads. -/
inductive Reaches (fs : Frags) : Sels → Nat → Prop where
  | direct {sels n} : Mentions n sels → Reaches fs sels n
  | step {sels m body n} : Mentions m sels → fs.find m = some body → Reaches fs body n →
      Reaches fs sels n

end Verif.OperationLimits
