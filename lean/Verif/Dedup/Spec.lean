import Verif.Dedup.Model

/-! # What the streams of subscribers are to be -/
namespace Verif.Dedup

/-- The stream yields these items in order, where a lag error stands for some items which are lost. -/
inductive Gaps {α : Type} : List α → List (Option α) → Prop
  | nil : Gaps [] []
  | item {l : List α} {g : List (Option α)} {x : α} : Gaps l g → Gaps (l ++ [x]) (g ++ [some x])
  | lag {l : List α} {g : List (Option α)} {lost : List α} : Gaps l g → lost ≠ [] → Gaps (l ++ lost) (g ++ [none])

/-- What the extension gave for the channel. -/
def given {α : Type} (v : Variant) (c : Nat) : List (Input α) → List α
  | [] => []
  | .fetch c' (.items l) :: t => if c' = c then l ++ given v c t else given v c t
  | .fetch c' (.error x) :: t => if c' = c ∧ v = .current then x :: given v c t else given v c t
  | _ :: t => given v c t

/-- The extension ended the subscription of the channel, or it failed. -/
def isOver {α : Type} (c : Nat) : List (Input α) → Bool
  | [] => false
  | .fetch c' .finished :: t | .fetch c' (.error _) :: t => c' == c || isOver c t
  | _ :: t => isOver c t

/-- The items which the task is still going to handle. -/
def Task.remaining {α : Type} : Task α → List α
  | .sending l | .gone l => l
  | .ending (some x) => [x]
  | _ => []

/-- The state is reached by these inputs. -/
def Reaches {α : Type} (v : Variant) (is : List (Input α)) (s : St α) : Prop := run v start is = some s

/-- The stream of this channel with this number. -/
def St.recv? {α : Type} (s : St α) (c i : Nat) : Option (Chan α × Recv α) :=
  (s.chans[c]?).bind fun ch => (ch.recvs[i]?).map fun r => (ch, r)

/-- This holds before and after each step. -/
def Throughout {α : Type} (v : Variant) (P : St α → Prop) : St α → List (Input α) → Prop
  | s, [] => P s
  | s, i :: t => P s ∧ ∀ s', step v s i = some s' → Throughout v P s' t

/-- The subscriber is not too far behind. -/
def Follows {α : Type} (c i : Nat) (s : St α) : Prop :=
  ∀ ch r, s.recv? c i = some (ch, r) → ch.items.length ≤ r.pos + 1024

end Verif.Dedup
