import Verif.NullProp.Model
import Verif.DefaultMerge.Spec
/-!
# What merging two values should give

Values as trees, without ids.
-/
namespace Verif.DeepMerge

open Verif.DefaultMerge (Key)
open Verif.NullProp

/-- A value of the response with everything below it; `hidden` is a value replaced by null. -/
inductive Tree where
  | null
  | scalar (v : Val)
  | list (ts : List Tree)
  | obj (fs : List (Key × Tree))
  | hidden (t : Tree)

/-- Two values merged: every key of either object once and in order, lists item by item, nulls with nulls. -/
inductive Merges : Tree → Tree → Tree → Prop
  | null : Merges .null .null .null
  | list {as bs cs : List Tree} :
    as.length = bs.length → cs.length = as.length →
    (∀ (i : Nat) (a b c : Tree), as[i]? = some a → bs[i]? = some b → cs[i]? = some c → Merges a b c) →
    Merges (.list as) (.list bs) (.list cs)
  | obj {fs gs hs : List (Key × Tree)} (m : Key → Tree) :
    (hs.Pairwise fun a b => a.1.Before b.1) →
    (∀ k a b, (k, a) ∈ fs → (k, b) ∈ gs → Merges a b (m k)) →
    (∀ k t, (k, t) ∈ hs ↔ ((k, t) ∈ fs ∧ k ∉ gs.map Prod.fst) ∨ ((k, t) ∈ gs ∧ k ∉ fs.map Prod.fst) ∨
      (k ∈ fs.map Prod.fst ∧ k ∈ gs.map Prod.fst ∧ t = m k)) →
    Merges (.obj fs) (.obj gs) (.obj hs)

/-- What the code does besides: the items of the longer list are dropped or kept as they are, and a hidden value is
merged like any other, whether the result is hidden depends on the existing one. -/
inductive Joins : Tree → Tree → Tree → Prop
  | null : Joins .null .null .null
  | list {as bs cs : List Tree} :
    cs.length = as.length →
    (∀ (i : Nat) (a b c : Tree), as[i]? = some a → bs[i]? = some b → cs[i]? = some c → Joins a b c) →
    (∀ i, bs.length ≤ i → cs[i]? = as[i]?) →
    Joins (.list as) (.list bs) (.list cs)
  | obj {fs gs hs : List (Key × Tree)} (m : Key → Tree) :
    (hs.Pairwise fun a b => a.1.Before b.1) →
    (∀ k a b, (k, a) ∈ fs → (k, b) ∈ gs → Joins a b (m k)) →
    (∀ k t, (k, t) ∈ hs ↔ ((k, t) ∈ fs ∧ k ∉ gs.map Prod.fst) ∨ ((k, t) ∈ gs ∧ k ∉ fs.map Prod.fst) ∨
      (k ∈ fs.map Prod.fst ∧ k ∈ gs.map Prod.fst ∧ t = m k)) →
    Joins (.obj fs) (.obj gs) (.obj hs)
  | hidden {a b c : Tree} : Joins a b c → Joins (.hidden a) b (.hidden c)
  | new {a b c : Tree} : Joins a b c → Joins a (.hidden b) c

/-- Lists that meet have the same length and nothing that meets is hidden. -/
inductive Fit : Tree → Tree → Prop
  | null : Fit .null .null
  | list {as bs : List Tree} : as.length = bs.length → (∀ (i : Nat) (a b : Tree), as[i]? = some a → bs[i]? = some b → Fit a b) → Fit (.list as) (.list bs)
  | obj {fs gs : List (Key × Tree)} : (∀ k a b, (k, a) ∈ fs → (k, b) ∈ gs → Fit a b) → Fit (.obj fs) (.obj gs)

/-- Where the values meet there are two objects, two lists or two nulls, hidden or not. -/
inductive Meets : Tree → Tree → Prop
  | null : Meets .null .null
  | list {as bs : List Tree} : (∀ (i : Nat) (a b : Tree), as[i]? = some a → bs[i]? = some b → Meets a b) → Meets (.list as) (.list bs)
  | obj {fs gs : List (Key × Tree)} : (∀ k a b, (k, a) ∈ fs → (k, b) ∈ gs → Meets a b) → Meets (.obj fs) (.obj gs)
  | hidden {a b : Tree} : Meets a b → Meets (.hidden a) b
  | new {a b : Tree} : Meets a b → Meets a (.hidden b)

def isScalar : Val → Bool
  | .leaf _ | .unexpected | .packed _ => true
  | _ => false

/-- The values stand for these trees; the ids are those of their objects.  The fields of an object are in order. -/
inductive Reps (ps : List Data) : List Val → List Tree → List Id → Prop
  | nil : Reps ps [] [] []
  | null {vs : List Val} {ts : List Tree} {L : List Id} : Reps ps vs ts L → Reps ps (.null :: vs) (.null :: ts) L
  | scalar {v : Val} {vs : List Val} {ts : List Tree} {L : List Id} : isScalar v = true → Reps ps vs ts L → Reps ps (v :: vs) (.scalar v :: ts) L
  | list {id : Id} {ws vs : List Val} {us ts : List Tree} {L L' : List Id} :
    getList ps id = some ws → Reps ps ws us L → Reps ps vs ts L' → Reps ps (.list id :: vs) (.list us :: ts) (L ++ L')
  | obj {id : Id} {fs : List (Fld × Tree)} {vs : List Val} {ts : List Tree} {L L' : List Id} :
    getObj ps id = some (fs.map Prod.fst) → (fs.Pairwise fun a b => a.1.key.Before b.1.key) →
    Reps ps (fs.map (·.1.value)) (fs.map Prod.snd) L → Reps ps vs ts L' →
    Reps ps (.obj id :: vs) (.obj (fs.map fun p => (p.1.key, p.2)) :: ts) (id :: (L ++ L'))
  | hidden {id : Id} {w : Val} {vs : List Val} {u : Tree} {ts : List Tree} {L L' : List Id} :
    getInacc ps id = some w → Reps ps [w] [u] L → Reps ps vs ts L' → Reps ps (.inacc id :: vs) (.hidden u :: ts) (L ++ L')

end Verif.DeepMerge
