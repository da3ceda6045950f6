import Verif.DefaultMerge.Model
/-!
# What filling in defaults and merging fields should do

Stated by looking fields up, without the order in which the code walks the two lists.
-/
namespace Verif.DefaultMerge

/-- Position first, then key (numerically); does not use the model's `cmp`. -/
def Key.Before (a b : Key) : Prop := a.pos < b.pos ∨ (a.pos = b.pos ∧ a.key < b.key)

instance (a b : Key) : Decidable (a.Before b) := inferInstanceAs (Decidable (_ ∨ _))

/-- All the values stored under a key. -/
def valuesAt {V : Type} (l : List (Field V)) (k : Key) : List V :=
  (l.filter fun f => f.key = k).map Field.value

/-- Strictly ordered keys: how a response object is kept between two merges. -/
def Ordered {V : Type} (l : List (Field V)) : Prop :=
  l.Pairwise fun a b => a.key.Before b.key

/-- Sorted, possibly with equal keys: what `sort_unstable_by` guarantees. -/
def Sorted {V : Type} (l : List (Field V)) : Prop :=
  l.Pairwise fun a b => ¬ b.key.Before a.key

/-- `out` is a possible result of `sort_unstable_by` on `l`. -/
def SortOf {V : Type} (out l : List (Field V)) : Prop := out.Perm l ∧ Sorted out

/-- The claim: each key of either list occurs exactly once, with the existing value if there is one
and the default otherwise; no other key occurs. -/
def Filled {V : Type} (existing defaults out : List (Field V)) : Prop :=
  ∀ k : Key, valuesAt out k =
    match valuesAt existing k with
    | [] => (valuesAt defaults k).take 1
    | v :: _ => [v]

/-- How many defaults come after every existing key. -/
def trailing {V : Type} (existing defaults : List (Field V)) : List (Field V) :=
  defaults.filter fun d => existing.all fun e => e.key.Before d.key

/-- The claim for a merge of two sets of resolved fields: a key found in both has the merged value. -/
def Merged {V : Type} (mergeV : V → V → Option V) (existing new out : List (Field V)) : Prop :=
  ∀ k : Key,
    match valuesAt existing k, valuesAt new k with
    | [], ns => valuesAt out k = ns
    | es, [] => valuesAt out k = es
    | e :: _, n :: _ => ∃ v, mergeV e n = some v ∧ valuesAt out k = [v]

end Verif.DefaultMerge
