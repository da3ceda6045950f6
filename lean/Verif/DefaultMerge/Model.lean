/-!
# Merging fields into a response object

Model of `crates/engine/src/response/write/merge.rs`.

Simplifications:
* `PositionedResponseKey` (`crates/engine/operation/src/model/response_key.rs:24-29`) derives `Ord`
  on `(query_position, response_key)`.  `query_position` is an `Option<NonZero<u16>>`; as the code
  itself does at lines 33-35 we read `None` as `0`, which also is its place in the derived order.
  Positions and keys are natural numbers instead of `u16`.
* The fields of an object are a list of `(key, value)`; the value type is arbitrary.
* `sort_unstable_by` (lines 69 and 118) is not modelled as a function: the theorems quantify over
  every sorted permutation of the list to be sorted.
-/
namespace Verif.DefaultMerge

/-- `PositionedResponseKey`, `response_key.rs:24-29`; `pos = 0` is `None`. -/
structure Key where
  pos : Nat
  key : Nat
  deriving DecidableEq, Repr

/-- The derived `Ord::cmp` of `PositionedResponseKey`, `response_key.rs:24`. -/
def Key.cmp (a b : Key) : Ordering :=
  match compare a.pos b.pos with
  | .lt => .lt
  | .gt => .gt
  | .eq => compare a.key b.key

/-- `PositionedResponseKey::with_query_position_if`, `response_key.rs:32-41`: the position is masked
with all ones or all zeroes. -/
def Key.withPositionIf (k : Key) (included : Bool) : Key :=
  ⟨if included then k.pos else 0, k.key⟩

/-- `ResponseObjectField`, `crates/engine/src/response/value.rs`. -/
structure Field (V : Type) where
  key : Key
  value : V
  deriving DecidableEq, Repr

/-- What the loop of `merge_with_default_object` leaves behind: the fields pushed at the end of
`existing_fields`, the variable `key` and what is left in the iterator of defaults. -/
structure Scan (V : Type) where
  pushed : List (Field V)
  key : Key
  rest : List (Field V)

/-- The loop of `merge_with_default_object`, `merge.rs:24-62`.  The first list is
`existing_fields[i..n]`, then come `(key, default_field)` and the rest of the iterator. -/
def scan {V : Type} : List (Field V) → Field V → List (Field V) → Scan V
  | [], d, ds => ⟨[⟨d.key, d.value⟩], d.key, ds⟩
  | e :: es, d, ds =>
    match e.key.cmp d.key with
    | .lt => scan es d ds
    | .gt =>
      match ds with
      | [] => ⟨[⟨d.key, d.value⟩], d.key, []⟩
      | d' :: ds' =>
        let r := scan (e :: es) d' ds'
        ⟨⟨d.key, d.value⟩ :: r.pushed, r.key, r.rest⟩
    | .eq =>
      match ds with
      | [] => ⟨[], d.key, []⟩
      | d' :: ds' => scan es d' ds'
termination_by es _ ds => es.length + ds.length

/-- `merge_with_default_object`, `merge.rs:11-72`, up to the final sort: the fields left in
`existing_fields` before line 69.  Lines 63-68 push the values of the remaining defaults under the
variable `key`. -/
def mergeDefaults {V : Type} (existing defaults : List (Field V)) : List (Field V) :=
  match defaults with
  | [] => existing
  | d :: ds =>
    let r := scan existing d ds
    existing ++ r.pushed ++ r.rest.map (fun f => ⟨r.key, f.value⟩)

/-- The loop of `recursive_merge_object`, `merge.rs:86-116`, and the `append` of line 117.  `mergeV`
is `recursive_merge_value` (lines 123-148): it either panics (`none`) or changes the existing value
in place.  The result is `existing_fields` before the sort of line 118, split in the (updated)
existing fields and the ones pushed at the end. -/
def mergeLoop {V : Type} (mergeV : V → V → Option V) :
    List (Field V) → Field V → List (Field V) → Option (List (Field V) × List (Field V))
  | [], d, ds => some ([], d :: ds)
  | e :: es, d, ds =>
    match e.key.cmp d.key with
    | .lt => (mergeLoop mergeV es d ds).map fun r => (e :: r.1, r.2)
    | .gt =>
      match ds with
      | [] => some (e :: es, [d])
      | d' :: ds' => (mergeLoop mergeV (e :: es) d' ds').map fun r => (r.1, d :: r.2)
    | .eq =>
      match mergeV e.value d.value with
      | none => none
      | some v =>
        match ds with
        | [] => some (⟨e.key, v⟩ :: es, [])
        | d' :: ds' => (mergeLoop mergeV es d' ds').map fun r => (⟨e.key, v⟩ :: r.1, r.2)
termination_by es _ ds => es.length + ds.length

/-- `recursive_merge_object`, `merge.rs:74-121`, up to the final sort. -/
def mergeObject {V : Type} (mergeV : V → V → Option V) (existing new : List (Field V)) :
    Option (List (Field V)) :=
  match new with
  | [] => some existing
  | d :: ds => (mergeLoop mergeV existing d ds).map fun r => r.1 ++ r.2

end Verif.DefaultMerge
