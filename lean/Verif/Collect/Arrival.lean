import Verif.DefaultMerge.Model
import Verif.DefaultMerge.Spec
/-!
# Updates of an object and its serialisation

The updates of one object as they arrive, with the merge of `Verif.DefaultMerge`.
-/
namespace Verif.Collect
open Verif.DefaultMerge

/-- Updates of an object ingested one after the other, `write/mod.rs:83-122` with `merge.rs:74-121`:
each is merged in the fields present so far, which are then sorted. -/
inductive Ingest {V : Type} (mergeV : V → V → Option V) :
    List (Field V) → List (List (Field V)) → List (Field V) → Prop
  | done (fields) : Ingest mergeV fields [] fields
  | update {fields update merged fields' rest out}
      (hm : mergeObject mergeV fields update = some merged) (hs : SortOf fields' merged)
      (next : Ingest mergeV fields' rest out) : Ingest mergeV fields (update :: rest) out

/-- `SerializableResponseObject::serialize`, `read/ser/data.rs:36-57`: the keys written. -/
def serialise {V : Type} : List (Field V) → List Key
  | [] => []
  | f :: rest => if f.key.pos ≠ 0 then f.key :: rest.map Field.key else serialise rest

end Verif.Collect
