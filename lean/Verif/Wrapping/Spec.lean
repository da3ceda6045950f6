import Verif.Common.GType
import Verif.Wrapping.Model
/-
Specification for C01 and C02: what the API calls should do to a GraphQL type.
-/
namespace Verif.Wrapping
open Verif.Common


/-- Calls a client of the crate can make on a wrapping, including through `MutableWrapping`. -/
inductive Op where
  | list | listNonNull | nonNull | withoutList | withoutNonNull
  | push (lw : ListWrapping) | pop
  deriving DecidableEq, Repr

/-- What each call should do to the GraphQL type. Pushing an eleventh list is refused. -/
def specStep (t : GType) : Op → Option GType
  | .list | .push .list => if t.depth < 10 then some (.list t) else none
  | .listNonNull | .push .listNonNull => if t.depth < 10 then some (.nonNull (.list t)) else none
  | .nonNull => some (if t.required then t else .nonNull t)
  | .withoutList | .pop => some (t.item?.getD t)
  | .withoutNonNull => some t.nullable

def specRun (ops : List Op) : Option GType := ops.foldlM specStep .named

/-- The same call on the packed word. `without_list` on a non-list returns `None` to the caller, who
keeps the wrapping he had. -/
def step (w : Wrapping) : Op → Option Wrapping
  | .list => w.list
  | .listNonNull => w.listNonNull
  | .nonNull => some w.nonNull
  | .withoutList => w.withoutList.map (·.getD w)
  | .withoutNonNull => w.withoutNonNull
  | .push lw => w.pushOutermost lw
  | .pop => w.popOutermost.map (·.2)

def run (ops : List Op) : Option Wrapping := ops.foldlM step .new

/-- The GraphQL type a reader reconstructs from `inner_is_required` and `list_wrappings`. -/
def readBack (inner : Bool) (ls : List ListWrapping) : GType :=
  ls.foldl (fun t lw => match lw with
    | .list => .list t
    | .listNonNull => .nonNull (.list t))
    (if inner then .nonNull .named else .named)

/-- The wrappers of a type from the inside out. -/
def wrappers : GType → List WrappingType
  | .named => []
  | .list t => wrappers t ++ [.list]
  | .nonNull t => wrappers t ++ [.nonNull]

/-- Wrappings that the API can produce. -/
def Reachable (w : Wrapping) (t : GType) : Prop := ∃ ops, run ops = some w ∧ specRun ops = some t

end Verif.Wrapping
