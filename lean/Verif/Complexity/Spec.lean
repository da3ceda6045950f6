import Verif.Complexity.Model
/-
Specification for C06 in unbounded integers: the charges of an operation, listed top-down. Every field is
charged once for each time it can occur in the response, that is the product of the list sizes of the
fields above it and of its own.
-/
namespace Verif.Complexity.Spec

mutual
/-- Number of scalars in a (nested) list, `null` and objects counting as one. -/
def leaves : JV → Nat
  | .arr vs => leavesList vs
  | .num _ | .atom | .obj _ => 1
def leavesList : List JV → Nat
  | [] => 0
  | v :: vs => leaves v + leavesList vs
end

mutual
/-- The charges of an input object value: one for each object, and those of each of its known fields. -/
def objectCharges (io : InObjects) : JV → Nat → Int → List Int
  | .arr vs, o, base => objectsCharges io vs o base
  | .obj m, o, base => base :: fieldsCharges io m o
  | .num _, _, _ | .atom, _, _ => []
def objectsCharges (io : InObjects) : List JV → Nat → Int → List Int
  | [], _, _ => []
  | v :: vs, o, base => objectCharges io v o base ++ objectsCharges io vs o base
def fieldsCharges (io : InObjects) : List (Nat × JV) → Nat → List Int
  | [], _ => []
  | (name, v) :: m, o =>
    (match (io o).find? (·.name == name) with
     | none => []
     | some f =>
       match f.object with
       | some o' => objectCharges io v o' f.cost.toInt
       | none => List.replicate (leaves v) f.cost.toInt) ++ fieldsCharges io m o
end

def argCharges (io : InObjects) (a : Arg) : List Int :=
  match a.value, a.object with
  | none, _ => [a.cost.toInt]
  | some v, some o => objectCharges io v o a.cost.toInt
  | some v, none => List.replicate (leaves v) a.cost.toInt

/-- `m` is the greatest of a non-empty list. -/
def Greatest (m : Nat) (l : List Nat) : Prop := m ∈ l ∧ ∀ x ∈ l, x ≤ m

/-- The slicing argument values given, in the order of the directive. -/
def given (ls : ListSize) (args : List Arg) : List Nat :=
  ls.slicingArguments.filterMap fun d => do
    let a ← args.find? (·.id == d)
    match a.value with
    | some (.num n) => some n.toNat
    | _ => none

/-- List size announced by `@listSize`: the assumed (or default) size when there is no slicing argument,
otherwise the greatest slicing value given (or the default). -/
inductive DirectiveSize (dflt : Nat) (ls : ListSize) (args : List Arg) : Nat → Prop where
  | assumed {n} : ls.slicingArguments = [] → ls.assumedSize = some n → DirectiveSize dflt ls args n.toNat
  | noAssumed : ls.slicingArguments = [] → ls.assumedSize = none → DirectiveSize dflt ls args dflt
  | noneGiven : ls.slicingArguments ≠ [] → ls.requireOneSlicingArgument = false → given ls args = [] →
      DirectiveSize dflt ls args dflt
  | greatest {m} : ls.slicingArguments ≠ [] →
      (ls.requireOneSlicingArgument = true → (given ls args).length = 1) → Greatest m (given ls args) →
      DirectiveSize dflt ls args m

/-- How many times a field occurs for each of its parents, and the size imposed on some children. -/
inductive FieldSize (dflt : Nat) (name : Nat) (isList : Bool) (args : List Arg) :
    Option ListSize → Option (Nat × List Nat) → Nat → Option (Nat × List Nat) → Prop where
  | imposed {ls n ns} : name ∈ ns → FieldSize dflt name isList args ls (some (n, ns)) n none
  | plainList {imp} : (∀ p, imp = some p → name ∉ p.2) → isList = true →
      FieldSize dflt name isList args none imp dflt none
  | single {imp} : (∀ p, imp = some p → name ∉ p.2) → isList = false →
      FieldSize dflt name isList args none imp 1 none
  | sized {imp ls n} : (∀ p, imp = some p → name ∉ p.2) → DirectiveSize dflt ls args n →
      ls.sizedFields = [] → FieldSize dflt name isList args (some ls) imp n none
  | sizes {imp ls n} : (∀ p, imp = some p → name ∉ p.2) → DirectiveSize dflt ls args n →
      ls.sizedFields ≠ [] → FieldSize dflt name isList args (some ls) imp 1 (some (n, ls.sizedFields))

/-- `Charges io dflt occ imp sels cs`: the charges of a selection set occurring `occ` times. -/
inductive Charges (io : InObjects) (dflt : Nat) : Int → Option (Nat × List Nat) → Sels → List Int → Prop where
  | nil {occ imp} : Charges io dflt occ imp .nil []
  | typename {occ imp rest cs} : Charges io dflt occ imp rest cs →
      Charges io dflt occ imp (.typename rest) (occ :: cs)
  | field {occ imp name weight isList ls args sub rest n imp' cs ds} :
      FieldSize dflt name isList args ls imp n imp' →
      Charges io dflt (occ * n) imp' sub cs →
      Charges io dflt occ imp rest ds →
      Charges io dflt occ imp (.field name weight isList ls args sub rest)
        ((occ * n) * weight.toInt :: (args.flatMap (argCharges io)).map ((occ * n) * ·) ++ cs ++ ds)

/-- The operation's cost is `t`. -/
def Cost (io : InObjects) (dflt : Nat) (mutation : Bool) (s : Sels) (t : Int) : Prop :=
  ∃ cs, Charges io dflt 1 none s cs ∧ t = (if mutation then 10 else 0) + cs.sum

end Verif.Complexity.Spec
