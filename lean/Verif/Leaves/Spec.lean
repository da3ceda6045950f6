import Verif.Leaves.Model

/-!
# What the value of a leaf field is

Completion of values of the GraphQL specification (6.4.3, 6.4.4), for lists of scalars and enums, with inaccessible values of
enums hidden without an error.
-/
namespace Verif.Leaves

mutual
/-- JSON as it is. -/
def same : Json → Out
  | .null => .null
  | .bool b => .bool b
  | .num (.int i) => .int i
  | .num (.float q) => .float q
  | .str s => .str s
  | .list js => .list (sameList js)
  | .map es => .map (sameMap es)
def sameList : List Json → List Out
  | [] => []
  | j :: js => same j :: sameList js
def sameMap : List (Text × Json) → List (Text × Out)
  | [] => []
  | (k, j) :: es => (k, same j) :: sameMap es
end

/-- The value of a leaf that is not null, hidden, or an error. -/
inductive Coerced where
  | value (o : Out)
  | hidden
  | error

/-- Result coercion. Whole numbers of 32 bits are integers, however they are written. -/
def coerce (asF64 : Int → Rat) : Leaf → Json → Coerced
  | .boolean, .bool b => .value (.bool b)
  | .string, .str s => .value (.str s)
  | .int, .num (.int i) => if -2147483648 ≤ i ∧ i ≤ 2147483647 then .value (.int i) else .error
  | .int, .num (.float q) =>
    if q.den = 1 ∧ -2147483648 ≤ q.num ∧ q.num ≤ 2147483647 then .value (.int q.num) else .error
  | .float, .num (.float q) => .value (.float q)
  | .float, .num (.int i) => .value (.float (asF64 i))
  | .unknown, j => .value (same j)
  | .enum vs, .str s => if (s, true) ∈ vs then .hidden else if (s, false) ∈ vs then .value (.str s) else .error
  | _, _ => .error

/-- The value of a position: `none` when it cannot be null and would have to. -/
def orNull (required : Bool) : Option Out := if required then none else some .null

/-- The values, if all are there. -/
def collect : List (Option Out) → Option (List Out)
  | [] => some []
  | none :: _ => none
  | some o :: os => (collect os).map (o :: ·)

/-- The results for the items of a list. -/
def eachItem (f : List Nat → Json → Option Out × List (List Nat)) (p : List Nat) (i : Nat) :
    List Json → List (Option Out × List (List Nat))
  | [] => []
  | j :: js => f (i :: p) j :: eachItem f p (i + 1) js

/-- Value completion, with the paths of errors. -/
def complete (asF64 : Int → Rat) (leaf : Leaf) : Ty → List Nat → Json → Option Out × List (List Nat)
  | ty, p, .null => if ty.required then (none, [p]) else (some .null, [])
  | .base required, p, j =>
    match coerce asF64 leaf j with
    | .value o => (some o, [])
    | .hidden => (orNull required, [])
    | .error => (orNull required, [p])
  | .list required inner, p, .list js =>
    let rs := eachItem (complete asF64 leaf inner) p 0 js
    match collect (rs.map (·.1)) with
    | some os => (some (.list os), rs.flatMap (·.2))
    | none => (orNull required, rs.flatMap (·.2))
  | .list required _, p, _ => (orNull required, [p])

/-- The values of an enum have different names. -/
def NamesOnce : Leaf → Prop
  | .enum vs => (vs.map (·.1)).Nodup
  | _ => True

mutual
/-- All numbers that are not written as integers satisfy `P`. -/
def FloatsAre (P : Rat → Prop) : Json → Prop
  | .num (.float q) => P q
  | .list js => FloatsAreList P js
  | _ => True
def FloatsAreList (P : Rat → Prop) : List Json → Prop
  | [] => True
  | j :: js => FloatsAre P j ∧ FloatsAreList P js
end

/-- Where the comparison of the program is right: whole numbers are not below the integers of 32 bits, and not their
largest. -/
def Fits (q : Rat) : Prop := q.den = 1 → -2147483648 ≤ q.num ∧ q.num ≠ 2147483647

/-- The numbers of fields of type `Int` are such. -/
def NumbersFit : Leaf → Json → Prop
  | .int, j => FloatsAre Fits j
  | _, _ => True

/-- A list or an object that is not empty. -/
def NotEmpty : Json → Prop
  | .list (_ :: _) => True
  | .map (_ :: _) => True
  | _ => False

/-- In place of an item of a list `[Int!]` or `[Float!]` stands a list or an object that is not empty. -/
inductive Nested (leaf : Leaf) : Ty → Json → Prop where
  | here {r : Bool} {js : List Json} {j : Json} : (leaf = .int ∨ leaf = .float) → j ∈ js → NotEmpty j →
      Nested leaf (.list r (.base true)) (.list js)
  | item {r : Bool} {inner : Ty} {js : List Json} {j : Json} : j ∈ js → Nested leaf inner j →
      Nested leaf (.list r inner) (.list js)

end Verif.Leaves
