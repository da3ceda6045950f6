/-
Model of engine/operation/src/validation/complexity.rs:15-271 and
engine/schema/src/config/complexity_control.rs:44-78.

`usize` is `BitVec 64` with wrapping arithmetic: the release profile (Cargo.toml:311-315) does not enable
overflow checks. `i32` and `u32` are `BitVec 32`. Names and definition ids are numbers. The cost of a
field, argument or input field is given already resolved: `cost().unwrap_or_else(|| cost_for_type(..))`
(lines 100-104, 126, 155, 259-271), that is an arbitrary `i32`. The only error, line 240, is `none`.
-/
namespace Verif.Complexity

abbrev Word := BitVec 64

/-- A JSON value (`serde_json::Value`), as far as the cost computation looks at it. `num n` is a number
that deserialises to a `usize`; `null`, other numbers, strings and booleans are `atom`. -/
inductive JV where
  | num (n : Word)
  | atom
  | arr (vs : List JV)
  | obj (fields : List (Nat × JV))

/-- An input field: its resolved cost and, when its type is an input object, that object. -/
structure InField where
  name : Nat
  cost : BitVec 32
  object : Option Nat

/-- The input objects of the schema. -/
abbrev InObjects := Nat → List InField

/-- `as usize` of an `i32`. -/
def asUsize (i : BitVec 32) : Word := i.signExtend 64

mutual
/-- `cost_for_input_scalar`, lines 169-174. -/
def costForInputScalar (item : Word) : JV → Word
  | .arr vs => costForInputScalars item vs
  | .num _ | .atom | .obj _ => item
/-- the `sum` of line 171 -/
def costForInputScalars (item : Word) : List JV → Word
  | [] => 0
  | v :: vs => costForInputScalar item v + costForInputScalars item vs
end

mutual
/-- `cost_for_object_value`, lines 139-167. -/
def costForObjectValue (io : InObjects) : JV → (object : Nat) → (base : Word) → Word
  | .arr vs, o, base => costForObjectValues io vs o base
  | .obj m, o, base => base + costForFields io m o
  | .num _, _, _ | .atom, _, _ => 0
/-- the `sum` of lines 145-148 -/
def costForObjectValues (io : InObjects) : List JV → Nat → Word → Word
  | [], _, _ => 0
  | v :: vs, o, base => costForObjectValue io v o base + costForObjectValues io vs o base
/-- the loop of lines 151-162; `overall_cost` is accumulated by the caller -/
def costForFields (io : InObjects) : List (Nat × JV) → Nat → Word
  | [], _ => 0
  | (name, v) :: m, o =>
    (match (io o).find? (·.name == name) with
     | none => 0
     | some field =>
       match field.object with
       | some o' => costForObjectValue io v o' (asUsize field.cost)
       | none => costForInputScalar (asUsize field.cost) v) + costForFields io m o
end

/-- A field argument with its definition id, resolved cost, input object (if its type is one) and value;
`value = none` when the value cannot be converted to JSON (lines 128-131). -/
structure Arg where
  id : Nat
  cost : BitVec 32
  object : Option Nat
  value : Option JV

/-- `cost_for_argument`, lines 123-137. -/
def costForArgument (io : InObjects) (a : Arg) : Word :=
  match a.value with
  | none => asUsize a.cost
  | some v =>
    match a.object with
    | some o => costForObjectValue io v o (asUsize a.cost)
    | none => costForInputScalar (asUsize a.cost) v

/-- `@listSize`. -/
structure ListSize where
  assumedSize : Option (BitVec 32)
  slicingArguments : List Nat
  requireOneSlicingArgument : Bool
  sizedFields : List Nat

/-- `FieldMultipliers`, lines 198-202. -/
structure FieldMultipliers where
  multiplier : Word
  fields : List Nat

/-- `ListSizeHandling`, lines 176-180. -/
inductive ListSizeHandling where
  | thisFieldIsTheList (count : Word)
  | childFieldsAreTheList (m : FieldMultipliers)

/-- `Option::<usize>::deserialize(value).ok().flatten()`, line 232. -/
def asSize : Option JV → Option Word
  | some (.num n) => some n
  | _ => none

/-- The values of lines 226-234. -/
def slicingValues (ls : ListSize) (args : List Arg) : List Word :=
  ls.slicingArguments.filterMap fun d =>
    match args.find? (·.id == d) with
    | none => none
    | some a => asSize a.value

/-- `Iterator::max`. -/
def maxWord : List Word → Option Word
  | [] => none
  | w :: ws => some (ws.foldl (fun a b => if a ≤ b then b else a) w)

/-- `calculate_child_count`, lines 204-257. -/
def calculateChildCount (defaultListSize : Word) (isList : Bool) (ls : Option ListSize) (args : List Arg)
    (preset : Option Word) : Option ListSizeHandling :=
  match preset with
  | some size => some (.thisFieldIsTheList size)
  | none =>
    match ls with
    | none => some (.thisFieldIsTheList (if isList then defaultListSize else 1))
    | some d => do
      -- line 222: `unwrap_or(default as u32) as usize`
      let multiplier : Word := (d.assumedSize.getD (defaultListSize.truncate 32)).zeroExtend 64
      let multiplier ←
        if d.slicingArguments.isEmpty then some multiplier
        else
          let vals := slicingValues d args
          if d.requireOneSlicingArgument && vals.length != 1 then none
          else some ((maxWord vals).getD defaultListSize)
      if d.sizedFields.isEmpty then some (.thisFieldIsTheList multiplier)
      else some (.childFieldsAreTheList ⟨multiplier, d.sizedFields⟩)

/-- A bound selection set. -/
inductive Sels where
  | nil
  | typename (rest : Sels)
  | field (name : Nat) (weight : BitVec 32) (isList : Bool) (listSize : Option ListSize)
      (args : List Arg) (sub rest : Sels)

/-- `selection_set_complexity` and `field_complexity`, lines 68-121. -/
def selectionSetComplexity (io : InObjects) (dflt : Word) : Sels → Option FieldMultipliers → Option Word
  | .nil, _ => some 0
  | .typename rest, fm => do
    let r ← selectionSetComplexity io dflt rest fm
    pure (1 + r)
  | .field name weight isList ls args sub rest, fm => do
    let preset := match fm with
      | none => none
      | some m => if m.fields.contains name then some m.multiplier else none
    let count ← calculateChildCount dflt isList ls args preset
    let argumentCost := (args.map (costForArgument io)).foldr (· + ·) 0
    let (thisCount, kids) : Word × Option FieldMultipliers := match count with
      | .thisFieldIsTheList n => (n, none)
      | .childFieldsAreTheList m => (1, some m)
    let childCost ← selectionSetComplexity io dflt sub kids
    let r ← selectionSetComplexity io dflt rest fm
    pure (thisCount * (asUsize weight + argumentCost + childCost) + r)

/-- `ComplexityControl`, complexity_control.rs:2-12. -/
inductive Control where
  | disabled
  | enforce (limit listSize : Word)
  | measure (limit : Option Word) (listSize : Word)

/-- `From<&ComplexityControlConfig>`, complexity_control.rs:44-78. `mode = some true` is enforce,
`some false` is measure. -/
def Control.ofConfig (mode : Option Bool) (limit listSize : Option Word) : Control :=
  let size := listSize.getD 10
  match mode, limit with
  | none, _ => .disabled
  | some true, some l => .enforce l size
  | some true, none => .measure none size
  | some false, l => .measure l size

/-- `calculate_complexity`, lines 32-58. -/
def calculateComplexity (io : InObjects) (listSize : Word) (mutation : Bool) (s : Sels) : Option Word := do
  let c ← selectionSetComplexity io listSize s none
  pure ((if mutation then 10 else 0) + c)

/-- Result of the check. -/
inductive Outcome where
  | accepted (cost : Option Word)
  | limitReached
  | expectedOneSlicingArgument
  deriving DecidableEq

/-- `compute_and_validate_complexity`, lines 15-30. -/
def computeAndValidate (io : InObjects) (control : Control) (mutation : Bool) (s : Sels) : Outcome :=
  match control with
  | .disabled => .accepted none
  | .enforce limit size =>
    match calculateComplexity io size mutation s with
    | none => .expectedOneSlicingArgument
    | some c => if c > limit then .limitReached else .accepted (some c)
  | .measure _ size =>
    match calculateComplexity io size mutation s with
    | none => .expectedOneSlicingArgument
    | some c => .accepted (some c)

end Verif.Complexity
