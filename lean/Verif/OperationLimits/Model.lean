/-
Model of engine/operation/src/validation/after_parsing.rs:41-166 (the operation limits visitor).

Spans are dropped. Counters are natural numbers: they count visited nodes one at a time, so a `usize`
cannot overflow in a run that terminates in practice. A limit that is not configured
(`usize::MAX`, lines 48-54) is `none`.
-/
namespace Verif.OperationLimits

/-- A selection set as parsed: a list of fields (`aliased` = has an alias), fragment spreads and inline
fragments (`cynic_parser::executable::Selection`). One inductive type for the list and its items. -/
inductive Sels where
  | nil
  | field (aliased : Bool) (sub rest : Sels)
  | spread (name : Nat) (rest : Sels)
  | inline (sub rest : Sels)
  deriving DecidableEq, Repr

/-- The fragment definitions of the document. -/
abbrev Frags := List (Nat × Sels)

/-- `FragmentSpread::fragment()`: the definition with that name, if any. -/
def Frags.find (fs : Frags) (n : Nat) : Option Sels := fs.lookup n

/-- `ValidationError`, after_parsing.rs:12-26. `outOfFuel` does not exist in the code: it is the
value returned when the recursion bound of the Lean definition is exhausted, proved unreachable
(`C05_no_out_of_fuel`). -/
inductive Err where
  | tooComplex | tooManyRootFields | tooManyAliases | tooDeep | unknownFragment | fragmentCycle
  | outOfFuel
  deriving DecidableEq, Repr

/-- `limits`, after_parsing.rs:48-54. -/
structure Limits where
  rootFields : Option Nat
  depth : Option Nat
  aliases : Option Nat
  complexity : Option Nat
  deriving DecidableEq, Repr

/-- `count > max` with `None` standing for `usize::MAX`. -/
def exceeds (count : Nat) : Option Nat → Bool
  | none => false
  | some m => decide (count > m)

/-- The counters of `Visitor`, after_parsing.rs:65-75. `current_depth` and the fragment stack are
restored on every successful return, so they are arguments. -/
structure Counters where
  rootFields : Nat
  aliases : Nat
  complexity : Nat
  deriving DecidableEq, Repr

/-- `visit_selection_set`, `visit_field`, `visit_fragment_spread`, `visit_inline_fragment`,
after_parsing.rs:78-165, merged in one recursion over the list of selections. `enter` visits the body of
a fragment (line 157). -/
def visitWith (fs : Frags) (lim : Limits)
    (enter : Sels → List Nat → Nat → Counters → Except Err Counters) :
    (sels : Sels) → (stack : List Nat) → (depth : Nat) → Counters → Except Err Counters
  | .nil, _, _, c => .ok c
  | .field aliased sub rest, stack, depth, c =>
    -- lines 82-88
    let c := { c with rootFields := c.rootFields + (depth == 0).toNat }
    if exceeds c.rootFields lim.rootFields then .error .tooManyRootFields else
    -- lines 89-95
    let c := { c with complexity := c.complexity + 1 }
    if exceeds c.complexity lim.complexity then .error .tooComplex else
    -- visit_field, lines 111-117
    let c := { c with aliases := c.aliases + aliased.toNat }
    if exceeds c.aliases lim.aliases then .error .tooManyAliases else
    -- lines 118-124
    if exceeds (depth + 1) lim.depth then .error .tooDeep else
    -- lines 126-130
    match visitWith fs lim enter sub stack (depth + 1) c with
    | .error e => .error e
    | .ok c => visitWith fs lim enter rest stack depth c
  | .spread name rest, stack, depth, c =>
    -- lines 138-147
    if stack.contains name then .error .fragmentCycle else
    -- lines 149-154
    match fs.find name with
    | none => .error .unknownFragment
    | some body =>
      -- lines 156-158
      match enter body (name :: stack) depth c with
      | .error e => .error e
      | .ok c => visitWith fs lim enter rest stack depth c
  | .inline sub rest, stack, depth, c =>
    -- line 164
    match visitWith fs lim enter sub stack depth c with
    | .error e => .error e
    | .ok c => visitWith fs lim enter rest stack depth c

/-- The recursion through fragment spreads. `fuel` bounds their nesting. -/
def visit (fs : Frags) (lim : Limits) : (fuel : Nat) → Sels → List Nat → Nat → Counters →
    Except Err Counters
  | 0 => visitWith fs lim (fun _ _ _ _ => .error .outOfFuel)
  | fuel + 1 => visitWith fs lim (visit fs lim fuel)

/-- `validate`, after_parsing.rs:41-63. -/
def validate (fs : Frags) (lim : Limits) (sels : Sels) : Except Err Unit :=
  match visit fs lim fs.length sels [] 0 ⟨0, 0, 0⟩ with
  | .error e => .error e
  | .ok _ => .ok ()

end Verif.OperationLimits
