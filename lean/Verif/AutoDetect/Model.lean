import Verif.Injection.Model

/-!
# How the arguments of a lookup are detected (C74)

A `@lookup` field without `@is` must be matched with a key of its entity: the builder of the schema looks for
arguments that the fields of the key can be injected into
(`schema/src/builder/graph/directives/composite/injection/auto_detect.rs`, in `crates/engine`).

The types, the injections and the arguments are those of C72 and C73. Simplifications: the bit sets are sets
(the one of the key has less than 64 elements, the one of the required arguments one element, whose position
is taken modulo 64 as shifts do); the injections are trees, but the vector of argument injections, of which a
candidate is a range, is a list that is truncated as the code does.
-/

namespace Verif.AutoDetect

open Verif.Views (Out Item Json Inj pushKeyValues)
open Verif.Injection

/-- `Wrapping::non_null`. -/
def nonNull : Wrap → Wrap
  | .named _ => .named true
  | .list _ w => .list true w

/-- Equality of `TypeRecord`s. -/
def sameTy (a b : Ty) : Bool := decide (a.definition = b.definition) && decide (a.wrap = b.wrap)

/-- `TypeRecord::non_null`. -/
def tyNonNull (t : Ty) : Ty := ⟨t.definition, nonNull t.wrap⟩

/-- `is_input_object`. -/
def isInput : Def → Bool
  | .input _ => true
  | _ => false

/-- `list_wrappings().len()`. -/
def depth : Wrap → Nat
  | .named _ => 0
  | .list _ w => depth w + 1

/-- `can_inject_field_into_input` (`auto_detect.rs` 348-377). -/
def canInject (field input : Ty) (batch : Bool) : Bool :=
  (match field.definition with
    | .scalar id => decide (Def.scalar id = input.definition)
    | .enum id => decide (Def.enum id = input.definition)
    | _ => isInput input.definition) &&
  match (if batch then input.wrap.withoutList else some input.wrap) with
  | none => false
  | some w => decide (w = field.wrap) || decide (nonNull w = field.wrap)

/-- Whether the field of the key at `pos` is the one for the input (`auto_detect.rs` 290-315). -/
def matching (S : Schema) (inputs : List Nat) (key : List (Item Unit)) (batch : Bool) (input pos : Nat) : Bool :=
  match key[pos]? with
  | none => false
  | some item =>
    canInject (S.fieldTy item.id) (S.input input).ty batch &&
    (S.fieldName item.id == (S.input input).name ||
      (inputs.all (fun i => i == input || !sameTy (tyNonNull (S.input i).ty) (tyNonNull (S.input input).ty)) &&
       (List.range key.length).all (fun other =>
          match key[other]? with
          | none => true
          | some item' => other == pos || !sameTy (S.fieldTy item'.id) (S.fieldTy item.id))))

/-- `try_auto_detect_unique_input_value_key_mapping` (`auto_detect.rs` 279-346). `subs` detects the injections
for the subselections of the fields of the key. -/
def mapping (S : Schema) (inputs : List Nat) (key : List (Item Unit)) (subs : List (Nat → Out (Option Inj)))
    (batch : Bool) (input : Nat) : Out (Option (Option Nat × Inj)) :=
  match (List.range key.length).find? (matching S inputs key batch input) with
  | none =>
    match (S.input input).default with
    | some j => .ok (some (none, .default j))
    | none => .ok none
  | some pos =>
    match key[pos]?, subs[pos]? with
    | some item, some sub =>
      if item.sub.isEmpty then .ok (some (some pos, .select item.id .identity))
      else
        match (S.input input).ty.definition with
        | .input id => (sub id).map fun inj => inj.map fun inj => (some pos, .select item.id inj)
        | _ => .ok none
    | _, _ => .panic

/-- The loop over the inputs (`auto_detect.rs` 175-197, 214-236): the injections and the fields of the key that
were found. -/
def mapAll (S : Schema) (inputs : List Nat) (key : List (Item Unit)) (subs : List (Nat → Out (Option Inj)))
    (batch : Bool) : List Nat → Out (Option (List Nat × List (Nat × Inj)))
  | [] => .ok (some ([], []))
  | i :: is =>
    (mapping S inputs key subs batch i).bind fun
      | some (pos, inj) =>
        (mapAll S inputs key subs batch is).map fun rest =>
          rest.map fun (found, kvs) => (pos.toList ++ found, (i, inj) :: kvs)
      | none =>
        match (S.input i).default with
        | some j =>
          (mapAll S inputs key subs batch is).map fun rest => rest.map fun (found, kvs) => (found, (i, .default j) :: kvs)
        | none => if (S.input i).ty.wrap.isNonNull then .ok none else mapAll S inputs key subs batch is

/-- `assert!`, the loop and `missing != 0` (`auto_detect.rs` 170-201, 209-241). -/
def mapKey (S : Schema) (inputs : List Nat) (key : List (Item Unit)) (subs : List (Nat → Out (Option Inj)))
    (batch : Bool) : Out (Option (List (Nat × Inj))) :=
  if 64 ≤ key.length then .panic
  else
    (mapAll S inputs key subs batch inputs).map fun result =>
      match result with
      | none => none
      | some (found, kvs) => if (List.range key.length).all found.contains then some kvs else none

mutual

/-- `try_auto_detect_input_object_injections` (`auto_detect.rs` 203-245) for the subselections of a key. -/
def subInjections (S : Schema) : List (Item Unit) → List (Nat → Out (Option Inj))
  | [] => []
  | i :: is => subInjection S i :: subInjections S is

def subInjection (S : Schema) : Item Unit → Nat → Out (Option Inj)
  | .mk _ _ sub, id =>
    (mapKey S (S.inputFields id) sub (subInjections S sub) false).map fun kvs =>
      kvs.map fun kvs => .object (pushKeyValues kvs)

end

/-- `try_auto_detect_input_object_injections` (`auto_detect.rs` 203-245). -/
def objectInjection (S : Schema) (key : List (Item Unit)) (inputs : List Nat) : Out (Option Inj) :=
  (mapKey S inputs key (subInjections S key) false).map fun kvs => kvs.map fun kvs => .object (pushKeyValues kvs)

/-- The loop of `try_auto_detect_oneof_input_object_with_single_key` (`auto_detect.rs` 253-266). -/
def oneOfValues (S : Schema) (batch : Bool) (item : Item Unit) (inputs : List Nat) :
    List Nat → Out (Option (List (Nat × Inj)))
  | [] => .ok (some [])
  | i :: is =>
    (mapping S inputs [item] (subInjections S [item]) batch i).bind fun
      | some (_, inj) => (oneOfValues S batch item inputs is).map fun rest => rest.map ((i, inj) :: ·)
      | none => if (S.input i).ty.wrap.isNonNull then .ok none else oneOfValues S batch item inputs is

/-- `try_auto_detect_oneof_input_object_with_single_key` (`auto_detect.rs` 247-277): the number is looked at after
`pop`. -/
def oneOfSingle (S : Schema) (batch : Bool) (item : Item Unit) (inputs : List Nat) : Out (Option (Nat × Inj)) :=
  (oneOfValues S batch item inputs inputs).map fun values =>
    match values with
    | none => none
    | some values =>
      match values.getLast? with
      | none => none
      | some out => if 1 < values.dropLast.length then none else some out

/-! ## Candidates -/

/-- The argument injections of the schema, and the candidates up to here: ranges of them. -/
structure State where
  arena : List (Nat × Arg)
  candidates : List (Nat × Nat)

/-- `push_argument_injections` (`selections.rs` 105-113) and `candidates.push`. `before` are records that are
pushed first (the nested ones). -/
def State.push (s : State) (before : Nat) (range : List (Nat × Arg)) : State :=
  { arena := s.arena ++ List.replicate before (0, .object []) ++ range,
    candidates := s.candidates ++ [(s.arena.length + before, range.length)] }

/-- `reset` (`selections.rs` 62-67). -/
def State.reset (s : State) (state : Nat) : State := { s with arena := s.arena.take state }

/-- The arguments that are matched directly (`auto_detect.rs` 38-50, 164-201). -/
def direct (S : Schema) (batch : Bool) (key : List (Item Unit)) (args : List Nat) (s : State) : Out State :=
  if key.length = 1 ∨ batch = false then
    (mapKey S args key (subInjections S key) batch).map fun
      | some kvs => s.push 0 (kvs.map fun (i, inj) => (i, .value inj))
      | none => s
  else .ok s

/-- The required arguments (`auto_detect.rs` 52-65): their positions. -/
def requiredArgs (S : Schema) (args : List Nat) : List Nat :=
  (List.range args.length).filter fun i =>
    match args[i]? with
    | none => false
    | some t => (S.input t).ty.wrap.isNonNull

/-- `(is_required_arg_bitset & !(1 << i)) != 0` (`auto_detect.rs` 77): shifts are modulo 64. -/
def otherRequired (required : List Nat) (i : Nat) : Bool := required.any (fun r => r % 64 != i % 64)

/-- The fields of a `@oneOf` object for a key with several fields (`auto_detect.rs` 110-140). `state` is the
length of the vector before the first of them. -/
def oneOfFields (S : Schema) (batch : Bool) (key : List (Item Unit)) (t state : Nat) : List Nat → State → Out State
  | [], s => .ok s
  | i :: is, s =>
    match (S.input i).ty.definition with
    | .input id =>
      if depth (S.input i).ty.wrap = batch.toNat then
        (objectInjection S key (S.inputFields id)).bind fun
          | some inj => oneOfFields S batch key t state is (s.push 1 [(t, .object [(i, .value inj)])])
          | none => oneOfFields S batch key t state is (s.reset state)
      else oneOfFields S batch key t state is s
    | _ => oneOfFields S batch key t state is s

/-- One argument (`auto_detect.rs` 70-159). -/
def nested (S : Schema) (batch : Bool) (key : List (Item Unit)) (t : Nat) (s : State) : Out State :=
  match (S.input t).ty.definition with
  | .input id =>
    if S.oneOf id then
      if (S.input t).ty.wrap.isList then .ok s
      else
        match key with
        | [item] =>
          (oneOfSingle S batch item (S.inputFields id)).map fun
            | some (i, inj) => s.push 1 [(t, .object [(i, .value inj)])]
            | none => s
        | _ => oneOfFields S batch key t s.arena.length (S.inputFields id) s
    else if 1 < key.length then
      if depth (S.input t).ty.wrap = batch.toNat then
        (objectInjection S key (S.inputFields id)).map fun
          | some inj => s.push 0 [(t, .value inj)]
          | none => s
      else .ok s
    else .ok s
  | _ => .ok s

/-- The loop over the arguments (`auto_detect.rs` 69-160), from position `i` on. -/
def nestedAll (S : Schema) (batch : Bool) (key : List (Item Unit)) (required : List Nat) : Nat → List Nat → State → Out State
  | _, [], s => .ok s
  | i, t :: ts, s =>
    if isInput (S.input t).ty.definition && otherRequired required i then nestedAll S batch key required (i + 1) ts s
    else (nested S batch key t s).bind fun s => nestedAll S batch key required (i + 1) ts s

/-- `try_auto_detect_all_possible_injections` (`auto_detect.rs` 31-162). -/
def allCandidates (S : Schema) (batch : Bool) (key : List (Item Unit)) (args : List Nat) (arena : List (Nat × Arg)) :
    Out State :=
  (direct S batch key args ⟨arena, []⟩).bind fun s =>
    if 1 < (requiredArgs S args).length then .ok s
    else nestedAll S batch key (requiredArgs S args) 0 args s

/-- `try_auto_detect_unique_injection` (`auto_detect.rs` 10-29): a range, and the vector. -/
def detect (S : Schema) (batch : Bool) (key : List (Item Unit)) (args : List Nat) (arena : List (Nat × Arg)) :
    Out (Option (Nat × Nat) × List (Nat × Arg)) :=
  (allCandidates S batch key args arena).map fun s =>
    match s.candidates with
    | [] => (none, s.arena)
    | [range] => (some range, s.arena)
    | _ => (none, s.arena.take arena.length)

/-- The records of a range (`IdRange::walk`): a range past the end panics. -/
def records (arena : List (Nat × Arg)) (range : Nat × Nat) : Out (List (Nat × Arg)) :=
  if range.1 + range.2 ≤ arena.length then .ok ((arena.drop range.1).take range.2) else .panic

end Verif.AutoDetect
