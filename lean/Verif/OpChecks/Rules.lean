import Verif.OpChecks.Model
/-!
# Operation checks: the rules

Model of `crates/operation-checks/src/check.rs` and `check/rules.rs`.  The result of a rule is the
severity of its diagnostic, if it gives one; the path and the kind of a diagnostic are those of the
change, the message is left out.  The outer `none` is a panic.
-/
namespace Verif.OpChecks
open Verif.CheckTypes (Comparison)

/-- `Severity`, check.rs:21-28. -/
inductive Severity where
  | warning
  | error
  deriving DecidableEq, Repr

/-- `UsageProvider`, aggregate_field_usage.rs:5-28. -/
structure Provider where
  fieldUsed : Nat → Bool
  argUsed : Nat → Bool
  enumUsed : Name × Name → Bool
  leftOut : Nat → Bool
  condUsed : Name × Name → Bool
  argIds : List Nat
  allInput : Bool

/-- `impl UsageProvider for FieldUsage`, aggregate_field_usage.rs:48-72. -/
def Usage.provider (u : Usage) : Provider :=
  { fieldUsed := fun i => (u.fields.get i).isSome
    argUsed := fun i => (u.args.get i).isSome
    enumUsed := fun k => (u.enums.get k).isSome
    leftOut := fun i => (u.leftOut.get i).isSome
    condUsed := fun k => (u.conds.get k).isSome
    argIds := u.args.map (·.1)
    allInput := false }

/-- `AssumeAllUsed`, aggregate_field_usage.rs:79-108. -/
def assumeAllUsed : Provider :=
  { fieldUsed := fun _ => true, argUsed := fun _ => true, enumUsed := fun _ => true
    leftOut := fun _ => true, condUsed := fun _ => true, argIds := [], allInput := true }

/-- A `Change` with the names of its path.  `other` stands for the kinds that check.rs:124-164 ignores. -/
inductive Change where
  | removeObjectType (ty : Name)
  | removeField (ty field : Name)
  | addFieldArgument (ty field arg : Name)
  | addField (ty field : Name)
  | changeFieldArgumentType (ty field arg : Name)
  | removeFieldArgument (ty field arg : Name)
  | changeFieldType (ty field : Name)
  | removeInterfaceImplementation (ty interface : Name)
  | removeUnionMember (union member : Name)
  | removeEnumValue (enum value : Name)
  | removeFieldArgumentDefault (ty field arg : Name)
  | other
  deriving DecidableEq, Repr

/-- `CheckParams`, check.rs:31-40, without the diff. -/
structure Params where
  source : Schema
  target : Schema
  usage : Provider

/-- The result of a rule: `none` is a panic. -/
abbrev Outcome := Option (Option Severity)

/-- `CheckParams::field_is_used`, check.rs:43-51. -/
def Params.fieldIsUsed (p : Params) (ty field : Name) : Bool :=
  match p.source.findField ty field with
  | none => false
  | some id => p.usage.fieldUsed id

/-- `CheckParams::argument_is_used`, check.rs:53-59. -/
def Params.argumentIsUsed (p : Params) (ty field arg : Name) : Bool :=
  match p.source.findArgument (ty, field, arg) with
  | none => false
  | some id => p.usage.argUsed id

/-- `CheckParams::argument_is_left_out`, check.rs:65-71. -/
def Params.argumentIsLeftOut (p : Params) (ty field arg : Name) : Bool :=
  match p.source.findArgument (ty, field, arg) with
  | none => false
  | some id => p.usage.leftOut id

/-- `find_used_input_types_rec`, check.rs:211-223.  `none`: the recursion is deeper than the fuel. -/
def usedInputRec (s : Schema) : Nat → Name → List Name → Option (List Name)
  | 0, _, _ => none
  | fuel + 1, root, used =>
    if root ∈ used then some used
    else (s.iterFields root).foldlM (fun used f => usedInputRec s fuel f.base used) (root :: used)

/-- Enough fuel: a recursion inserts a new type, and all but the first are types of fields. -/
def inputFuel (s : Schema) : Nat := s.fields.length + 2

/-- `find_used_input_types`, check.rs:205-235. -/
def findUsedInputTypes (p : Params) : Option (List Name) :=
  if p.usage.allInput then some p.source.inputObjects
  else p.usage.argIds.foldlM (fun used id =>
    match p.source.args[id]? with
    | none => none
    | some arg => usedInputRec p.source (inputFuel p.source) arg.base used) []

/-- `remove_field`, rules.rs:8-70. -/
def removeField (p : Params) (ty field : Name) : Outcome :=
  if ty ∈ p.source.inputObjects then
    match findUsedInputTypes p with
    | none => none
    | some used =>
      if ty ∉ used then some none
      else
        match p.source.findField ty field with
        | none => some (some .warning)
        | some id =>
          match p.source.fields[id]? with
          | none => none
          | some f => some (some (if f.isRequired then .error else .warning))
  else if p.fieldIsUsed ty field then some (some .error)
  else some none

/-- `add_field_argument`, rules.rs:73-105. -/
def addFieldArgument (p : Params) (ty field arg : Name) : Outcome :=
  if !p.fieldIsUsed ty field then some none
  else
    match p.target.findArgument (ty, field, arg) with
    | none => none
    | some id =>
      match p.target.args[id]? with
      | none => none
      | some a => some (if a.isRequiredWithoutDefault then some .error else none)

/-- `add_field`, rules.rs:109-142. -/
def addField (p : Params) (ty field : Name) : Outcome :=
  match p.target.findField ty field with
  | none => some none
  | some id =>
    match p.target.fields[id]? with
    | none => none
    | some f =>
      if !f.isRequired then some none
      else
        match findUsedInputTypes p with
        | none => none
        | some used => some (if ty ∈ used then some .error else none)

/-- The end of `change_field_argument_type`, rules.rs:191-200. -/
def changedArg (p : Params) (ty field arg : Name) : Option Severity :=
  if p.argumentIsUsed ty field arg then some .error else none

/-- `change_field_argument_type`, rules.rs:146-202.  Lines 158 and 159 both search the source. -/
def changeFieldArgumentType (p : Params) (ty field arg : Name) : Outcome :=
  if !p.fieldIsUsed ty field then some none
  else
    let argInSrc := p.source.findArgument (ty, field, arg)
    let argInTarget := p.source.findArgument (ty, field, arg)
    match argInSrc, argInTarget with
    | some srcId, some targetId =>
      match p.source.args[srcId]?, p.target.args[targetId]? with
      | some src, some target =>
        if src.base ≠ target.base then some (changedArg p ty field arg)
        else
          match src.wrappers.compare target.wrappers with
          | .removedNonNull => some none
          | .addedNonNull => some (if target.hasDefault then none else some .error)
          | .noChange | .notCompatible => some (changedArg p ty field arg)
      | _, _ => none
    | _, _ => some (changedArg p ty field arg)

/-- `remove_field_argument`, rules.rs:204-222. -/
def removeFieldArgument (p : Params) (ty field arg : Name) : Outcome :=
  some (if p.argumentIsUsed ty field arg then some .error else none)

/-- The end of `change_field_type`, rules.rs:253-298. -/
def changedField (src target : Field) (isInput : Bool) : Option Severity :=
  let c := src.wrappers.compare target.wrappers
  if src.base ≠ target.base ∨ c = .notCompatible then some .error
  else
    match isInput, c with
    | true, .addedNonNull => some .warning
    | false, .removedNonNull => some .error
    | _, _ => none

/-- `change_field_type`, rules.rs:228-299. -/
def changeFieldType (p : Params) (ty field : Name) : Outcome :=
  match p.source.findField ty field, p.target.findField ty field with
  | some srcId, some targetId =>
    match p.source.fields[srcId]?, p.target.fields[targetId]? with
    | some src, some target =>
      if ty ∈ p.source.inputObjects then
        match findUsedInputTypes p with
        | none => none
        | some used => some (if ty ∈ used then changedField src target true else none)
      else some (if p.fieldIsUsed ty field then changedField src target false else none)
    | _, _ => none
  | _, _ => some none

/-- `remove_interface_implementation`, rules.rs:302-325. -/
def removeInterfaceImplementation (p : Params) (ty interface : Name) : Outcome :=
  some (if p.usage.condUsed (interface, ty) then some .error else none)

/-- `remove_union_member`, rules.rs:329-347. -/
def removeUnionMember (p : Params) (union member : Name) : Outcome :=
  some (if p.usage.condUsed (union, member) then some .error else none)

/-- `remove_object_type`, rules.rs:353-400. -/
def removeObjectType (p : Params) (ty : Name) : Outcome :=
  if (p.source.iterInterfaceImplementations ty).any fun i => p.usage.condUsed (i, ty) then some (some .error)
  else if ty ≠ p.source.query ∧ ty ≠ p.source.mutation ∧ ty ≠ p.source.subscription then some none
  else if (p.source.iterFields ty).any fun f => p.fieldIsUsed ty f.name then some (some .error)
  else some none

/-- `remove_enum_value`, rules.rs:403-417. -/
def removeEnumValue (p : Params) (enum value : Name) : Outcome :=
  some (if p.usage.enumUsed (enum, value) then some .error else none)

/-- `remove_field_argument_default`, rules.rs:420-433. -/
def removeFieldArgumentDefault (p : Params) (ty field arg : Name) : Outcome :=
  some (if p.argumentIsLeftOut ty field arg then some .error else none)

/-- `check_change`, check.rs:122-190. -/
def checkChange (p : Params) : Change → Outcome
  | .removeObjectType ty => removeObjectType p ty
  | .removeField ty f => removeField p ty f
  | .addFieldArgument ty f a => addFieldArgument p ty f a
  | .addField ty f => addField p ty f
  | .changeFieldArgumentType ty f a => changeFieldArgumentType p ty f a
  | .removeFieldArgument ty f a => removeFieldArgument p ty f a
  | .changeFieldType ty f => changeFieldType p ty f
  | .removeInterfaceImplementation ty i => removeInterfaceImplementation p ty i
  | .removeUnionMember u m => removeUnionMember p u m
  | .removeEnumValue e v => removeEnumValue p e v
  | .removeFieldArgumentDefault ty f a => removeFieldArgumentDefault p ty f a
  | .other => some none

/-- `check`, check.rs:83-97: the diagnostics, each a change and a severity. -/
def check (p : Params) : List Change → Option (List (Change × Severity))
  | [] => some []
  | c :: rest =>
    match checkChange p c with
    | none => none
    | some sev =>
      match check p rest with
      | none => none
      | some out => some (match sev with | none => out | some s => (c, s) :: out)

end Verif.OpChecks
