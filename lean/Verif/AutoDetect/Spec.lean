import Verif.AutoDetect.Model
import Verif.Injection.Spec
import Verif.Views.Spec

/-!
# What a detected injection should be
-/

namespace Verif.AutoDetect

open Verif.Views (Out Item Data Val Json Inj Strict HasPath)
open Verif.Injection

mutual

/-- The paths of the key that end in a scalar: what must be given to identify an entity. -/
def leaves : List (Item Unit) → List (List Nat)
  | [] => []
  | i :: is => leavesOf i ++ leaves is

def leavesOf : Item Unit → List (List Nat)
  | .mk id _ [] => [[id]]
  | .mk id _ (i :: is) => (leaves (i :: is)).map (id :: ·)

end

mutual

/-- The paths whose values an injection takes. -/
def reads : Inj → List (List Nat)
  | .select id next => (reads next).map (id :: ·)
  | .object kvs => readsAll kvs
  | .default _ => []
  | .identity => [[]]

def readsAll : List (Nat × Inj) → List (List Nat)
  | [] => []
  | kv :: kvs => readsEntry kv ++ readsAll kvs

def readsEntry : Nat × Inj → List (List Nat)
  | (_, inj) => reads inj

end

mutual

def argReads : Arg → List (List Nat)
  | .value inj => reads inj
  | .object fields => argsRead fields

def argsRead : List (Nat × Arg) → List (List Nat)
  | [] => []
  | f :: fs => fieldReads f ++ argsRead fs

def fieldReads : Nat × Arg → List (List Nat)
  | (_, arg) => argReads arg

end

mutual

/-- A key of the type `d`: all its objects have the fields, and exactly the composite ones have a selection. -/
def KeyOk (S : Schema) (d : Def) : List (Item Unit) → Prop
  | [] => True
  | i :: is => ItemOk S d i ∧ KeyOk S d is

def ItemOk (S : Schema) (d : Def) : Item Unit → Prop
  | .mk id _ sub =>
    (∃ e fs, fieldsOf S e = some fs ∧ id ∈ fs ∧ ∀ t ∈ possible S d, t ∈ possible S e) ∧
    (sub = [] → (S.fieldTy id).definition.isLeaf = true) ∧
    (sub ≠ [] → (S.fieldTy id).definition.isComposite = true) ∧
    KeyOk S (S.fieldTy id).definition sub

end

/-- Only arguments are of a `@oneOf` type, whose fields are nullable, and no input field is hidden from the
subgraph. -/
structure Plain (S : Schema) (subgraph : Nat) : Prop where
  fields : ∀ o, ∀ i ∈ S.inputFields o, isOneOf S i = false
  oneOf : ∀ id, S.oneOf id = true → ∀ i ∈ S.inputFields id, (S.input i).ty.wrap.isNonNull = false
  known : ∀ o, ∀ i ∈ S.inputFields o, (S.input i).internal = none ∨ (S.input i).internal = some subgraph

/-- For an argument of a `@oneOf` type the key has no composite field, and its field is never null if it has
only one. -/
def OneOfKey (S : Schema) (key : List (Item Unit)) (args : List Nat) : Prop :=
  ∀ t ∈ args, isOneOf S t = true →
    (∀ i ∈ key, i.sub = []) ∧ ∀ i, key = [i] → (S.fieldTy i.id).wrap.isNonNull = true

/-- A field can be given for an input: the same scalar or enum, the same lists, and a value when one is
required. -/
def Suits (input field : Ty) : Prop :=
  input.definition = field.definition ∧ input.wrap.withoutNonNull = field.wrap.withoutNonNull ∧
  (input.wrap.isNonNull = true → field.wrap.isNonNull = true)

/-- A key of scalars and enums. -/
structure Flat (S : Schema) (key : List (Item Unit)) : Prop where
  leaf : ∀ i ∈ key, i.sub = [] ∧ (S.fieldTy i.id).definition.isLeaf = true
  names : ∀ i ∈ key, ∀ j ∈ key, S.fieldName i.id = S.fieldName j.id → i.id = j.id

end Verif.AutoDetect
