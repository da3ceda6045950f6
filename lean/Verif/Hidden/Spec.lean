import Verif.Hidden.Model

/-!
# What must be hidden with a hidden element
-/

namespace Verif.Hidden

/-- Ids are in range, each element is in the type it names as its parent, arguments and input fields have input types
and fields have output types. -/
structure WF (S : Schema) : Prop where
  valueTy : ∀ (ix : Nat) (v : ValueDef), S.values[ix]? = some v →
    (∃ n, v.ty = .scalar n) ∨ (∃ n, v.ty = .enum n) ∨ (∃ n, n < S.inputs.length ∧ v.ty = .input n)
  valueParent : ∀ (ix : Nat) (v : ValueDef), S.values[ix]? = some v →
    (∃ n, v.parent = .field n) ∨ (∃ n, n < S.inputs.length ∧ v.parent = .input n)
  fieldTy : ∀ (ix : Nat) (f : FieldDef), S.fields[ix]? = some f →
    (∃ n, f.ty = .scalar n) ∨ (∃ n, f.ty = .enum n) ∨ (∃ n, f.ty = .object n) ∨ (∃ n, f.ty = .interface n) ∨
      (∃ n, f.ty = .union n)
  fieldParent : ∀ (ix : Nat) (f : FieldDef), S.fields[ix]? = some f →
    (∃ n, n < S.objects.length ∧ f.parent = .object n) ∨ (∃ n, n < S.interfaces.length ∧ f.parent = .interface n)
  inParent : ∀ (s : Site) (ix : Nat), Site.field ix ∈ S.kids s → ∃ f, S.fields[ix]? = some f ∧ f.parent = s

/-- A type of the schema that consists of elements. -/
inductive Container (S : Schema) : Site → Prop where
  | object {n : Nat} (h : n < S.objects.length) : Container S (.object n)
  | interface {n : Nat} (h : n < S.interfaces.length) : Container S (.interface n)
  | union {n : Nat} (h : n < S.unions.length) : Container S (.union n)
  | enum {n : Nat} (h : n < S.enums.length) : Container S (.enum n)
  | input {n : Nat} (h : n < S.inputs.length) : Container S (.input n)

/-- What must be hidden: nothing shown needs or consists of hidden things. -/
inductive Hidden (S : Schema) (base : Marks) : Site → Prop where
  | base {s : Site} (h : base s = true) : Hidden S base s
  | internal {ix : Nat} {v : ValueDef} (h : S.values[ix]? = some v) (hi : v.internal = true) : Hidden S base (.value ix)
  | valueType {ix : Nat} {v : ValueDef} (h : S.values[ix]? = some v) (ht : Hidden S base v.ty) : Hidden S base (.value ix)
  | required {ix : Nat} {v : ValueDef} (h : S.values[ix]? = some v) (hr : v.required = true) (hi : v.internal = false)
      (hv : Hidden S base (.value ix)) : Hidden S base v.parent
  | fieldType {ix : Nat} {f : FieldDef} (h : S.fields[ix]? = some f) (ht : Hidden S base f.ty) : Hidden S base (.field ix)
  | empty {s : Site} (hc : Container S s) (h : ∀ k ∈ S.kids s, Hidden S base k) : Hidden S base s

/-- The part of it that the types of input values and required ones give. -/
inductive InputHidden (S : Schema) (base : Marks) : Site → Prop where
  | base {s : Site} (h : base s = true) : InputHidden S base s
  | internal {ix : Nat} {v : ValueDef} (h : S.values[ix]? = some v) (hi : v.internal = true) : InputHidden S base (.value ix)
  | valueType {ix : Nat} {v : ValueDef} (h : S.values[ix]? = some v) (ht : InputHidden S base v.ty) :
      InputHidden S base (.value ix)
  | required {ix : Nat} {v : ValueDef} (h : S.values[ix]? = some v) (hr : v.required = true) (hi : v.internal = false)
      (hv : InputHidden S base (.value ix)) : InputHidden S base v.parent

/-- Then enums and input objects without a shown element, then what fields and output types give. -/
inductive Staged (S : Schema) (base : Marks) : Site → Prop where
  | input {s : Site} (h : InputHidden S base s) : Staged S base s
  | emptyEnum {n : Nat} (hn : n < S.enums.length) (h : ∀ k ∈ S.kids (.enum n), InputHidden S base k) : Staged S base (.enum n)
  | emptyInput {n : Nat} (hn : n < S.inputs.length) (h : ∀ k ∈ S.kids (.input n), InputHidden S base k) :
      Staged S base (.input n)
  | fieldType {ix : Nat} {f : FieldDef} (h : S.fields[ix]? = some f) (ht : Staged S base f.ty) : Staged S base (.field ix)
  | emptyObject {n : Nat} (hn : n < S.objects.length) (h : ∀ k ∈ S.kids (.object n), Staged S base k) :
      Staged S base (.object n)
  | emptyInterface {n : Nat} (hn : n < S.interfaces.length) (h : ∀ k ∈ S.kids (.interface n), Staged S base k) :
      Staged S base (.interface n)
  | emptyUnion {n : Nat} (hn : n < S.unions.length) (h : ∀ k ∈ S.kids (.union n), Staged S base k) : Staged S base (.union n)

end Verif.Hidden
