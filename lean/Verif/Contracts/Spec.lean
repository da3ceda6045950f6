import Verif.Contracts.Model
import Verif.Hidden.Spec

/-!
# What a contract says about an element
-/

namespace Verif.Contracts

open Verif.Hidden

/-- The schema is a tree of elements. -/
structure Tree (S : Schema) : Prop where
  wf : WF S
  tree : ∀ p s : Site, s ∈ children S p ↔ parentOf S s = some p
  enumParent : ∀ (ix n : Nat), S.enumValues[ix]? = some n → n < S.enums.length

/-- An element and those it is in, from the inside. -/
def chain (S : Schema) (s : Site) : List Site :=
  match parentOf S s with
  | none => [s]
  | some p => match parentOf S p with
    | none => [s, p]
    | some q => [s, p, q]

/-- The strength of a value: 1 for 0 and -1, 2 for 1 and -2, up to 128 for 127 and -128. -/
def rank (a : Int) : Int := if 0 ≤ a then a + 1 else -a

/-- `a` is the strongest value of the elements, that of the innermost one if there are several. -/
def Strongest (own : Site → Int) (l : List Site) (a : Int) : Prop :=
  ∃ l1 t l2, l = l1 ++ t :: l2 ∧ own t = a ∧ (∀ b ∈ l1, rank (own b) < rank a) ∧ ∀ b ∈ l2, rank (own b) ≤ rank a

/-- An element is shown if the strongest value on it and what it is in says so, or if something in it is shown by a
stronger one. -/
def ShownBy (S : Schema) (own : Site → Int) (s : Site) : Prop :=
  ∃ a, Strongest own (chain S s) a ∧
    (0 ≤ a ∨ ∃ t b, s ∈ (chain S t).tail ∧ Strongest own (chain S t) b ∧ 0 ≤ b ∧ rank a < rank b)

/-- The value of an element: of the strongest directive on it, or the default without any. -/
def Own (dflt : Int) (rs : List (Int × List Site)) (s : Site) (a : Int) : Prop :=
  (∃ r ∈ rs, s ∈ r.2 ∧ r.1 = a ∧ ∀ r' ∈ rs, s ∈ r'.2 → rank r'.1 ≤ rank a) ∨ ((∀ r ∈ rs, s ∉ r.2) ∧ a = dflt)

/-- An order in which the answers may be applied. -/
def Order (rs sorted : List (Int × List Site)) : Prop := sorted.Perm rs ∧ sorted.Pairwise fun a b => rank a.1 ≤ rank b.1

/-- A type leads to another one by something shown. -/
inductive Leads (S : Schema) (hidden : Site → Prop) : Site → Site → Prop where
  | field {s : Site} {ix : Nat} {f : FieldDef} (hs : (∃ n, s = .object n) ∨ ∃ n, s = .interface n) (hk : .field ix ∈ S.kids s)
      (hh : ¬ hidden (.field ix)) (hf : S.fields[ix]? = some f) : Leads S hidden s f.ty
  | argument {s : Site} {ix a : Nat} {f : FieldDef} {v : ValueDef} (hs : (∃ n, s = .object n) ∨ ∃ n, s = .interface n)
      (hk : .field ix ∈ S.kids s) (hh : ¬ hidden (.field ix)) (hf : S.fields[ix]? = some f) (ha : a ∈ f.args)
      (hha : ¬ hidden (.value a)) (hv : S.values[a]? = some v) : Leads S hidden s v.ty
  | implements {n i : Nat} {o : ObjectDef} (ho : S.objects[n]? = some o) (hi : i ∈ o.interfaces) :
      Leads S hidden (.object n) (.interface i)
  | implementor {n i : Nat} {o : InterfaceDef} (ho : S.interfaces[n]? = some o) (hi : i ∈ o.possible) :
      Leads S hidden (.interface n) (.object i)
  | member {n : Nat} {t : Site} (ht : t ∈ S.kids (.union n)) : Leads S hidden (.union n) t
  | inputField {n a : Nat} {v : ValueDef} (hk : .value a ∈ S.kids (.input n)) (hh : ¬ hidden (.value a))
      (hv : S.values[a]? = some v) : Leads S hidden (.input n) v.ty

/-- The types operations can get to. -/
inductive Reachable (S : Schema) (hidden : Site → Prop) : Site → Prop where
  | query (h : ¬ hidden (.object S.query)) : Reachable S hidden (.object S.query)
  | mutation {n : Nat} (hn : S.mutation = some n) (h : ¬ hidden (.object n)) : Reachable S hidden (.object n)
  | subscription {n : Nat} (hn : S.subscription = some n) (h : ¬ hidden (.object n)) : Reachable S hidden (.object n)
  | step {s t : Site} (hs : Reachable S hidden s) (hl : Leads S hidden s t) (h : ¬ hidden t) : Reachable S hidden t

/-- What introspection needs. -/
inductive Introspected (S : Schema) : Site → Prop where
  | start {ix : Nat} (h : ix ∈ S.metaFields) : Introspected S (.field ix)
  | element {s t : Site} (hs : Introspected S s) (ht : t ∈ children S s) : Introspected S t
  | member {n : Nat} {t : Site} (hs : Introspected S (.union n)) (ht : t ∈ S.kids (.union n)) : Introspected S t
  | implements {n i : Nat} {o : ObjectDef} (hs : Introspected S (.object n)) (ho : S.objects[n]? = some o) (hi : i ∈ o.interfaces) :
      Introspected S (.interface i)
  | implementor {n i : Nat} {o : InterfaceDef} (hs : Introspected S (.interface n)) (ho : S.interfaces[n]? = some o)
      (hi : i ∈ o.possible) : Introspected S (.object i)
  | fieldType {ix : Nat} {f : FieldDef} (hs : Introspected S (.field ix)) (hf : S.fields[ix]? = some f) : Introspected S f.ty
  | valueType {ix : Nat} {v : ValueDef} (hs : Introspected S (.value ix)) (hv : S.values[ix]? = some v) : Introspected S v.ty

/-- Elements that are always shown: built-in scalars, root types and introspection. -/
def Exempt (S : Schema) (s : Site) : Prop :=
  (∃ n, s = .scalar n ∧ S.scalars[n]? = some true) ∨
    (s = .object S.query ∨ (∃ n, S.mutation = some n ∧ s = .object n) ∨ ∃ n, S.subscription = some n ∧ s = .object n) ∨
    Introspected S s

/-- The types of a schema. -/
inductive IsType (S : Schema) : Site → Prop where
  | object {n : Nat} (h : n < S.objects.length) : IsType S (.object n)
  | interface {n : Nat} (h : n < S.interfaces.length) : IsType S (.interface n)
  | union {n : Nat} (h : n < S.unions.length) : IsType S (.union n)
  | enum {n : Nat} (h : n < S.enums.length) : IsType S (.enum n)
  | scalar {n : Nat} (h : n < S.scalars.length) : IsType S (.scalar n)
  | input {n : Nat} (h : n < S.inputs.length) : IsType S (.input n)

/-- Hidden by the schema or the contract. -/
def Denied (S : Schema) (m : Marks) (own : Site → Int) (s : Site) : Prop :=
  (m s = true ∨ (inRange S s = true ∧ ¬ ShownBy S own s)) ∧ ¬ Exempt S s

/-- Hidden before the consequences are looked at. -/
def Excluded (S : Schema) (m : Marks) (own : Site → Int) (hideUnreachableTypes : Bool) (s : Site) : Prop :=
  Denied S m own s ∨ (hideUnreachableTypes = true ∧ IsType S s ∧ ¬ Reachable S (Denied S m own) s)

end Verif.Contracts
