import Verif.FieldOwners.Model

/-!
# What the subgraphs say about who resolves a field

Read off the definitions of the subgraphs, without the functions of the model.
-/

namespace Verif.FieldOwners

open Verif.FieldTypes

/-- The definitions of an object type: at most one per subgraph, names of fields and arguments are unique. -/
structure WF (sg : List Subgraph) (defs : List Def) : Prop where
  graph : ∀ d ∈ defs, d.subgraph < sg.length
  one : defs.Pairwise fun a b => a.subgraph ≠ b.subgraph
  fields : ∀ d ∈ defs, d.fields.Pairwise fun a b => a.name ≠ b.name
  args : ∀ d ∈ defs, ∀ f ∈ d.fields, f.args.Pairwise fun a b => a.name ≠ b.name

/-- The key mentions the field, possibly within inline fragments. -/
inductive Mentions (n : Nat) : Sels → Prop where
  | here (rest : Sels) : Mentions n (.field n rest)
  | after (m : Nat) {rest : Sels} (h : Mentions n rest) : Mentions n (.field m rest)
  | within {sub : Sels} (rest : Sels) (h : Mentions n sub) : Mentions n (.fragment sub rest)
  | afterFragment (sub : Sels) {rest : Sels} (h : Mentions n rest) : Mentions n (.fragment sub rest)

/-- The field belongs to a key of the type in this subgraph. -/
def InKey (d : Def) (f : Field) : Prop := ∃ k ∈ d.keys, Mentions f.name k

/-- The subgraph does not resolve the field, it only refers to it. -/
def ExternalIn (d : Def) (f : Field) : Prop := (f.external = true ∨ d.external = true) ∧ ¬ InKey d f

/-- A label that means all requests: none, or `percent(100)` up to a sign and leading zeros. -/
def FullLabel : Option Name → Prop
  | none => True
  | some l => ∃ (sign : Name) (zeros : Nat), (sign = [] ∨ sign = ['+']) ∧
      l = "percent(".toList ++ sign ++ List.replicate zeros '0' ++ "100)".toList

/-- The subgraph's field is overridden for all requests by another definition of the field. -/
def Overridden (sg : List Subgraph) (defs : List Def) (n i : Nat) : Prop :=
  ∃ d ∈ defs, ∃ f ∈ d.fields, f.name = n ∧ ∃ o, f.override = some o ∧
    (∃ s, sg[i]? = some s ∧ o.src = s.name) ∧ FullLabel o.label

/-- The subgraph defines the field, itself and not overridden. -/
def Resolves (sg : List Subgraph) (defs : List Def) (n i : Nat) : Prop :=
  (∃ d ∈ defs, d.subgraph = i ∧ ∃ f ∈ d.fields, f.name = n ∧ ¬ ExternalIn d f) ∧ ¬ Overridden sg defs n i

/-- Every definition of the field is overridden. -/
def AllOverridden (sg : List Subgraph) (defs : List Def) (n : Nat) : Prop :=
  ∀ d ∈ defs, ∀ f ∈ d.fields, f.name = n → Overridden sg defs n d.subgraph

/-- The subgraph defines the type; of an entity, with a key. -/
def HasType (defs : List Def) (i : Nat) : Prop :=
  ∃ d ∈ defs, d.subgraph = i ∧ ((∃ e ∈ defs, e.keys ≠ []) → d.keys ≠ [])

/-- A definition that is not overridden overrides `name`, for some or all requests. -/
def OverridesName (sg : List Subgraph) (defs : List Def) (n : Nat) (name : Name) : Prop :=
  ∃ d ∈ defs, ¬ Overridden sg defs n d.subgraph ∧ ∃ f ∈ d.fields, f.name = n ∧ ∃ o, f.override = some o ∧ o.src = name

/-- No two subgraphs share a value of the enum `join__Graph`. -/
def DistinctEnums (u : Unicode) (sg : List Subgraph) : Prop :=
  ∀ (i j : Nat) (a b : Subgraph), sg[i]? = some a → sg[j]? = some b → enumName u a.name = enumName u b.name → i = j

/-- The functions on characters are right on the ASCII ones. -/
structure Unicode.Ascii (u : Unicode) : Prop where
  upper : ∀ c : Char, c.toNat < 128 → u.upper c = [c.toUpper]
  alphabetic : ∀ c : Char, c.toNat < 128 → u.alphabetic c = c.isAlpha
  alphanumeric : ∀ c : Char, c.toNat < 128 → u.alphanumeric c = c.isAlphanum

end Verif.FieldOwners
