import Verif.Compose.Model
import Verif.Common.GType
/-!
# What the composed enum and input object should be

Stated on the raw tables of the subgraphs (before sorting), without any function of the model.
-/
namespace Verif.Compose
open Verif.Common

/-- No definition declares a name twice, and every definition has one kind. -/
structure Subgraphs.WF (s : Subgraphs) : Prop where
  values : s.values.Pairwise fun a b => ¬ (a.parent = b.parent ∧ a.name = b.name)
  fields : s.fields.Pairwise fun a b => ¬ (a.parent = b.parent ∧ a.name = b.name)
  kinds : s.kinds.Pairwise fun a b => a.1 ≠ b.1

/-- The enum definition `d` has a value called `n`. -/
def Subgraphs.DeclaresValue (s : Subgraphs) (d : Def) (n : Nat) : Prop := ∃ v ∈ s.values, v.parent = d.id ∧ v.name = n

instance (s : Subgraphs) (d : Def) (n : Nat) : Decidable (s.DeclaresValue d n) := by
  unfold Subgraphs.DeclaresValue; infer_instance

/-- The enum called `n` is the type of an argument or of a field of an input object. -/
def Subgraphs.InputUse (s : Subgraphs) (n : Nat) : Prop :=
  n ∈ s.args ∨ ∃ f ∈ s.fields, f.ty.definitionNameId = n ∧ (f.parent, Kind.inputObject) ∈ s.kinds

/-- The enum called `n` is the type of a field of an object or an interface. -/
def Subgraphs.OutputUse (s : Subgraphs) (n : Nat) : Prop :=
  ∃ f ∈ s.fields, f.ty.definitionNameId = n ∧
    ((f.parent, Kind.object) ∈ s.kinds ∨ (f.parent, Kind.interface) ∈ s.kinds)

/-- The subgraphs, in order, whose enum has a value called `n`. -/
def Subgraphs.declarers (s : Subgraphs) (defs : List Def) (n : Nat) : List Nat :=
  (defs.filter fun d => decide (s.DeclaresValue d n)).map (·.subgraph)

/-- The input object definition `d` has the field `f`. -/
def Subgraphs.Declares (s : Subgraphs) (d : Def) (f : Field) : Prop := f ∈ s.fields ∧ f.parent = d.id

/-- The input object definition `d` has a field called `n`. -/
def Subgraphs.DeclaresField (s : Subgraphs) (d : Def) (n : Nat) : Prop := ∃ f, s.Declares d f ∧ f.name = n

/-! ## Input objects as types -/

/-- An input field as the specification sees it: name, type, and default value. -/
structure InField where
  name : Nat
  ty : GType
  default : Option Val

/-- An input object value. -/
abbrev Obj := List (Nat × Val)

/-- `o` is a value of the input object type with these fields: every entry belongs to a field and is a value of
its type, and every required field without a default has an entry. -/
structure Accepts (fields : List InField) (o : Obj) : Prop where
  known : ∀ e ∈ o, ∃ f ∈ fields, f.name = e.1 ∧ f.ty.Admits e.2
  complete : ∀ f ∈ fields, f.ty.required = true → f.default = none → ∃ e ∈ o, e.1 = f.name

/-- Input coercion: fields without an entry get their default. -/
def coerce (fields : List InField) (o : Obj) : Obj :=
  o ++ fields.filterMap fun f =>
    if o.any fun e => decide (e.1 = f.name) then none else f.default.map fun v => (f.name, v)

def Default.toVal (lit : Nat → Val) : Default → Val
  | .null => .null
  | .value n => lit n

/-- The input object type a subgraph declares. -/
def Subgraphs.declared (s : Subgraphs) (den : FieldTypes.FieldType → GType) (lit : Nat → Val) (d : Def) : List InField :=
  (s.fields.filter fun f => decide (f.parent = d.id)).map fun f => ⟨f.name, den f.ty, f.default.map (·.toVal lit)⟩

/-- The composed input object type. -/
def InputOut.type (o : InputOut) (den : FieldTypes.FieldType → GType) (lit : Nat → Val) : List InField :=
  o.fields.map fun f => ⟨f.name, den f.ty, f.default.map (·.toVal lit)⟩

end Verif.Compose
