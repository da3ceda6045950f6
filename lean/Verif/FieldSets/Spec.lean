import Verif.FieldSets.Model

/-!
# What is right and wrong in a selection

With the texts of the schema only: a definition, a field and an argument are those with the name.
-/
namespace Verif.FieldSets

/-- The first with the name. -/
def Named {α : Type} (name : α → Name) (l : List α) (n : Name) (x : α) : Prop :=
  ∃ before after, l = before ++ x :: after ∧ name x = n ∧ ∀ y ∈ before, name y ≠ n

def Absent {α : Type} (name : α → Name) (l : List α) (n : Name) : Prop := ∀ x ∈ l, name x ≠ n

/-- The name at the core of a type. -/
inductive Core : Ty → Name → Prop where
  | named {n : Name} {r : Bool} : Core (.named n r) n
  | list {t : Ty} {n : Name} {r : Bool} : Core t n → Core (.list t r) n

/-- A type with an exclamation mark at its end. -/
inductive NonNull : Ty → Prop where
  | named {n : Name} : NonNull (.named n true)
  | list {t : Ty} : NonNull (.list t true)

/-- The literals taken for a type. -/
inductive Taken (s : Schema) : Ty → Value → Prop where
  | string {t : Ty} {x : Name} : Core t "String" → Taken s t (.string x)
  | int {t : Ty} {x : Int} : Core t "Int" → Taken s t (.int x)
  | float {t : Ty} {x : Nat} : Core t "Float" → Taken s t (.float x)
  | boolean {t : Ty} {x : Bool} : Core t "Boolean" → Taken s t (.boolean x)
  | enum {t : Ty} {n v : Name} {d : Definition} : Core t n → Named (·.name) s n d → v ∈ d.values → Taken s t (.enum v)
  | object {t : Ty} {n : Name} {d : Definition} {fields : List (Name × Value)} : Core t n → Named (·.name) s n d →
      (∀ x ∈ fields, ¬ Absent (·.name) d.fields x.1) → (∀ x ∈ fields, ∀ f, Named (·.name) d.fields x.1 f → Taken s f.type x.2) →
      Taken s t (.object fields)
  | list {t : Ty} {r : Bool} {items : List Value} : (∀ v ∈ items, Taken s (.list t r) v) → Taken s (.list t r) (.list items)

/-- The arguments given are those of the field. -/
def ArgsTaken (s : Schema) (f : Field) (args : List (Name × Value)) : Prop :=
  ∀ x ∈ args, ∃ a, Named (·.name) f.args x.1 a ∧ Taken s a.type x.2

/-- A selection is looked at, on a type. -/
inductive Seen (s : Schema) : Definition → List Selection → Definition → Selection → Prop where
  | here {d : Definition} {xs : List Selection} {x : Selection} : x ∈ xs → Seen s d xs d x
  | field {d e t : Definition} {xs sub : List Selection} {x : Selection} {n : Name} {c : Name} {args : List (Name × Value)} {b : Bool}
      {f : Field} : .field n args sub b ∈ xs → n ≠ "__typename" → Named (·.name) d.fields n f → ArgsTaken s f args →
      Core f.type c → Named (·.name) s c t → Seen s t sub e x → Seen s d xs e x
  | fragment {d e t : Definition} {xs sub : List Selection} {x : Selection} {n : Name} {b : Bool} : .fragment n sub b ∈ xs →
      Named (·.name) s n t → Seen s t sub e x → Seen s d xs e x

/-- What is wrong with a selection itself, on a type. -/
inductive Wrong (s : Schema) (d : Definition) : Selection → Diag → Prop where
  | typenameArgs {args : List (Name × Value)} {sub : List Selection} {b : Bool} : args ≠ [] →
      Wrong s d (.field "__typename" args sub b) .typenameArgs
  | typenameSub {sub : List Selection} {b : Bool} : sub ≠ [] → Wrong s d (.field "__typename" [] sub b) .typenameSub
  | noField {n : Name} {args : List (Name × Value)} {sub : List Selection} {b : Bool} : n ≠ "__typename" →
      Absent (·.name) d.fields n → Wrong s d (.field n args sub b) (.noField d.name n)
  | missing {n : Name} {args : List (Name × Value)} {sub : List Selection} {b : Bool} {f : Field} {a : Arg} : n ≠ "__typename" →
      Named (·.name) d.fields n f → a ∈ f.args → NonNull a.type → a.hasDefault = false → (∀ x ∈ args, x.1 ≠ a.name) →
      Wrong s d (.field n args sub b) (.missing d.name n a.name)
  | noArg {n k : Name} {v : Value} {before after : List (Name × Value)} {sub : List Selection} {b : Bool} {f : Field} :
      n ≠ "__typename" → Named (·.name) d.fields n f → ArgsTaken s f before → Absent (·.name) f.args k →
      Wrong s d (.field n (before ++ (k, v) :: after) sub b) (.noArg d.name n k)
  | badArg {n k : Name} {v : Value} {before after : List (Name × Value)} {sub : List Selection} {b : Bool} {f : Field} {a : Arg} :
      n ≠ "__typename" → Named (·.name) d.fields n f → ArgsTaken s f before → Named (·.name) f.args k a → ¬ Taken s a.type v →
      Wrong s d (.field n (before ++ (k, v) :: after) sub b) (.badArg d.name n k)
  | badCondition {n : Name} {sub : List Selection} {b : Bool} : Absent (·.name) s n →
      Wrong s d (.fragment n sub b) (.badCondition d.name n)

/-- A selection within a field whose type the subgraph does not define. -/
def Lost (s : Schema) (d : Definition) (x : Selection) : Prop :=
  ∃ n args sub b f c, x = .field n args sub b ∧ n ≠ "__typename" ∧ Named (·.name) d.fields n f ∧ ArgsTaken s f args ∧
    sub ≠ [] ∧ Core f.type c ∧ Absent (·.name) s c

/-- A selection is anywhere in others. -/
inductive Within : List Selection → Selection → Prop where
  | here {xs : List Selection} {x : Selection} : x ∈ xs → Within xs x
  | field {xs sub : List Selection} {x : Selection} {n : Name} {args : List (Name × Value)} {b : Bool} :
      .field n args sub b ∈ xs → Within sub x → Within xs x
  | fragment {xs sub : List Selection} {x : Selection} {n : Name} {b : Bool} : .fragment n sub b ∈ xs → Within sub x → Within xs x

def HasDirectives : Selection → Prop
  | .field _ _ _ b => b = true
  | .fragment _ _ b => b = true

/-! ## Validity after the specification of GraphQL -/

def builtins : List Name := ["String", "Int", "Float", "Boolean", "ID"]

/-- The literals for a type without any coercion: no null, no integers for `Float`, no single item for a list. -/
inductive Exact (s : Schema) : Ty → Value → Prop where
  | string {r : Bool} {x : Name} : Exact s (.named "String" r) (.string x)
  | int {r : Bool} {x : Int} : Exact s (.named "Int" r) (.int x)
  | float {r : Bool} {x : Nat} : Exact s (.named "Float" r) (.float x)
  | boolean {r : Bool} {x : Bool} : Exact s (.named "Boolean" r) (.boolean x)
  | enum {n v : Name} {r : Bool} {d : Definition} : Named (·.name) s n d → d.kind = .enum → v ∈ d.values →
      Exact s (.named n r) (.enum v)
  | object {n : Name} {r : Bool} {d : Definition} {fields : List (Name × Value)} : Named (·.name) s n d → d.kind = .inputObject →
      (∀ x ∈ fields, ¬ Absent (·.name) d.fields x.1) → (∀ x ∈ fields, ∀ f, Named (·.name) d.fields x.1 f → Exact s f.type x.2) →
      Exact s (.named n r) (.object fields)
  | list {t : Ty} {r : Bool} {items : List Value} : (∀ v ∈ items, Exact s t v) → Exact s (.list t r) (.list items)

/-- The types with fields to select. -/
def Composite (d : Definition) : Prop := d.kind = .object ∨ d.kind = .interface ∨ d.kind = .union

/-- A selection which is valid on a type, its arguments being exact literals. -/
inductive Valid (s : Schema) : Definition → Selection → Prop where
  | typename {d : Definition} {b : Bool} : Valid s d (.field "__typename" [] [] b)
  | leaf {d : Definition} {n c : Name} {args : List (Name × Value)} {b : Bool} {f : Field} : n ≠ "__typename" →
      Named (·.name) d.fields n f → (∀ x ∈ args, ∃ a, Named (·.name) f.args x.1 a ∧ Exact s a.type x.2) →
      (∀ a ∈ f.args, NonNull a.type → a.hasDefault = false → ∃ x ∈ args, x.1 = a.name) →
      Core f.type c → (c ∈ builtins ∨ ∃ t, Named (·.name) s c t ∧ (t.kind = .scalar ∨ t.kind = .enum)) →
      Valid s d (.field n args [] b)
  | nested {d t : Definition} {n c : Name} {args : List (Name × Value)} {sub : List Selection} {b : Bool} {f : Field} :
      n ≠ "__typename" → Named (·.name) d.fields n f →
      (∀ x ∈ args, ∃ a, Named (·.name) f.args x.1 a ∧ Exact s a.type x.2) →
      (∀ a ∈ f.args, NonNull a.type → a.hasDefault = false → ∃ x ∈ args, x.1 = a.name) →
      Core f.type c → Named (·.name) s c t → Composite t → sub ≠ [] → (∀ x ∈ sub, Valid s t x) →
      Valid s d (.field n args sub b)
  | fragment {d t : Definition} {n : Name} {sub : List Selection} {b : Bool} : Named (·.name) s n t → Composite t → sub ≠ [] →
      (∀ x ∈ sub, Valid s t x) → Valid s d (.fragment n sub b)

end Verif.FieldSets
