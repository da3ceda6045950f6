import Verif.SubgraphVars.Model
/-! What the variables of a subgraph operation should be. -/
namespace Verif.SubgraphVars
open Verif.Coercion (Json Str Ty)
open Verif.Literals (Q Names Env)

def keys {α : Type} (fs : List (Str × α)) : List Str := fs.map (·.1)

mutual
/-- The same JSON value, up to the order of the entries of objects without duplicate keys. -/
inductive JEq : Json → Json → Prop
  | refl (j) : JEq j j
  | arr {xs ys} : ItemsEq xs ys → JEq (.arr xs) (.arr ys)
  | fields {xs ys} : FieldsEq xs ys → JEq (.obj xs) (.obj ys)
  | keyed {xs ys} : (keys xs).Nodup → (keys ys).Nodup → (∀ k, k ∈ keys xs ↔ k ∈ keys ys) →
      (∀ k v w, (k, v) ∈ xs → (k, w) ∈ ys → JEq v w) → JEq (.obj xs) (.obj ys)
inductive ItemsEq : List Json → List Json → Prop
  | nil : ItemsEq [] []
  | cons {x y xs ys} : JEq x y → ItemsEq xs ys → ItemsEq (x :: xs) (y :: ys)
inductive FieldsEq : List (Str × Json) → List (Str × Json) → Prop
  | nil : FieldsEq [] []
  | cons {k x y xs ys} : JEq x y → FieldsEq xs ys → FieldsEq ((k, x) :: xs) ((k, y) :: ys)
end

/-- The same value or both absent. -/
inductive SameValue : Option Json → Option Json → Prop
  | absent : SameValue none none
  | given {v w} : JEq v w → SameValue (some v) (some w)

mutual
/-- No JSON object within the value gives a key twice. -/
def Q.Keyed : Q → Prop
  | .object _ fields => keyedFields fields
  | .list items => keyedItems items
  | .map fields => (keys fields).Nodup ∧ keyedMap fields
  | _ => True
def keyedFields : List (Nat × Q) → Prop
  | [] => True
  | (_, x) :: xs => Q.Keyed x ∧ keyedFields xs
def keyedItems : List Q → Prop
  | [] => True
  | x :: xs => Q.Keyed x ∧ keyedItems xs
def keyedMap : List (Str × Q) → Prop
  | [] => True
  | (_, x) :: xs => Q.Keyed x ∧ keyedMap xs
end

mutual
def S.Keyed : S → Prop
  | .object fields => skeyedFields fields
  | .list items => skeyedItems items
  | .map fields => (keys fields).Nodup ∧ skeyedMap fields
  | _ => True
def skeyedFields : List (Nat × S) → Prop
  | [] => True
  | (_, x) :: xs => S.Keyed x ∧ skeyedFields xs
def skeyedItems : List S → Prop
  | [] => True
  | x :: xs => S.Keyed x ∧ skeyedItems xs
def skeyedMap : List (Str × S) → Prop
  | [] => True
  | (_, x) :: xs => S.Keyed x ∧ skeyedMap xs
end

/-- No JSON object of an argument value gives a key twice. -/
def PlanValue.Keyed : PlanValue → Prop
  | .query q => Q.Keyed q
  | _ => True

mutual
/-- The value holds no enum value without definition, as may be written in a custom scalar. -/
def S.Bound : S → Prop
  | .object fields => sboundFields fields
  | .list items => sboundItems items
  | .map fields => sboundMap fields
  | .unboundEnum _ => False
  | _ => True
def sboundFields : List (Nat × S) → Prop
  | [] => True
  | (_, x) :: xs => S.Bound x ∧ sboundFields xs
def sboundItems : List S → Prop
  | [] => True
  | x :: xs => S.Bound x ∧ sboundItems xs
def sboundMap : List (Str × S) → Prop
  | [] => True
  | (_, x) :: xs => S.Bound x ∧ sboundMap xs
end

/-- The schema value of an id is what is sent for a default value. -/
def NamesMatch (ctx : Ctx) (nm : Names) : Prop := ∀ id, nm.default id = serS nm (ctx.values id)

/-- A value is a variable of the client. -/
def IsClientVar (ctx : Ctx) (value : PlanValue) (name : Str) (ty : Ty) : Prop :=
  ∃ i, value = .query (.variable i) ∧ ctx.clientVars[i]? = some (name, ty)

/-- The type a variable for an argument of the type `ty` should have. -/
def Declared (ctx : Ctx) (ty : Ty) (value : PlanValue) (t : Ty) : Prop :=
  (∃ name, IsClientVar ctx value name t) ∨ (∀ name ty', ¬ IsClientVar ctx value name ty') ∧ t = ty

end Verif.SubgraphVars
