import Verif.TypeChoice.Model

/-!
# What an object of a response is to be read as

By the shape: each of its fields has the value there is under its key.
-/
namespace Verif.TypeChoice

/-- The value under a key. -/
def under (es : List (Name × Json)) (k : Name) : Option Json :=
  match es with
  | [] => none
  | e :: es => if e.1 = k then some e.2 else under es k

/-- The name of the type the object says it has. -/
def typeOf (es : List (Name × Json)) : Option Name :=
  match under es "__typename" with
  | some (.text n _) => some n
  | _ => none

/-- The type of an object read with a concrete shape: the one known, the one it says if that is possible, or none. -/
inductive Told : Ident → List (Name × Json) → Option Name → Prop where
  | known {n : Name} {es : List (Name × Json)} : Told (.known n) es (some n)
  | anonymous {es : List (Name × Json)} : Told .anonymous es none
  | detect {possible : List Name} {es : List (Name × Json)} {n : Name} : typeOf es = some n → n ∈ possible →
      Told (.detect possible) es (some n)

/-- Fields in the order of their keys, each once. -/
def Ordered (fs : List (Nat × Val)) : Prop := fs.Pairwise (fun a b => a.1 < b.1)

/-- What is read with a shape; an object has, for the field of each key, what is under its expected key; null when there is
nothing there and it may be null; and the name of its type for `__typename`. -/
inductive Wanted (types : Types) : Shape → Json → Val → Prop where
  | null {s : Shape} : Wanted types s .null .null
  | text {s : Name} {b : Bool} : Wanted types .leaf (.text s b) (.leaf (.text s b))
  | other {n : Nat} : Wanted types .leaf (.other n) (.leaf (.other n))
  | list {s : Shape} {js : List Json} {vs : List Val} : js.length = vs.length →
      (∀ (i : Nat) j v, js[i]? = some j → vs[i]? = some v → Wanted types s j v) → Wanted types (.list s) (.list js) (.list vs)
  | leafOther {j : Json} {s : Shape} : (∀ c, s ≠ .concrete c) → (∀ p f, s ≠ .poly p f) → (∃ es, j = .map es) → Wanted types s j .unexpected
  | listOther {js : List Json} {s : Shape} : (∀ t, s ≠ .list t) → Wanted types s (.list js) .unexpected
  | scalarOther {j : Json} {s : Shape} : s ≠ .leaf → ((∃ t b, j = .text t b) ∨ ∃ n, j = .other n) → Wanted types s j .unexpected
  /-- A concrete shape. -/
  | object {c : Concrete} {es : List (Name × Json)} {t : Option Name} {fs : List (Nat × Val)} : Told c.ident es t →
      (c.typenames ≠ [] → t ≠ none) → Ordered fs →
      (∀ f ∈ c.fields, ∀ j, under es f.expected = some j → ∀ v, (f.key, v) ∈ fs → Wanted types f.shape j v) →
      (∀ k, k ∈ fs.map (·.1) ↔ (∃ f ∈ c.fields, f.key = k ∧ (under es f.expected ≠ none ∨ f.required = false)) ∨ k ∈ c.typenames) →
      (∀ f ∈ c.fields, under es f.expected = none → ∀ v, (f.key, v) ∈ fs → v = .null) →
      (∀ k ∈ c.typenames, ∀ v, (k, v) ∈ fs → ∃ n, t = some n ∧ v = .typename n) →
      Wanted types (.concrete c) (.map es) (.object t fs)
  | untold {c : Concrete} {es : List (Name × Json)} : ((∀ t, ¬ Told c.ident es t) ∨ (c.typenames ≠ [] ∧ Told c.ident es none)) →
      Wanted types (.concrete c) (.map es) .unexpected
  /-- A shape for the type of the object: as with the concrete shape, the type being known. -/
  | possible {ps : List (Name × Concrete)} {fb : Option Concrete} {es : List (Name × Json)} {n : Name} {c : Concrete} {v : Val} :
      typeOf es = some n → types n = some true → (n, c) ∈ ps →
      Wanted types (.concrete (.mk (.known n) c.typenames c.fields)) (.map es) v → Wanted types (.poly ps fb) (.map es) v
  | fallback {ps : List (Name × Concrete)} {es : List (Name × Json)} {n : Name} {c : Concrete} {v : Val} :
      typeOf es = some n → types n = some true → n ∉ ps.map (·.1) → (∀ possible, c.ident = .detect possible → n ∈ possible) →
      Wanted types (.concrete (.mk (.known n) c.typenames c.fields)) (.map es) v → Wanted types (.poly ps (some c)) (.map es) v
  | notPossible {ps : List (Name × Concrete)} {es : List (Name × Json)} {n : Name} {c : Concrete} {possible : List Name} :
      typeOf es = some n → types n = some true → n ∉ ps.map (·.1) → c.ident = .detect possible → n ∉ possible →
      Wanted types (.poly ps (some c)) (.map es) .unexpected
  /-- No field is asked for of an object of this type. -/
  | nothing {ps : List (Name × Concrete)} {es : List (Name × Json)} {n : Name} : typeOf es = some n → types n = some true →
      n ∉ ps.map (·.1) → Wanted types (.poly ps none) (.map es) (.object (some n) [])
  | unknown {ps : List (Name × Concrete)} {fb : Option Concrete} {es : List (Name × Json)} :
      (∀ n, typeOf es = some n → types n ≠ some true) → Wanted types (.poly ps fb) (.map es) .unexpected

/-- Keys are different in all objects, and `__typename` is a text. -/
inductive Fine : Json → Prop where
  | null : Fine .null
  | text {s : Name} {b : Bool} : Fine (.text s b)
  | other {n : Nat} : Fine (.other n)
  | list {js : List Json} : (∀ j ∈ js, Fine j) → Fine (.list js)
  | map {es : List (Name × Json)} : (es.map (·.1)).Nodup → (∀ e ∈ es, Fine e.2) →
      (∀ e ∈ es, e.1 = "__typename" → ∃ s b, e.2 = .text s b) → Fine (.map es)

/-- The type is told first in all objects, with a text that can be borrowed. -/
inductive First : Json → Prop where
  | null : First .null
  | text {s : Name} {b : Bool} : First (.text s b)
  | other {n : Nat} : First (.other n)
  | list {js : List Json} : (∀ j ∈ js, First j) → First (.list js)
  | map {es : List (Name × Json)} : (∀ e ∈ es, First e.2) → (∀ e ∈ es.drop 1, e.1 ≠ "__typename") →
      (∀ e ∈ es, e.1 = "__typename" → ∃ s, e.2 = .text s true) → First (.map es)

/-- The same value, but for the order of the entries of objects. -/
inductive Same : Json → Json → Prop where
  | null : Same .null .null
  | text {s : Name} {b : Bool} : Same (.text s b) (.text s b)
  | other {n : Nat} : Same (.other n) (.other n)
  | list {js ks : List Json} : js.length = ks.length → (∀ (i : Nat) j k, js[i]? = some j → ks[i]? = some k → Same j k) →
      Same (.list js) (.list ks)
  | map {es gs : List (Name × Json)} : (∀ k, under es k = none ↔ under gs k = none) →
      (∀ k i j, under es k = some i → under gs k = some j → Same i j) → Same (.map es) (.map gs)

mutual
/-- The shapes the planner makes: the keys in an object are different, and no field is expected under `__typename`. -/
inductive ShapeOk : Shape → Prop where
  | leaf : ShapeOk .leaf
  | list {s : Shape} : ShapeOk s → ShapeOk (.list s)
  | concrete {c : Concrete} : ConcreteOk c → ShapeOk (.concrete c)
  | poly {ps : List (Name × Concrete)} {fb : Option Concrete} : (ps.map (·.1)).Nodup → (∀ p ∈ ps, ConcreteOk p.2) →
      (∀ c, fb = some c → ConcreteOk c) → ShapeOk (.poly ps fb)
inductive ConcreteOk : Concrete → Prop where
  | mk {i : Ident} {ts : List Nat} {fs : List Field} : (fs.map Field.key ++ ts).Nodup → (fs.map Field.expected).Nodup →
      (∀ f ∈ fs, f.expected ≠ "__typename") → (∀ f ∈ fs, ShapeOk f.shape) → ConcreteOk (.mk i ts fs)
end

mutual
/-- The type of an object is not looked for while it is read with a concrete shape. -/
inductive NoDetect : Shape → Prop where
  | leaf : NoDetect .leaf
  | list {s : Shape} : NoDetect s → NoDetect (.list s)
  | concrete {c : Concrete} : (∀ p, c.ident ≠ .detect p) → NoDetectIn c → NoDetect (.concrete c)
  | poly {ps : List (Name × Concrete)} {fb : Option Concrete} : (∀ p ∈ ps, NoDetectIn p.2) →
      (∀ c, fb = some c → NoDetectIn c) → NoDetect (.poly ps fb)
inductive NoDetectIn : Concrete → Prop where
  | mk {i : Ident} {ts : List Nat} {fs : List Field} : (∀ f ∈ fs, NoDetect f.shape) → NoDetectIn (.mk i ts fs)
end

end Verif.TypeChoice
