import Verif.NullProp.Spec

/-!
# Concrete shapes and responses
-/
namespace Verif.NullProp

/-- Every leaf is accepted. -/
def anyLeaf : Leaf → Bool := fun _ => true

/-- No type is inaccessible. -/
def noneHidden : Nat → Bool := fun _ => false

/-- A field with its key, query position and expected key all equal to `n`. -/
def fieldOf (n : Nat) (req : Bool) (sh : Shape) : FieldShape := .mk ⟨n, n⟩ n (.base req) sh false 0

/-- A scalar field. -/
def leafField (n : Nat) (req : Bool) : FieldShape := fieldOf n req (.scalar false anyLeaf)

/-- An object field of a known type. -/
def objField (n : Nat) (req : Bool) (fs : List FieldShape) : FieldShape := fieldOf n req (.obj (.known 9) none [] fs)

/-- A root plan. -/
def rootOf (fs : List FieldShape) : RootShape := ⟨[], fs, .propagateNull⟩

/-- The shape of an object with the fields. -/
def shapeOf (fs : List FieldShape) : Shape := .obj (.known 7) none [] fs

/-- A number. -/
def num (n : Nat) : Json := .leaf ⟨false, n⟩

/-- An object with one field. -/
def single (k : Nat) (j : Json) : Json := .map (.cons k j .nil)

/-! `{ a  b { c! } } ` and `{ d { e! }  f: [[Int]!] }`. -/

def planP : RootShape × Entries :=
  (⟨[⟨2, 20⟩], [leafField 1 false, objField 3 false [leafField 4 true, leafField 5 false]], .propagateNull⟩,
    .cons 3 (single 5 (num 8)) (.cons 1 (num 6) .nil))

def planQ : RootShape × Entries :=
  (rootOf [objField 6 false [leafField 7 true],
      .mk ⟨8, 8⟩ 8 (.list false (.list true (.base false))) (.scalar false anyLeaf) false 0],
    .cons 6 (single 7 (num 9)) (.cons 8 (.list (.cons (.list (.cons (num 1) (.cons .null .nil))) .nil)) .nil))

/-! Plans that share the root field 1: `{ 1 { 2 } }` and `{ 1 { 3 { 4! } } }`. -/

def sharedA : RootShape := rootOf [objField 1 false [leafField 2 false]]
def sharedB : RootShape := rootOf [objField 1 false [objField 3 false [leafField 4 true]]]
def sharedBoth : Shape := shapeOf [objField 1 false [leafField 2 false, objField 3 false [leafField 4 true]]]
def jsonA : Json := single 1 (single 2 (num 5))
def jsonB : Json := single 1 (single 3 (single 4 .null))

/-! `{ 1!  2 }`, with 2 twice in the subgraph response. -/

def dupShape : RootShape := rootOf [leafField 1 true, leafField 2 false]
def dupJson : Json := .map (.cons 2 (num 5) (.cons 2 (num 5) .nil))

/-! `{ 1!  2 }`, with a subgraph response that ends in the middle of 2. -/

def cutJson : Json := single 2 .bad

/-! A list of objects of an interface; the `__typename` of an item is a number. -/

def listShape : RootShape :=
  rootOf [.mk ⟨1, 1⟩ 1 (.list false (.base false)) (.obj (.detect [9]) none [] [leafField 2 false]) false 0]
def listJson : Json := single 1 (.list (.cons (single typenameKey (num 3)) .nil))

end Verif.NullProp
