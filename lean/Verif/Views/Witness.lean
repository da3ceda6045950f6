import Verif.Views.Lemmas

/-!
# Views of the response: concrete cases
-/

namespace Verif.Views.Witness

open Verif.Views

/-! A user (definition 1) with an id, a name, a list of products (definition 2) and an address that is
inaccessible. The response keys are 10 (`id`), 11 (`n`, an alias of `name`), 12 (`products`),
13 (`upc`), 14 (`price`), 15 (`address`), 16 (`city`), 17 (`secret`). -/

def dId : Data := ⟨10, "id", .object 1, 0⟩
def dName : Data := ⟨11, "name", .object 1, 1⟩
def dProducts : Data := ⟨12, "products", .object 1, 2⟩
def dUpc : Data := ⟨13, "upc", .interface [2, 3], 3⟩
def dPrice : Data := ⟨14, "price", .object 3, 4⟩
def dAddress : Data := ⟨15, "address", .object 1, 5⟩
def dCity : Data := ⟨16, "city", .object 4, 6⟩

def user : Obj :=
  ⟨some 1, [(10, .leaf "u1"), (11, .leaf "Ada"), (17, .leaf "secret"),
    (12, .list [.object (some 2) [(13, .leaf "p1"), (17, .leaf "secret")],
                .object (some 3) [(13, .leaf "p2"), (14, .leaf "12.5")], .null]),
    (15, .inaccessible (.object (some 4) [(16, .leaf "Berlin")]))]⟩

/-- The same user with another secret. -/
def user' : Obj :=
  ⟨some 1, [(10, .leaf "u1"), (11, .leaf "Ada"), (17, .null),
    (12, .list [.object (some 2) [(13, .leaf "p1")],
                .object (some 3) [(13, .leaf "p2"), (14, .leaf "12.5"), (17, .leaf "x")], .null]),
    (15, .inaccessible (.object (some 4) [(16, .leaf "Berlin")]))]⟩

/-- `id name products { upc ... on Book { price } } address { city }`. -/
def reqs : List (Item Data) :=
  [.mk 0 dId [], .mk 1 dName [], .mk 2 dProducts [.mk 3 dUpc [], .mk 4 dPrice []], .mk 5 dAddress [.mk 6 dCity []]]

/-- `name products { price }`. -/
def fs : List (Item Unit) := [.mk 1 () [], .mk 2 () [.mk 4 () []]]

def products : Json :=
  .list [.obj [("upc", .leaf "p1")], .obj [("upc", .leaf "p2"), ("price", .leaf "12.5")], .null]

/-! A selection `{ who: { name }, where: address.city, items: products[{ code: upc }], limit: 10 }`,
with the keys 0 (`who`), 1 (`where`), 2 (`items`), 3 (`limit`), 4 (`name`), 5 (`code`). -/

def names : Nat → String
  | 0 => "who"
  | 1 => "where"
  | 2 => "items"
  | 3 => "limit"
  | 4 => "name"
  | _ => "code"

def sel : Sel :=
  .object [] [(0, .value (.object [] [(4, .field 1)])), (1, .value (.path 5 [6])),
    (2, .value (.list [2] (.object [] [(5, .field 3)]))), (3, .default (.leaf "10"))]

/-! The root `x { n1 n2 }`, split over two partitions: the nodes 1 and 3 are both `x` (schema field 7),
2 is `n1` (8) and 4 is `n2` (9). -/

def dX (node : Nat) : Data := ⟨20, "x", .object 0, node⟩
def dN1 : Data := ⟨21, "n1", .object 5, 2⟩
def dN2 : Data := ⟨22, "n2", .object 5, 4⟩

def shared : Graph where
  edges
    | 1 => [.field 2]
    | 3 => [.partition 5, .other]
    | 5 => [.field 4]
    | _ => []
  field
    | 1 => some (7, dX 1)
    | 2 => some (8, dN1)
    | 3 => some (7, dX 3)
    | 4 => some (9, dN2)
    | _ => none
  composite := fun id => id == 7

def sharedSet : List (Item Data) := [.mk 7 (dX 1) [.mk 8 dN1 []], .mk 7 (dX 3) [.mk 9 dN2 []]]

/-- `x { n1 n2 }`. -/
def sharedFs : List (Item Unit) := [.mk 7 () [.mk 8 () [], .mk 9 () []]]

def root : Obj := ⟨some 0, [(20, .object (some 5) [(21, .leaf "1"), (22, .leaf "2")])]⟩

/-! A solution in which `products` (2) has `upc` (3) and, in a partition, `price` (4). -/

def plain : Graph where
  edges
    | 2 => [.partition 7, .field 3]
    | 7 => [.field 4]
    | _ => []
  field
    | 0 => some (0, dId)
    | 2 => some (2, dProducts)
    | 3 => some (3, dUpc)
    | 4 => some (4, dPrice)
    | 5 => some (5, dAddress)
    | _ => none
  composite := fun id => id == 2 || id == 5

end Verif.Views.Witness
