import Verif.StoreUrls.Model

namespace Verif.StoreUrls

/-- Names which are one segment of a path: they have no separators, and are no dot segments. -/
structure Plain (s : List Char) : Prop where
  chars : ∀ c ∈ s, c ≠ '/' ∧ c ≠ '\\' ∧ c ≠ '\t' ∧ c ≠ '\n' ∧ c ≠ '\r'
  dots : String.ofList s ∉ [".", "%2e", "%2E", "..", ".%2e", ".%2E", "%2e.", "%2E.", "%2e%2e", "%2e%2E", "%2E%2e", "%2E%2E"]

/-- Letters, digits, and `-`, `.`, `_` and `~`. -/
def Unreserved (c : Char) : Prop :=
  ('a'.toNat ≤ c.toNat ∧ c.toNat ≤ 'z'.toNat) ∨ ('A'.toNat ≤ c.toNat ∧ c.toNat ≤ 'Z'.toNat) ∨ ('0'.toNat ≤ c.toNat ∧ c.toNat ≤ '9'.toNat) ∨
    c = '-' ∨ c = '.' ∨ c = '_' ∨ c = '~'

/-- Identifiers. -/
structure Clean (s : List Char) : Prop where
  chars : ∀ c ∈ s, Unreserved c
  dots : s ≠ ['.'] ∧ s ≠ ['.', '.']

/-- The value of a digit of hexadecimal numbers. -/
def digitOf (c : Char) : Nat := if c.toNat ≤ '9'.toNat then c.toNat - '0'.toNat else c.toNat - 'A'.toNat + 10

/-- The bytes which a server reads in a segment. -/
def unescape : List Char → List Nat
  | '%' :: a :: b :: r => (digitOf a * 16 + digitOf b) :: unescape r
  | c :: r => c.toNat :: unescape r
  | [] => []

/-- The bytes which a server reads in a value of a form. -/
def unescapeForm : List Char → List Nat
  | '%' :: a :: b :: r => (digitOf a * 16 + digitOf b) :: unescapeForm r
  | '+' :: r => 0x20 :: unescapeForm r
  | c :: r => c.toNat :: unescapeForm r
  | [] => []

/-- The characters of bytes in UTF-8. -/
def points : List Nat → List Nat
  | a :: r =>
    if a < 0x80 then a :: points r
    else
      match r with
      | b :: r =>
        if a < 0xE0 then ((a - 0xC0) * 64 + (b - 0x80)) :: points r
        else
          match r with
          | c :: r =>
            if a < 0xF0 then ((a - 0xE0) * 4096 + (b - 0x80) * 64 + (c - 0x80)) :: points r
            else
              match r with
              | d :: r => ((a - 0xF0) * 262144 + (b - 0x80) * 4096 + (c - 0x80) * 64 + (d - 0x80)) :: points r
              | [] => []
          | [] => []
      | [] => []
  | [] => []

end Verif.StoreUrls
