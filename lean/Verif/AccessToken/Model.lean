/-!
# The access token

* `crates/federated-server/src/access_token.rs` lines 20-59

Simplifications: strings are lists of code points. `http::HeaderValue::from_str` is as its documentation says: bytes 32 to 255 but for
127, and the tab. `str::trim` removes code points with the Unicode property `White_Space`.
-/
namespace Verif.AccessToken

/-- `char::is_whitespace`. -/
def isWs (c : Nat) : Bool :=
  (9 ≤ c && c ≤ 13) || c == 32 || c == 0x85 || c == 0xA0 || c == 0x1680 || (0x2000 ≤ c && c ≤ 0x200A) || c == 0x2028 || c == 0x2029 ||
    c == 0x202F || c == 0x205F || c == 0x3000

/-- `str::trim` (44). -/
def trim (s : List Nat) : List Nat := ((s.dropWhile isWs).reverse.dropWhile isWs).reverse

/-- The bytes of a code point. -/
def utf8 (c : Nat) : List Nat :=
  if c < 0x80 then [c]
  else if c < 0x800 then [0xC0 + c / 64, 0x80 + c % 64]
  else if c < 0x10000 then [0xE0 + c / 4096, 0x80 + c / 64 % 64, 0x80 + c % 64]
  else [0xF0 + c / 262144, 0x80 + c / 4096 % 64, 0x80 + c / 64 % 64, 0x80 + c % 64]

/-- What `HeaderValue::from_str` accepts. -/
def validByte (b : Nat) : Bool := (32 ≤ b && b != 127) || b == 9

/-- `"Bearer "` (52). -/
def bearer : List Nat := [66, 101, 97, 114, 101, 114, 32]

def headerValue (token : List Nat) : List Nat := (bearer ++ token).flatMap utf8

inductive Res where
  | ok (token : List Nat)
  | empty
  | invalid
deriving DecidableEq, Repr

/-- `AccessToken::new` (42-59). -/
def new (s : List Nat) : Res :=
  let t := trim s
  if t.isEmpty then .empty
  else if (headerValue t).all validByte then .ok t
  else .invalid

/-- The environment variable. -/
inductive Var where
  | unset
  | text (s : List Nat)
  /-- not Unicode -/
  | other
deriving DecidableEq, Repr

/-- `from_env` (20-26); `none`: no token. -/
def fromEnv : Var → Option Res
  | .text s => some (new s)
  | .unset => none
  | .other => none

/-- `is_defined_in_env` (37-39). -/
def isDefined : Var → Bool
  | .text _ => true
  | .unset => false
  | .other => false

end Verif.AccessToken
