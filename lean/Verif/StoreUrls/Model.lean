/-!
# The URLs of documents and graphs in the object storage

Modelled from `crates/federated-server/src/engine/trusted_documents_client.rs` and
`crates/federated-server/src/graph/loader/object_storage.rs`.

`Url::set_path` is that of the `url` crate (2.5.7) for URLs of HTTP, which follows the path state of the URL Standard: it is modelled
here, with one simplification. Whether a segment is a dot segment is decided before it is encoded: none of the characters of dot
segments are encoded, and no other is encoded as `%2E`. Query and fragment, which `set_path` keeps, are left out.
-/
namespace Verif.StoreUrls

/-! ## `set_path` -/

/-- The bytes of a character in UTF-8. -/
def utf8 (n : Nat) : List Nat :=
  if n < 0x80 then [n]
  else if n < 0x800 then [0xC0 + n / 64, 0x80 + n % 64]
  else if n < 0x10000 then [0xE0 + n / 4096, 0x80 + n / 64 % 64, 0x80 + n % 64]
  else [0xF0 + n / 262144, 0x80 + n / 4096 % 64, 0x80 + n / 64 % 64, 0x80 + n % 64]

def hexDigits : List Char := "0123456789ABCDEF".toList

/-- A byte in percent-encoding. -/
def percent (b : Nat) : List Char := ['%', hexDigits.getD (b / 16 % 16) '0', hexDigits.getD (b % 16) '0']

/-- The characters which are encoded in a path: controls, those which are not ASCII, and some others. -/
def mustEncode (c : Char) : Bool :=
  c.toNat < 0x20 || c.toNat ≥ 0x7F || [' ', '"', '<', '>', '`', '#', '?', '{', '}', '^'].contains c

def encodeChar (c : Char) : List Char := if mustEncode c then (utf8 c.toNat).flatMap percent else [c]

def encode (s : List Char) : List Char := s.flatMap encodeChar

/-- The separators of URLs of HTTP. -/
def isSlash (c : Char) : Bool := c == '/' || c == '\\'

/-- Tabs and newlines are dropped. -/
def strip (s : List Char) : List Char := s.filter (fun c => c != '\t' && c != '\n' && c != '\r')

def segments : List Char → List (List Char)
  | [] => [[]]
  | c :: cs =>
    if isSlash c then [] :: segments cs
    else
      match segments cs with
      | [] => [[c]]
      | s :: ss => (c :: s) :: ss

def singleDots : List (List Char) := [".".toList, "%2e".toList, "%2E".toList]

def doubleDots : List (List Char) :=
  ["..".toList, ".%2e".toList, ".%2E".toList, "%2e.".toList, "%2E.".toList, "%2e%2e".toList, "%2e%2E".toList, "%2E%2e".toList, "%2E%2E".toList]

/-- The path state: the segments there are, and those which follow. -/
def walk : List (List Char) → List (List Char) → List (List Char)
  | done, [] => done
  | done, s :: rest =>
    if doubleDots.contains s then walk (if rest.isEmpty then done.dropLast ++ [[]] else done.dropLast) rest
    else if singleDots.contains s then walk (if rest.isEmpty then done ++ [[]] else done) rest
    else walk (done ++ [encode s]) rest

/-- A slash at the start of the path is skipped. -/
def dropSlash (s : List Char) : List Char :=
  match s with
  | [] => []
  | c :: cs => if isSlash c then cs else c :: cs

def setPath (path : List Char) : List (List Char) := walk [] (segments (dropSlash (strip path)))

/-- The path of a URL. -/
def render (segs : List (List Char)) : List Char := segs.flatMap (fun s => '/' :: s)

/-! ## Trusted documents -/

/-- `trusted_document_url` (trusted_documents_client.rs:113-118): the path; what path the host has is lost. -/
def documentPath (branch client doc : List Char) : List (List Char) :=
  setPath ("trusted-documents/branch/".toList ++ branch ++ '/' :: client ++ '/' :: doc)

/-! ## Graphs -/

/-- `url::form_urlencoded::byte_serialize` of a byte. -/
def formByte (b : Nat) : List Char :=
  if b = 0x20 then ['+']
  else if [0x2A, 0x2D, 0x2E, 0x5F].contains b || (0x30 ≤ b && b ≤ 0x39) || (0x41 ≤ b && b ≤ 0x5A) || (0x61 ≤ b && b ≤ 0x7A) then [Char.ofNat b]
  else percent b

def form (bytes : List Nat) : List Char := bytes.flatMap formByte

/-- `GraphRef`, with the bytes of the name of the branch. -/
inductive Ref where
  | production (slug : List Char)
  | latest (slug : List Char) (branch : List Nat)
  | version (slug : List Char) (branch : List Nat) (id : List Char)
deriving DecidableEq

/-- The path of a graph (object_storage.rs:126-145). -/
def graphPath : Ref → List (List Char)
  | .production slug => setPath ("/graphs/".toList ++ slug)
  | .latest slug branch => setPath ("/graphs/".toList ++ slug ++ "/branch/".toList ++ form branch)
  | .version slug branch id => setPath ("/graphs/".toList ++ slug ++ "/branch/".toList ++ form branch ++ "/version/".toList ++ id)

end Verif.StoreUrls
