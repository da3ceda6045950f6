import Verif.Templates.Model
import Verif.StoreUrls.Spec

/-! What a reader of JSON, and a server, make of what is rendered. -/
namespace Verif.Templates

/-! ## A reader of JSON -/

def hexOf (c : Char) : Nat :=
  if 'a'.toNat ≤ c.toNat then c.toNat - 'a'.toNat + 10 else if 'A'.toNat ≤ c.toNat then c.toNat - 'A'.toNat + 10 else c.toNat - '0'.toNat

/-- The character of a short escape. -/
def shortEscape (c : Char) : Option Char :=
  if c = '"' then some '"'
  else if c = '\\' then some '\\'
  else if c = '/' then some '/'
  else if c = 'b' then some (Char.ofNat 8)
  else if c = 'f' then some (Char.ofNat 12)
  else if c = 'n' then some '\n'
  else if c = 'r' then some '\r'
  else if c = 't' then some '\t'
  else none

/-- A character in front of what was read. -/
def consTo (c : Char) : Option (Str × Str) → Option (Str × Str)
  | some (s, r) => some (c :: s, r)
  | none => none

/-- A string, after its first quote, and what follows it. -/
def readStr : Str → Option (Str × Str)
  | [] => none
  | '"' :: r => some ([], r)
  | '\\' :: 'u' :: a :: b :: c :: d :: r => consTo (Char.ofNat (hexOf a * 4096 + hexOf b * 256 + hexOf c * 16 + hexOf d)) (readStr r)
  | '\\' :: x :: r =>
    match shortEscape x with
    | some c => consTo c (readStr r)
    | none => none
  | c :: r => if c.toNat < 32 then none else consTo c (readStr r)

def numberChar (c : Char) : Bool := ('0'.toNat ≤ c.toNat && c.toNat ≤ '9'.toNat) || c = '-' || c = '+' || c = '.' || c = 'e' || c = 'E'

def literal (word : Str) (v : Json) (s : Str) : Option (Json × Str) :=
  if word.isPrefixOf s then some (v, s.drop word.length) else none

/-- A number, as long as it goes. -/
def readNum (s : Str) : Option (Json × Str) :=
  if (s.takeWhile numberChar).isEmpty then none else some (.num (s.takeWhile numberChar), s.dropWhile numberChar)

mutual
/-- A value and what follows it, with so many steps. -/
def read : Nat → Str → Option (Json × Str)
  | 0, _ => none
  | n + 1, s =>
    match s with
    | [] => none
    | 'n' :: _ => literal ['n', 'u', 'l', 'l'] .null s
    | 't' :: _ => literal ['t', 'r', 'u', 'e'] (.bool true) s
    | 'f' :: _ => literal ['f', 'a', 'l', 's', 'e'] (.bool false) s
    | '"' :: r =>
      match readStr r with
      | some (t, r) => some (.str t, r)
      | none => none
    | '[' :: ']' :: r => some (.arr [], r)
    | '[' :: r =>
      match read n r with
      | some (v, r) =>
        match readElems n r with
        | some (vs, r) => some (.arr (v :: vs), r)
        | none => none
      | none => none
    | '{' :: '}' :: r => some (.obj [], r)
    | '{' :: r =>
      match readField n r with
      | some (f, r) =>
        match readFields n r with
        | some (fs, r) => some (.obj (f :: fs), r)
        | none => none
      | none => none
    | _ => readNum s
/-- The rest of a list. -/
def readElems : Nat → Str → Option (List Json × Str)
  | 0, _ => none
  | n + 1, s =>
    match s with
    | ']' :: r => some ([], r)
    | ',' :: r =>
      match read n r with
      | some (v, r) =>
        match readElems n r with
        | some (vs, r) => some (v :: vs, r)
        | none => none
      | none => none
    | _ => none
/-- A name and its value. -/
def readField : Nat → Str → Option ((Str × Json) × Str)
  | 0, _ => none
  | n + 1, s =>
    match s with
    | '"' :: r =>
      match readStr r with
      | some (k, ':' :: r) =>
        match read n r with
        | some (v, r) => some ((k, v), r)
        | none => none
      | _ => none
    | _ => none
/-- The rest of an object. -/
def readFields : Nat → Str → Option (List (Str × Json) × Str)
  | 0, _ => none
  | n + 1, s =>
    match s with
    | '}' :: r => some ([], r)
    | ',' :: r =>
      match readField n r with
      | some (f, r) =>
        match readFields n r with
        | some (fs, r) => some (f :: fs, r)
        | none => none
      | none => none
    | _ => none
end

/-! ## Values whose numbers are numbers -/

/-- The characters of numbers as Rust writes them. -/
def writtenChar (c : Char) : Prop := ('0'.toNat ≤ c.toNat ∧ c.toNat ≤ '9'.toNat) ∨ c = '-' ∨ c = '.' ∨ c = 'e'

mutual
def Fine : Json → Prop
  | .null => True
  | .bool _ => True
  | .num t => t ≠ [] ∧ ∀ c ∈ t, writtenChar c
  | .str _ => True
  | .arr l => FineElems l
  | .obj l => FineFields l
def FineElems : List Json → Prop
  | [] => True
  | v :: vs => Fine v ∧ FineElems vs
def FineFields : List (Str × Json) → Prop
  | [] => True
  | (_, v) :: fs => Fine v ∧ FineFields fs
end

/-- What follows a value does not continue a number. -/
def Ends (rest : Str) : Prop := ∀ c, rest.head? = some c → numberChar c = false

/-- A text is JSON of a value: it is read as the value, whatever follows. -/
def IsJson (w : Str) (v : Json) : Prop := ∃ n, ∀ m ≥ n, ∀ rest, Ends rest → read m (w ++ rest) = some (v, rest)

/-- The characters which have no meaning in URLs. -/
def Harmless (c : Char) : Prop := StoreUrls.Unreserved c ∨ c = '%'

/-- What is read of a part of a URL, by the percent signs and UTF-8. -/
def urlText (w : Str) : List Nat := StoreUrls.points (StoreUrls.unescape w)

/-- A part of a URL is a value: what is read of it is the string, or JSON of the value. -/
def IsUrl (w : Str) (v : Json) : Prop :=
  (∀ c ∈ w, Harmless c) ∧ ∃ t : Str, urlText w = t.map Char.toNat ∧ ((∃ s, v = .str s ∧ t = s) ∨ ((∀ s, v ≠ .str s) ∧ IsJson t v))

/-- What of a value is written in a template. -/
def Is (e : Escaping) (w : Str) (v : Json) : Prop :=
  match e with
  | .json => IsJson w v
  | .url => IsUrl w v

/-! ## Values in values -/

inductive Sub : Json → Json → Prop where
  | refl (v : Json) : Sub v v
  | elem {l : List Json} {v w : Json} : v ∈ l → Sub v w → Sub (.arr l) w
  | field {l : List (Str × Json)} {k : Str} {v w : Json} : (k, v) ∈ l → Sub v w → Sub (.obj l) w

/-- The value at a path of keys. -/
inductive At : Json → List Str → Json → Prop where
  | here (v : Json) : At v [] v
  | field {before after : List (Str × Json)} {k : Str} {v w : Json} {ks : List Str} :
      (∀ f ∈ before, f.1 ≠ k) → At v ks w → At (.obj (before ++ (k, v) :: after)) (k :: ks) w

/-- The name of a path. -/
def dotted : Str → List Str → Str
  | k, [] => k
  | k, k' :: ks => k ++ '.' :: dotted k' ks

/-! ## Templates -/

mutual
/-- A template without tags which are not escaped. -/
def Escaped : Block → Prop
  | .text _ => True
  | .escaped _ => True
  | .unescaped _ => False
  | .section _ bs => EscapedAll bs
def EscapedAll : List Block → Prop
  | [] => True
  | b :: bs => Escaped b ∧ EscapedAll bs
end

mutual
/-- The texts of a template. -/
def HasText (s : Str) : Block → Prop
  | .text t => s = t
  | .escaped _ => False
  | .unescaped _ => False
  | .section _ bs => HasTextAll s bs
def HasTextAll (s : Str) : List Block → Prop
  | [] => False
  | b :: bs => HasText s b ∨ HasTextAll s bs
end

/-- What is put together: texts of the template, and values with what is written of them. -/
inductive Piece where
  | text (s : Str)
  | value (w : Str) (v : Json)

def Piece.str : Piece → Str
  | .text s => s
  | .value w _ => w

end Verif.Templates
