import Verif.SdlText.Model

/-!
# How GraphQL text is read

Section 2 of the GraphQL specification: ignored tokens, punctuators, names, numbers, strings and block strings, then values,
arguments, directives and selections. Exponents of numbers and escapes in braces are not read.
-/
namespace Verif.SdlText

inductive Token where
  | punct (c : Char)
  | dots
  | name (n : Text)
  | int (i : Int)
  | float (d : Dec)
  | str (s : Text)
  deriving DecidableEq

def isNewline (c : Char) : Bool := c == '\n' || c == '\r'

/-- White space, line terminators, commas, the byte order mark. -/
def isIgnored (c : Char) : Bool := c == ' ' || c == '\t' || isNewline c || c == ',' || c.toNat == 0xFEFF

def isPunct (c : Char) : Bool := ['!', '$', '&', '(', ')', ':', '=', '@', '[', ']', '{', '|', '}'].contains c

def isLetter (c : Char) : Bool :=
  (decide (65 ≤ c.toNat) && decide (c.toNat ≤ 90)) || (decide (97 ≤ c.toNat) && decide (c.toNat ≤ 122)) || c == '_'

def isDigit (c : Char) : Bool := decide (48 ≤ c.toNat) && decide (c.toNat ≤ 57)

def isNameChar (c : Char) : Bool := isLetter c || isDigit c

def digitValue (c : Char) : Nat := c.toNat - 48

def hexValue (c : Char) : Option Nat :=
  if isDigit c then some (c.toNat - 48)
  else if decide (97 ≤ c.toNat) && decide (c.toNat ≤ 102) then some (c.toNat - 87)
  else if decide (65 ≤ c.toNat) && decide (c.toNat ≤ 70) then some (c.toNat - 55)
  else none

/-- The character of four hexadecimal digits. -/
def unicode (a b c d : Char) : Option Char :=
  match hexValue a, hexValue b, hexValue c, hexValue d with
  | some a, some b, some c, some d =>
    let n := ((a * 16 + b) * 16 + c) * 16 + d
    if n < 0xD800 ∨ 0xDFFF < n then some (Char.ofNat n) else none
  | _, _, _, _ => none

def escaped (c : Char) : Option Char :=
  if c = '"' then some '"'
  else if c = '\\' then some '\\'
  else if c = '/' then some '/'
  else if c = 'b' then some (Char.ofNat 8)
  else if c = 'f' then some (Char.ofNat 12)
  else if c = 'n' then some '\n'
  else if c = 'r' then some '\r'
  else if c = 't' then some '\t'
  else none

/-- What is left after the ignored tokens. -/
def skip (comment : Bool) : Text → Text
  | [] => []
  | c :: s =>
    if comment then skip (!isNewline c) s
    else if isIgnored c then skip false s
    else if c = '#' then skip true s
    else c :: s

def cons1 {β : Type} (c : Char) : Option (Text × β) → Option (Text × β)
  | some (t, r) => some (c :: t, r)
  | none => none

/-- The rest of a string, after its first quote. -/
def lexString : Text → Option (Text × Text)
  | [] => none
  | c :: s =>
    if c = '"' then some ([], s)
    else if isNewline c then none
    else if c = '\\' then
      match s with
      | [] => none
      | e :: s =>
        if e = 'u' then
          match s with
          | a :: b :: c :: d :: s =>
            match unicode a b c d with
            | some x => cons1 x (lexString s)
            | none => none
          | _ => none
        else
          match escaped e with
          | some x => cons1 x (lexString s)
          | none => none
    else cons1 c (lexString s)

/-- The raw text of a block string, after its first quotes; the next `k` characters are taken as they are. -/
def lexBlock (k : Nat) : Text → Option (Text × Text)
  | [] => none
  | c :: s =>
    if 0 < k then cons1 c (lexBlock (k - 1) s)
    else if c = '"' ∧ s.take 2 = ['"', '"'] then some ([], s.drop 2)
    else if c = '\\' ∧ s.take 3 = ['"', '"', '"'] then lexBlock 3 s
    else cons1 c (lexBlock 0 s)

/-- The lines of a block string, with the line read so far, and whether a carriage return was just read. -/
def blockLines (cr : Bool) (cur : Text) : Text → List Text
  | [] => [cur]
  | c :: s =>
    if c = '\n' then (if cr then blockLines false [] s else cur :: blockLines false [] s)
    else if c = '\r' then cur :: blockLines true [] s
    else blockLines false (cur ++ [c]) s

def isBlank (c : Char) : Bool := c == ' ' || c == '\t'

def blankLine (l : Text) : Bool := l.all isBlank

def indentOf (l : Text) : Nat := (l.takeWhile isBlank).length

/-- The smallest indentation of the lines that are not blank. -/
def commonIndent : List Text → Option Nat
  | [] => none
  | l :: ls =>
    if blankLine l then commonIndent ls
    else match commonIndent ls with
      | none => some (indentOf l)
      | some m => some (min (indentOf l) m)

def dropBlank (ls : List Text) : List Text := (((ls.dropWhile blankLine).reverse).dropWhile blankLine).reverse

def joinLines : List Text → Text
  | [] => []
  | [l] => l
  | l :: ls => l ++ '\n' :: joinLines ls

/-- `BlockStringValue`. -/
def blockValue (raw : Text) : Text :=
  match blockLines false [] raw with
  | [] => []
  | first :: rest => joinLines (dropBlank (first :: rest.map (fun l => l.drop ((commonIndent rest).getD 0))))

def number (ds : Text) : Nat := ds.foldl (fun n c => n * 10 + digitValue c) 0

/-- What may not follow a number. -/
def continues (c : Char) : Bool := isNameChar c || c == '.'

def ends : Text → Bool
  | [] => true
  | c :: _ => !continues c

/-- No zero stands before other digits. -/
def wellFormed : Text → Bool
  | [] => false
  | [_] => true
  | c :: _ :: _ => c != '0'

/-- A number without its sign. -/
def lexNumber (neg : Bool) (s : Text) : Option (Token × Text) :=
  let ds := s.takeWhile isDigit
  let r := s.dropWhile isDigit
  if wellFormed ds then
    match r with
    | '.' :: r =>
      let fs := r.takeWhile isDigit
      let r := r.dropWhile isDigit
      if !fs.isEmpty && ends r then some (.float ⟨neg, number ds, fs.map digitValue⟩, r) else none
    | r => if ends r then some (.int (if neg then - (number ds : Int) else number ds), r) else none
  else none

/-- The token at the head of a text, which is not ignored. -/
def lexToken : Text → Option (Token × Text)
  | [] => none
  | c :: s =>
    if isPunct c then some (.punct c, s)
    else if isLetter c then some (.name (c :: s.takeWhile isNameChar), s.dropWhile isNameChar)
    else if c = '-' then lexNumber true s
    else if isDigit c then lexNumber false (c :: s)
    else if c = '"' then
      match s with
      | '"' :: '"' :: s =>
        match lexBlock 0 s with
        | some (raw, s) => some (.str (blockValue raw), s)
        | none => none
      | _ =>
        match lexString s with
        | some (t, s) => some (.str t, s)
        | none => none
    else if c = '.' then
      match s with
      | '.' :: '.' :: s => some (.dots, s)
      | _ => none
    else none

def lexN : Nat → Text → Option (List Token)
  | 0, _ => none
  | f + 1, s =>
    if (skip false s).isEmpty then some []
    else
      match lexToken (skip false s) with
      | none => none
      | some (t, r) =>
        match lexN f r with
        | none => none
        | some ts => some (t :: ts)

/-- The tokens of a text. -/
def lex (s : Text) : Option (List Token) := lexN (s.length + 1) s

def ofName (n : Text) : Value :=
  if n = nullText then .null else if n = trueText then .bool true else if n = falseText then .bool false else .enum n

mutual
def parseValue : Nat → List Token → Option (Value × List Token)
  | 0, _ => none
  | f + 1, ts =>
    match ts with
    | .str s :: r => some (.str s, r)
    | .int i :: r => some (.int i, r)
    | .float d :: r => some (.float d, r)
    | .name n :: r => some (ofName n, r)
    | .punct '[' :: r =>
      match parseItems f r with
      | some (vs, r) => some (.list vs, r)
      | none => none
    | .punct '{' :: r =>
      match parseFields f '}' r with
      | some (fs, r) => some (.object fs, r)
      | none => none
    | _ => none
/-- The items up to the closing bracket. -/
def parseItems : Nat → List Token → Option (List Value × List Token)
  | 0, _ => none
  | f + 1, ts =>
    match ts with
    | .punct ']' :: r => some ([], r)
    | ts =>
      match parseValue f ts with
      | none => none
      | some (v, r) =>
        match parseItems f r with
        | none => none
        | some (vs, r) => some (v :: vs, r)
/-- The names and values up to the closing character. -/
def parseFields : Nat → Char → List Token → Option (List (Text × Value) × List Token)
  | 0, _, _ => none
  | f + 1, close, ts =>
    match ts with
    | .punct c :: r => if c = close then some ([], r) else none
    | .name k :: .punct ':' :: r =>
      match parseValue f r with
      | none => none
      | some (v, r) =>
        match parseFields f close r with
        | none => none
        | some (fs, r) => some ((k, v) :: fs, r)
    | _ => none
end

/-- The arguments, if there are any: at least one in the parentheses. -/
def parseArgs (f : Nat) (ts : List Token) : Option (List (Text × Value) × List Token) :=
  match ts with
  | .punct '(' :: r =>
    match parseFields f ')' r with
    | some (a :: as, r) => some (a :: as, r)
    | _ => none
  | ts => some ([], ts)

/-- A text that is a value. -/
def readValue (s : Text) : Option Value :=
  match lex s with
  | none => none
  | some ts =>
    match parseValue (ts.length + 1) ts with
    | some (v, []) => some v
    | _ => none

/-- A text that is a directive. -/
def readDirective (s : Text) : Option (Text × List (Text × Value)) :=
  match lex s with
  | some (.punct '@' :: .name n :: ts) =>
    match parseArgs (ts.length + 1) ts with
    | some (as, []) => some (n, as)
    | _ => none
  | _ => none

/-- The selections up to the closing brace, or to the end. -/
def parseSels : Nat → List Token → Option (List Sel × List Token)
  | 0, _ => none
  | f + 1, ts =>
    match ts with
    | [] => some ([], [])
    | .punct '}' :: r => some ([], .punct '}' :: r)
    | .dots :: .name o :: .name t :: .punct '{' :: r =>
      if o = ['o', 'n'] then
        match parseSels f r with
        | some (s :: sub, .punct '}' :: r) =>
          match parseSels f r with
          | some (ss, r) => some (.fragment t (s :: sub) :: ss, r)
          | none => none
        | _ => none
      else none
    | .name n :: r =>
      match parseArgs f r with
      | none => none
      | some (as, r) =>
        match r with
        | .punct '{' :: r =>
          match parseSels f r with
          | some (s :: sub, .punct '}' :: r) =>
            match parseSels f r with
            | some (ss, r) => some (.field n as (s :: sub) :: ss, r)
            | none => none
          | _ => none
        | r =>
          match parseSels f r with
          | some (ss, r) => some ((if n = typenameText ∧ as = [] then .typename else .field n as []) :: ss, r)
          | none => none
    | _ => none

/-- A text that is a field set. -/
def readFieldSet (s : Text) : Option (List Sel) :=
  match lex s with
  | none => none
  | some ts =>
    match parseSels (ts.length + 1) ts with
    | some (ss, []) => some ss
    | _ => none

/-- A name. -/
def IsName (n : Text) : Prop := ∃ c s, n = c :: s ∧ isLetter c = true ∧ ∀ x ∈ s, isNameChar x = true

mutual
/-- Names are names, digits are digits. -/
def Value.Ok : Value → Prop
  | .enum n => IsName n ∧ n ≠ nullText ∧ n ≠ trueText ∧ n ≠ falseText
  | .float d => ∀ x ∈ d.frac, x < 10
  | .list vs => OkList vs
  | .object fs => OkFields fs
  | _ => True
def OkList : List Value → Prop
  | [] => True
  | v :: vs => v.Ok ∧ OkList vs
def OkFields : List (Text × Value) → Prop
  | [] => True
  | (k, v) :: fs => IsName k ∧ v.Ok ∧ OkFields fs
end

/-- The character is written so that it is read: it is no control character, or one with an escape of its own, or one whose
code is the same in both bases. -/
def Plain (c : Char) : Prop :=
  c.toNat < 32 ∨ (127 ≤ c.toNat ∧ c.toNat < 160) → c = '\n' ∨ c = '\t' ∨ c = '\r' ∨ c.toNat < 10

mutual
/-- Strings are of plain characters, numbers with a fraction have one. -/
def Value.Faithful : Value → Prop
  | .str s => ∀ c ∈ s, Plain c
  | .float d => d.frac ≠ []
  | .list vs => FaithfulList vs
  | .object fs => FaithfulFields fs
  | _ => True
def FaithfulList : List Value → Prop
  | [] => True
  | v :: vs => v.Faithful ∧ FaithfulList vs
def FaithfulFields : List (Text × Value) → Prop
  | [] => True
  | (_, v) :: fs => v.Faithful ∧ FaithfulFields fs
end

mutual
/-- Names are names, arguments are read as written, fragments select something, `__typename` is not a field with its name. -/
def Sel.Ok : Sel → Prop
  | .field n args sub => IsName n ∧ n ≠ typenameText ∧ OkFields args ∧ FaithfulFields args ∧ OkSels sub
  | .fragment on sub => IsName on ∧ sub ≠ [] ∧ OkSels sub
  | .typename => True
def OkSels : List Sel → Prop
  | [] => True
  | s :: ss => s.Ok ∧ OkSels ss
end

/-- The paragraphs of a text: its lines with something in them, those that follow each other together. -/
def paragraphs : List Text → List (List Text)
  | [] => []
  | l :: ls =>
    if l.isEmpty then paragraphs ls
    else
      match ls with
      | [] => [[l]]
      | m :: _ =>
        if m.isEmpty then [l] :: paragraphs ls
        else match paragraphs ls with
          | [] => [[l]]
          | p :: ps => (l :: p) :: ps

/-- The characters with the property `White_Space` of Unicode. -/
def White (c : Char) : Bool :=
  [9, 10, 11, 12, 13, 32, 0x85, 0xA0, 0x1680, 0x2000, 0x2001, 0x2002, 0x2003, 0x2004, 0x2005, 0x2006, 0x2007, 0x2008, 0x2009,
    0x200A, 0x2028, 0x2029, 0x202F, 0x205F, 0x3000].contains c.toNat

/-- A line without the white space around it. -/
def stripped (l : Text) : Text := ((l.dropWhile White).reverse.dropWhile White).reverse

/-- A text without the white space at its end. -/
def strippedEnd (l : Text) : Text := (l.reverse.dropWhile White).reverse

/-- The text holds three quotes in a row. -/
def HoldsQuotes (s : Text) : Prop := ∃ a b, s = a ++ ['"', '"', '"'] ++ b

end Verif.SdlText
