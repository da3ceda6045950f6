/-!
# Text form of schema paths

Model of `crates/graphql-schema-diff/src/path.rs`, `path/display.rs` and `path/parse.rs`.  A string is
the list of its characters; positions in a string count bytes of its UTF-8 form.
-/
namespace Verif.SchemaPath

abbrev Str := List Char

/-- `PathInField`, path.rs:53-56. -/
inductive InField where
  | argument (name : Str)
  | directive (name : Str) (idx : Nat)
  deriving DecidableEq, Repr

/-- `PathInType`, path.rs:46-50. -/
inductive InType where
  | field (name : Str) (inner : Option InField)
  | directive (name : Str) (idx : Nat)
  | interface (name : Str)
  deriving DecidableEq, Repr

/-- `Path`, path.rs:37-43. -/
inductive Path where
  | schema
  | schemaExt (idx : Nat)
  | type (name : Str) (inner : Option InType)
  | typeExt (name : Str) (idx : Nat) (inner : Option InType)
  | directiveDef (name : Str)
  deriving DecidableEq, Repr

/-- The text `:schema`. -/
def schemaLit : Str := [':', 's', 'c', 'h', 'e', 'm', 'a']

/-! ## Writing, display.rs -/

/-- The character of a decimal digit. -/
def digitChar (n : Nat) : Char := Char.ofNat (48 + n)

/-- `Display for usize`. -/
def digits (n : Nat) : Str := if n < 10 then [digitChar n] else digits (n / 10) ++ [digitChar (n % 10)]

/-- `write_index`, display.rs:79-83. -/
def writeIndex (idx : Nat) : Str := '[' :: (digits idx ++ [']'])

/-- display.rs:66-77. -/
def InField.write : InField → Str
  | .argument name => name
  | .directive name idx => '@' :: (name ++ writeIndex idx)

/-- display.rs:40-64. -/
def InType.write : InType → Str
  | .field name none => name
  | .field name (some f) => name ++ '.' :: f.write
  | .directive name idx => '@' :: (name ++ writeIndex idx)
  | .interface name => '&' :: name

/-- display.rs:3-38. -/
def Path.write : Path → Str
  | .schema => schemaLit
  | .schemaExt idx => schemaLit ++ writeIndex idx
  | .type name none => name
  | .type name (some t) => name ++ '.' :: t.write
  | .typeExt name idx none => name ++ writeIndex idx
  | .typeExt name idx (some t) => name ++ writeIndex idx ++ '.' :: t.write
  | .directiveDef name => '@' :: name

/-! ## Reading, parse.rs -/

/-- `Ok`, `Err(ParseError)` or a panic. -/
inductive Res (α : Type) where
  | ok (a : α)
  | err
  | panic
  deriving DecidableEq, Repr

def Res.bind {α β : Type} : Res α → (α → Res β) → Res β
  | .ok a, f => f a
  | .err, _ => .err
  | .panic, _ => .panic

/-- `str::split('.')`. -/
def splitDot : Str → List Str
  | [] => [[]]
  | c :: t =>
    if c = '.' then [] :: splitDot t
    else match splitDot t with
      | s :: r => (c :: s) :: r
      | [] => [[c]]

def isAlpha (c : Char) : Bool := (97 ≤ c.toNat && c.toNat ≤ 122) || (65 ≤ c.toNat && c.toNat ≤ 90)
def isDigit (c : Char) : Bool := 48 ≤ c.toNat && c.toNat ≤ 57

/-- `is_valid_graphql_name`, path.rs:58-76. -/
def validName : Str → Bool
  | [] => false
  | c :: t => (isAlpha c || c == '_') && t.all fun c => isAlpha c || isDigit c || c == '_'

/-- `strip_prefix`. -/
def stripPrefix (p s : Str) : Option Str := if p.isPrefixOf s then some (s.drop p.length) else none

/-- `&s[..n]`; `none` is the panic outside a character boundary. -/
def takeBytes : Nat → Str → Option Str
  | 0, _ => some []
  | _ + 1, [] => none
  | n + 1, c :: t =>
    if c.utf8Size ≤ n + 1 then (takeBytes (n + 1 - c.utf8Size) t).map (c :: ·) else none

/-- `&s[n..]`. -/
def dropBytes : Nat → Str → Option Str
  | 0, s => some s
  | _ + 1, [] => none
  | n + 1, c :: t => if c.utf8Size ≤ n + 1 then dropBytes (n + 1 - c.utf8Size) t else none

/-- The value of digits; `none` if another character occurs. -/
def digitsVal (acc : Nat) : Str → Option Nat
  | [] => some acc
  | c :: t => if isDigit c then digitsVal (acc * 10 + (c.toNat - 48)) t else none

/-- `str::parse::<usize>`: an optional `+`, at least one digit, no overflow. -/
def parseUsize (s : Str) : Option Nat :=
  let s := (stripPrefix ['+'] s).getD s
  if s.isEmpty then none
  else (digitsVal 0 s).bind fun n => if n < 2 ^ 64 then some n else none

/-- `parse_index`, parse.rs:141-153. -/
def parseIndex (s : Str) : Res Nat :=
  if s.head? ≠ some '[' ∨ s.getLast? ≠ some ']' then .err
  else
    let idx := (s.drop 1).dropLast
    if !idx.any isDigit then .err
    else match parseUsize idx with
      | some n => .ok n
      | none => .err

/-- `parse_name_and_optional_index`, parse.rs:123-139.  The position counts characters. -/
def nameIndex (s : Str) : Res (Str × Option Nat) :=
  match s.findIdx? (· = '[') with
  | some i =>
    match takeBytes i s with
    | none => .panic
    | some name =>
      if !validName name then .err
      else match dropBytes i s with
        | none => .panic
        | some rest => (parseIndex rest).bind fun n => .ok (name, some n)
  | none => if !validName s then .err else .ok (s, none)

/-- `parse_path_in_field`, parse.rs:89-120. -/
def parseInField : List Str → Res (Option InField)
  | [] => .ok none
  | seg :: rest =>
    if seg = [] then .err
    else if rest ≠ [] then .err
    else match stripPrefix ['@'] seg with
      | some suffix => (nameIndex suffix).bind fun
        | (name, some idx) => .ok (some (.directive name idx))
        | (_, none) => .err
      | none => if !validName seg then .err else .ok (some (.argument seg))

/-- `parse_path_in_type`, parse.rs:46-87. -/
def parseInType : List Str → Res (Option InType)
  | [] => .ok none
  | seg :: rest =>
    if seg = [] then .err
    else match stripPrefix ['@'] seg with
      | some suffix => (nameIndex suffix).bind fun (name, idx) =>
        if rest ≠ [] then .err
        else match idx with
          | none => .err
          | some idx => .ok (some (.directive name idx))
      | none =>
        match stripPrefix ['&'] seg with
        | some suffix =>
          if !validName suffix then .err
          else if rest ≠ [] then .err
          else .ok (some (.interface suffix))
        | none =>
          if !validName seg then .err
          else (parseInField rest).bind fun f => .ok (some (.field seg f))

/-- `Path::parse`, parse.rs:4-44. -/
def parse (s : Str) : Res Path :=
  match splitDot s with
  | [] => .err
  | first :: rest =>
    if first = [] then .err
    else match stripPrefix schemaLit first with
      | some suffix =>
        if rest ≠ [] then .err
        else if suffix = [] then .ok .schema
        else (parseIndex suffix).bind fun n => .ok (.schemaExt n)
      | none =>
        match stripPrefix ['@'] first with
        | some name =>
          if !validName name then .err
          else if rest ≠ [] then .err
          else .ok (.directiveDef name)
        | none => (nameIndex first).bind fun
          | (name, some idx) => (parseInType rest).bind fun t => .ok (.typeExt name idx t)
          | (name, none) => (parseInType rest).bind fun t => .ok (.type name t)

end Verif.SchemaPath
