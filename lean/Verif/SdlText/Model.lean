/-!
# How values, directives, field sets and descriptions are written into SDL

Model of `crates/graphql-composition/src/federated_graph/render_sdl/display_utils.rs`, of
`crates/engine/schema/src/input_value/walker/display.rs` and `crates/engine/schema/src/sdl.rs` 75-103, and of the
descriptions in `crates/mcp/src/tools/sdl/buffer.rs` 54-77.

Text is a list of characters. A number with a fraction is a decimal: `Display` of an `f64` writes the shortest decimal that
is the number, never with an exponent, and no fraction when it is whole. The values an `AnyValue` can be
(`display_utils.rs` 268-277) are values: field sets and sets of input values are strings
(`SelectionSetDisplay`, `InputValueDefinitionSetDisplay`), lists, objects and arguments of directives are
written alike (`display_utils.rs` 298-349, 490-504). Identifiers are the names they stand for.
-/
namespace Verif.SdlText

abbrev Text := List Char

/-- A decimal with the digits of its fraction. -/
structure Dec where
  neg : Bool
  whole : Nat
  frac : List Nat
  deriving DecidableEq

/-- `Value` (`federated_graph.rs` 141-164), `SchemaInputValueRecord`. -/
inductive Value where
  | null
  | str (s : Text)
  | int (i : Int)
  | float (d : Dec)
  | bool (b : Bool)
  | enum (n : Text)
  | list (vs : List Value)
  | object (fs : List (Text × Value))

/-- `char::is_control`: the category `Cc`. -/
def isControl (c : Char) : Bool := decide (c.toNat < 32) || (decide (127 ≤ c.toNat) && decide (c.toNat < 160))

def digit (n : Nat) : Char :=
  match n with
  | 0 => '0' | 1 => '1' | 2 => '2' | 3 => '3' | 4 => '4' | 5 => '5' | 6 => '6' | 7 => '7' | 8 => '8' | _ => '9'

def decimalN : Nat → Nat → Text
  | 0, _ => []
  | f + 1, n => if n < 10 then [digit n] else decimalN f (n / 10) ++ [digit (n % 10)]

/-- `Display` of an unsigned integer. -/
def decimal (n : Nat) : Text := decimalN (n + 1) n

/-- `{:04}`. -/
def pad4 (t : Text) : Text := List.replicate (4 - t.length) '0' ++ t

/-- An arm of `display_graphql_string_literal` (`display_utils.rs` 34-42), `write_quoted` (`display.rs` 41-49),
`write_quoted_string` (`sdl.rs` 80-88). -/
def escape (c : Char) : Text :=
  if c = '\r' then ['\\', 'r']
  else if c = '\n' then ['\\', 'n']
  else if c = '\t' then ['\\', 't']
  else if c = '\\' then ['\\', '\\']
  else if c = '"' then ['\\', '"']
  else if isControl c then '\\' :: 'u' :: pad4 (decimal c.toNat)
  else [c]

/-- `display_graphql_string_literal` (`display_utils.rs` 31-45). -/
def quote (s : Text) : Text := '"' :: s.flatMap escape ++ ['"']

/-- `Display` of an `i64`. -/
def showInt : Int → Text
  | .ofNat n => decimal n
  | .negSucc n => '-' :: decimal (n + 1)

/-- `Display` of an `f64`. -/
def showDec (d : Dec) : Text :=
  (if d.neg then ['-'] else []) ++ decimal d.whole ++ (if d.frac.isEmpty then [] else '.' :: d.frac.map digit)

/-- What stands between values and between a name and its value. -/
structure Style where
  comma : Text
  colon : Text

/-- `display_utils.rs` 104-133. -/
def composed : Style := ⟨[',', ' '], [':', ' ']⟩
/-- `display.rs` 54-78. -/
def engine : Style := ⟨[','], [':']⟩

def nullText : Text := ['n', 'u', 'l', 'l']
def trueText : Text := ['t', 'r', 'u', 'e']
def falseText : Text := ['f', 'a', 'l', 's', 'e']

mutual
/-- `ValueDisplay` (`display_utils.rs` 90-136), `Display` of `SchemaInputValue` (`display.rs` 9-36). -/
def display (st : Style) : Value → Text
  | .null => nullText
  | .str s => quote s
  | .int i => showInt i
  | .float d => showDec d
  | .bool true => trueText
  | .bool false => falseText
  | .enum n => n
  | .list vs => '[' :: displayList st vs ++ [']']
  | .object fs => '{' :: displayFields st fs ++ ['}']
/-- The loop over the items of a list. -/
def displayList (st : Style) : List Value → Text
  | [] => []
  | v :: vs => display st v ++ (if vs.isEmpty then [] else st.comma ++ displayList st vs)
/-- The loop over the fields of an object, or over arguments (`display_utils.rs` 140-164). -/
def displayFields (st : Style) : List (Text × Value) → Text
  | [] => []
  | (k, v) :: fs => k ++ st.colon ++ display st v ++ (if fs.isEmpty then [] else st.comma ++ displayFields st fs)
end

/-- `Arguments` (`display_utils.rs` 138-164), and the arguments written by `DirectiveWriter`. -/
def displayArgs (args : List (Text × Value)) : Text :=
  if args.isEmpty then [] else '(' :: displayFields composed args ++ [')']

/-- `DirectiveWriter` (`display_utils.rs` 400-452): `new`, then `arg` for each argument, then `drop`. -/
def directive (name : Text) (args : List (Text × Value)) : Text := '@' :: name ++ displayArgs args

/-- `Selection`. -/
inductive Sel where
  | field (name : Text) (args : List (Text × Value)) (sub : List Sel)
  | fragment (on : Text) (sub : List Sel)
  | typename

def typenameText : Text := ['_', '_', 't', 'y', 'p', 'e', 'n', 'a', 'm', 'e']
def dotsOn : Text := ['.', '.', '.', ' ', 'o', 'n', ' ']

mutual
/-- The body of the loop of `BareSelectionSetDisplay` (`display_utils.rs` 184-217). -/
def displaySel : Sel → Text
  | .field name args sub =>
    name ++ displayArgs args ++ (if sub.isEmpty then [] else [' ', '{', ' '] ++ displaySels sub ++ [' ', '}'])
  | .fragment on sub => dotsOn ++ on ++ [' ', '{', ' '] ++ displaySels sub ++ [' ', '}']
  | .typename => typenameText
/-- `BareSelectionSetDisplay` (`display_utils.rs` 178-225). -/
def displaySels : List Sel → Text
  | [] => []
  | s :: ss => displaySel s ++ (if ss.isEmpty then [] else ' ' :: displaySels ss)
end

/-- `SelectionSetDisplay` (`display_utils.rs` 169-174). -/
def fieldSet (ss : List Sel) : Text := quote (displaySels ss)

/-- `char::is_whitespace`. -/
def isSpace (c : Char) : Bool :=
  let n := c.toNat
  (decide (9 ≤ n) && decide (n ≤ 13)) || n == 32 || n == 0x85 || n == 0xA0 || n == 0x1680 ||
  (decide (0x2000 ≤ n) && decide (n ≤ 0x200A)) || n == 0x2028 || n == 0x2029 || n == 0x202F || n == 0x205F || n == 0x3000

def trimStart (s : Text) : Text := s.dropWhile isSpace
def trimEnd (s : Text) : Text := (s.reverse.dropWhile isSpace).reverse
/-- `str::trim`. -/
def trim (s : Text) : Text := trimEnd (trimStart s)

/-- A line without the `\r` before its `\n`. -/
def dropCr (l : Text) : Text :=
  match l.getLast? with
  | some '\r' => l.dropLast
  | _ => l

/-- `str::lines`, with the line read so far. -/
def linesFrom (cur : Text) : Text → List Text
  | [] => if cur.isEmpty then [] else [cur]
  | c :: s => if c = '\n' then dropCr cur :: linesFrom [] s else linesFrom (cur ++ [c]) s

def linesOf (s : Text) : List Text := linesFrom [] s

/-- `lines.peek().map(|next| next.is_empty()).unwrap_or(true)` (`display_utils.rs` 76). -/
def nextEmpty : List Text → Bool
  | [] => true
  | next :: _ => next.isEmpty

/-- The loop of `Description` (`display_utils.rs` 73-83): the lines written. -/
def kept : List Text → List Text
  | [] => []
  | l :: rest =>
    if (trim l).isEmpty && nextEmpty rest then kept rest
    else trim l :: kept rest

/-- `Description` (`display_utils.rs` 63-87). -/
def description (indent s : Text) : Text :=
  indent ++ ['"', '"', '"', '\n'] ++
  (kept ((linesOf s).dropWhile List.isEmpty)).flatMap (fun l => indent ++ l ++ ['\n']) ++
  indent ++ ['"', '"', '"', '\n']

/-- `write_description` (`sdl.rs` 95-103). -/
def descriptionQuoted (indent s : Text) : Text := indent ++ quote s ++ ['\n']

/-- The split by `"` with `\"` between the parts (`buffer.rs` 64, 73). -/
def quotesEscaped (s : Text) : Text := s.flatMap (fun c => if c = '"' then ['\\', '"'] else [c])

/-- `str::split('\n')`, with the line read so far. -/
def splitFrom (cur : Text) : Text → List Text
  | [] => [cur]
  | c :: s => if c = '\n' then cur :: splitFrom [] s else splitFrom (cur ++ [c]) s

/-- `write_description` of the tools (`buffer.rs` 54-77). -/
def descriptionTool (indent s : Text) : Text :=
  indent ++
  (if s.contains '\n' then
    ['"', '"', '"', '\n'] ++
    (splitFrom [] s).flatMap (fun l => indent ++ quotesEscaped (trimEnd l) ++ ['\n']) ++
    indent ++ ['"', '"', '"', '\n']
   else '"' :: quotesEscaped (trimEnd s) ++ ['"', '\n'])

end Verif.SdlText
