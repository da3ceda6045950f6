/-
Model of serde-dynamic-string/src/lib.rs:36-98 for `T = String`: replacing `{{ env.NAME }}` in configuration
strings. Strings are lists of characters. The regular expression

    \{\{\s*([[[:alnum:]]_.]+)\s*\}\}

consists of pieces with disjoint sets of characters, so at a given position there is at most one way to match it:
take as much as possible for each piece. `captures_iter` gives the leftmost matches that do not overlap.
-/
namespace Verif.EnvString

abbrev Str := List Char

/-- `\s`: Unicode White_Space. -/
def isSpace (c : Char) : Bool :=
  (0x9 ≤ c.toNat && c.toNat ≤ 0xd) || c.toNat == 0x20 || c.toNat == 0x85 || c.toNat == 0xa0 || c.toNat == 0x1680 ||
  (0x2000 ≤ c.toNat && c.toNat ≤ 0x200a) || c.toNat == 0x2028 || c.toNat == 0x2029 || c.toNat == 0x202f ||
  c.toNat == 0x205f || c.toNat == 0x3000

/-- `[[[:alnum:]]_.]` -/
def isKey (c : Char) : Bool := c.isAlphanum || c == '_' || c == '.'

/-- A match at the start of the text: the key and the text after the match. -/
def matchAt : Str → Option (Str × Str)
  | '{' :: '{' :: r =>
    let r1 := r.dropWhile isSpace
    let key := r1.takeWhile isKey
    let r2 := (r1.dropWhile isKey).dropWhile isSpace
    if key = [] then none
    else match r2 with
      | '}' :: '}' :: rest => some (key, rest)
      | _ => none
  | _ => none

/-- The leftmost match: text before it, key, text after it. -/
def findMatch : Str → Option (Str × Str × Str)
  | [] => none
  | c :: cs =>
    match matchAt (c :: cs) with
    | some (key, rest) => some ([], key, rest)
    | none => (findMatch cs).map (fun m => (c :: m.1, m.2.1, m.2.2))

/-- `key.split('.')` -/
def splitDots : Str → List Str
  | [] => [[]]
  | c :: cs =>
    if c = '.' then [] :: splitDots cs
    else match splitDots cs with
      | w :: ws => (c :: w) :: ws
      | [] => [[c]]

inductive Err where
  | unset (name : Str)
  | unknownScope (key : Str)
  deriving DecidableEq, Repr

/-- What one match contributes, given the text before it, 57-81: text and errors. -/
def substitute (env : Str → Option Str) (before key : Str) : Str × List Err :=
  match splitDots key with
  | [scope, name] =>
    if scope = ['e', 'n', 'v'] then
      match env name with
      | some v => (before ++ v, [])
      | none => (before, [.unset name])
    else ([], [.unknownScope key])
  | _ => ([], [.unknownScope key])

/-- The fold over the matches, and the text after the last one. The fuel is the length of the text. -/
def go (env : Str → Option Str) : Nat → Str → Str × List Err
  | 0, s => (s, [])
  | fuel + 1, s =>
    match findMatch s with
    | none => (s, [])
    | some (before, key, rest) =>
      let here := substitute env before key
      let there := go env fuel rest
      (here.1 ++ there.1, here.2 ++ there.2)

/-- `from_str`: the last error is reported. -/
def expand (env : Str → Option Str) (s : Str) : Except Err Str :=
  let r := go env s.length s
  match r.2.getLast? with
  | some e => .error e
  | none => .ok r.1

end Verif.EnvString
