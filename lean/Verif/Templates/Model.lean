import Verif.StoreUrls.Model

/-!
# Templates of arguments of extension directives

Modelled from `crates/engine/src/prepare/cached/extension/template.rs` and `query.rs` (55-70): a template of an argument of a directive is
rendered with the arguments of the field, as JSON.

Templates are given as they are parsed (by the fork of `ramhorns` the project uses): texts, fields and sections. Inverse sections, partials
and the tags for the position in a list are left out. A tag looks its name up in the contents there are, the innermost first, of which
`ramhorns` keeps four; the contents of a section are those from where its name was found. Numbers are given by their texts.
-/
namespace Verif.Templates
open Verif.StoreUrls (utf8 percent)

abbrev Str := List Char

/-- `serde_json::Value`. -/
inductive Json where
  | null
  | bool (b : Bool)
  | num (text : Str)
  | str (s : Str)
  | arr (l : List Json)
  | obj (l : List (Str × Json))

/-! ## `serde_json::to_string` -/

def hexLower : List Char := "0123456789abcdef".toList

def jsonChar (c : Char) : Str :=
  if c = '"' then ['\\', '"']
  else if c = '\\' then ['\\', '\\']
  else if c.toNat = 8 then ['\\', 'b']
  else if c.toNat = 9 then ['\\', 't']
  else if c.toNat = 10 then ['\\', 'n']
  else if c.toNat = 12 then ['\\', 'f']
  else if c.toNat = 13 then ['\\', 'r']
  else if c.toNat < 32 then ['\\', 'u', '0', '0', hexLower.getD (c.toNat / 16) '0', hexLower.getD (c.toNat % 16) '0']
  else [c]

def jsonStr (s : Str) : Str := '"' :: (s.flatMap jsonChar ++ ['"'])

def jsonBool (b : Bool) : Str := if b then "true".toList else "false".toList

mutual
def toJson : Json → Str
  | .null => "null".toList
  | .bool b => jsonBool b
  | .num t => t
  | .str s => jsonStr s
  | .arr [] => ['[', ']']
  | .arr (v :: vs) => '[' :: (toJson v ++ toElems vs)
  | .obj [] => ['{', '}']
  | .obj ((k, v) :: fs) => '{' :: (jsonStr k ++ ':' :: (toJson v ++ toFields fs))
/-- The rest of a list. -/
def toElems : List Json → Str
  | [] => [']']
  | v :: vs => ',' :: (toJson v ++ toElems vs)
/-- The rest of an object. -/
def toFields : List (Str × Json) → Str
  | [] => ['}']
  | (k, v) :: fs => ',' :: (jsonStr k ++ ':' :: (toJson v ++ toFields fs))
end

/-! ## `urlencode` (template.rs:32-42) -/

/-- The bytes which are kept. -/
def keptByte (b : Nat) : Bool :=
  (0x30 ≤ b && b ≤ 0x39) || (0x41 ≤ b && b ≤ 0x5A) || (0x61 ≤ b && b ≤ 0x7A) || b == 0x5F || b == 0x2E || b == 0x2D || b == 0x7E

def urlByte (b : Nat) : Str := if keptByte b then [Char.ofNat b] else percent b

def urlencode (s : Str) : Str := (s.flatMap (fun c => utf8 c.toNat)).flatMap urlByte

/-! ## `JsonContent` -/

/-- `TemplateEscaping` (schema template.rs:34-38). -/
inductive Escaping where
  | json
  | url
deriving DecidableEq

def child (v : Json) (key : Str) : Option Json :=
  match v with
  | .obj l => (l.find? (fun f => f.1 == key)).map (·.2)
  | _ => none

/-- `split('.')`. -/
def keys : Str → List Str
  | [] => [[]]
  | c :: s =>
    if c = '.' then [] :: keys s
    else
      match keys s with
      | [] => [[c]]
      | k :: ks => (c :: k) :: ks

def descend : Json → List Str → Option Json
  | v, [] => some v
  | v, k :: ks =>
    match child v k with
    | some w => descend w ks
    | none => none

/-- `JsonContent::get` (template.rs:11-29). -/
def get (v : Json) (name : Str) : Option Json := if name = ['.'] then some v else descend v (keys name)

/-- `render_escaped` (template.rs:62-93). -/
def escaped (e : Escaping) (v : Json) : Str :=
  match v with
  | .null => "null".toList
  | .bool b => jsonBool b
  | .num t => t
  | .str s =>
    match e with
    | .json => toJson (.str s)
    | .url => urlencode s
  | v =>
    match e with
    | .json => toJson v
    | .url => urlencode (toJson v)

/-- `render_unescaped` (template.rs:95-104). -/
def unescaped (v : Json) : Str :=
  match v with
  | .str s => s
  | v => toJson v

/-! ## Rendering -/

inductive Block where
  | text (s : Str)
  | escaped (name : Str)
  | unescaped (name : Str)
  | section (name : Str) (blocks : List Block)

/-- The value of a name in the contents, the innermost first, and the contents from there on. -/
def look : List Json → Str → Option (Json × List Json)
  | [], _ => none
  | v :: outer, name =>
    match get v name with
    | some w => some (w, v :: outer)
    | none => look outer name

/-- Contents with one more, of which four are kept. -/
def within (v : Json) (stack : List Json) : List Json := (v :: stack).take 4

mutual
def renderBlock (e : Escaping) : Block → List Json → Str
  | .text s, _ => s
  | .escaped name, stack =>
    match look stack name with
    | some (v, _) => Templates.escaped e v
    | none => []
  | .unescaped name, stack =>
    match look stack name with
    | some (v, _) => Templates.unescaped v
    | none => []
  | .section name blocks, stack =>
    match look stack name with
    | none => []
    | some (.arr l, outer) => l.flatMap (fun v => renderBlocks e blocks (within v outer))
    | some (.obj l, outer) => renderBlocks e blocks (within (.obj l) outer)
    | some (_, outer) => renderBlocks e blocks outer
def renderBlocks (e : Escaping) : List Block → List Json → Str
  | [], _ => []
  | b :: bs, stack => renderBlock e b stack ++ renderBlocks e bs stack
end

/-- A template with the arguments of a field (query.rs:55-70). -/
def render (e : Escaping) (blocks : List Block) (args : Json) : Str := renderBlocks e blocks [.obj [("args".toList, args)]]

end Verif.Templates
