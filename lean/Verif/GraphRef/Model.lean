/-
Model of graph-ref/src/lib.rs:5-130: parsing and displaying graph references. Strings are lists of characters.
-/
namespace Verif.GraphRef

abbrev Str := List Char

/-- `GraphRef`, 5-18. -/
inductive GraphRef where
  | latestProductionVersion (graph : Str)
  | latestVersion (graph branch : Str)
  | id (graph branch version : Str)
  deriving DecidableEq, Repr

/-- `str::split_once`: the parts before and after the first occurrence. -/
def splitOnce (c : Char) : Str → Option (Str × Str)
  | [] => none
  | x :: xs => if x = c then some ([], xs) else (splitOnce c xs).map (fun p => (x :: p.1, p.2))

/-- 42-48 -/
def GraphRef.slug : GraphRef → Str
  | .latestProductionVersion g => g
  | .latestVersion g _ => g
  | .id g _ _ => g

/-- 50-56 -/
def GraphRef.branch : GraphRef → Option Str
  | .latestProductionVersion _ => none
  | .latestVersion _ b => some b
  | .id _ b _ => some b

/-- 58-64 -/
def GraphRef.version : GraphRef → Option Str
  | .latestProductionVersion _ => none
  | .latestVersion _ _ => none
  | .id _ _ v => some v

inductive Err where
  | missingName
  | accountName
  deriving DecidableEq, Repr

/-- The first part of `from_str`, 71-86. -/
def split (s : Str) : GraphRef :=
  match splitOnce '@' s with
  | some (g, rest) =>
    match splitOnce '#' rest with
    | some (b, v) => .id g b v
    | none => .latestVersion g rest
  | none => .latestProductionVersion s

/-- `FromStr::from_str`, 70-113 (messages left out). -/
def parse (s : Str) : Except Err GraphRef :=
  let graph := split s
  if graph.slug = [] then .error .missingName
  else if '/' ∈ graph.slug then .error .accountName
  else .ok graph

/-- `Display`, 116-131. -/
def display (r : GraphRef) : Str :=
  r.slug ++ (match r.branch with | some b => '@' :: b | none => []) ++
    (match r.version with | some v => '#' :: v | none => [])

end Verif.GraphRef
