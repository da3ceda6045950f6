import Verif.ConfigLoad.Model
/-! # What is where in a value, and where paths lead -/
namespace Verif.ConfigLoad.Spec

open Verif.ConfigLoad

mutual
/-- The strings of a value in the order they are written, with the place each is at. -/
def strings : Toml → List (List Seg × Str)
  | .str s => [([], s)]
  | .other _ => []
  | .arr vs => stringsAll 0 vs
  | .table es => stringsEntries es
def stringsAll (i : Nat) : Toms → List (List Seg × Str)
  | .nil => []
  | .cons v rest => (strings v).map (fun x => (.index i :: x.1, x.2)) ++ stringsAll (i + 1) rest
def stringsEntries : Entries → List (List Seg × Str)
  | .nil => []
  | .cons k v rest => (strings v).map (fun x => (.key k :: x.1, x.2)) ++ stringsEntries rest
end

mutual
/-- A value without its strings. -/
def shape : Toml → Toml
  | .str _ => .str []
  | .other t => .other t
  | .arr vs => .arr (shapeAll vs)
  | .table es => .table (shapeEntries es)
def shapeAll : Toms → Toms
  | .nil => .nil
  | .cons v rest => .cons (shape v) (shapeAll rest)
def shapeEntries : Entries → Entries
  | .nil => .nil
  | .cons k v rest => .cons k (shape v) (shapeEntries rest)
end

/-- What the expansion of strings at places gives. -/
def Expanded (env : Str → Option Str) (a b : List (List Seg × Str)) : Prop :=
  a.map (fun x => (x.1, EnvString.expand env x.2)) = b.map (fun x => (x.1, Except.ok x.2))

/-- The first string that cannot be expanded. -/
def First (env : Str → Option Str) (l : List (List Seg × Str)) (p : List Seg) (e : EnvString.Err) : Prop :=
  ∃ pre s post, l = pre ++ (p, s) :: post ∧ (∀ x ∈ pre, ∃ o, EnvString.expand env x.2 = .ok o) ∧
    EnvString.expand env s = .error e

/-- How a place is written: keys are followed by a dot, unless they are last. -/
def place : List Seg → Str
  | [] => []
  | [.key k] => k
  | .key k :: rest => k ++ '.' :: place rest
  | .index i :: rest => '[' :: (toString i).toList ++ ']' :: place rest

/-- A path that leads to the same place from everywhere. -/
def Rooted (p : Path) : Prop := p.absolute = true

variable {ρ : Type}

/-- The paths of a configuration that are said to be absolute. -/
def paths (c : Config ρ) : List Path :=
  c.subgraphs.filterMap (·.2) ++ c.extensions.filterMap (fun e => match e.2 with | .structured p => p | .version => none) ++
    (match c.wasm with | some (some p) => [p] | _ => [])

/-- Where a path of a file in directory `dir` leads. -/
def resolved (dir : List Str) (p : Path) : Path := if p.absolute then p else ⟨true, dir ++ p.parts⟩

end Verif.ConfigLoad.Spec
