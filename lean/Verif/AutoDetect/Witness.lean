import Verif.AutoDetect.Spec

/-!
# A schema with lookups whose arguments are detected
-/

namespace Verif.AutoDetect

open Verif.Views (Out Item Data Val Obj Json Inj)
open Verif.Injection

namespace Demo

/-- `type Product { id: ID! sku: String! owner: User! code: ID }`, `type User { uid: ID! email: String! }`, and
inputs. -/
def schema : Schema where
  fieldName := fun
    | 0 => "id" | 1 => "sku" | 2 => "owner" | 3 => "uid" | 4 => "code" | _ => "email"
  fieldTy := fun
    | 1 => ⟨.scalar 1, .named true⟩
    | 2 => ⟨.object 1, .named true⟩
    | 4 => ⟨.scalar 0, .named false⟩
    | 5 => ⟨.scalar 1, .named true⟩
    | _ => ⟨.scalar 0, .named true⟩
  objectFields := fun
    | 0 => [0, 1, 2, 4] | 1 => [3, 5] | _ => []
  interfaceFields := fun _ => []
  possibleInterface := fun _ => []
  possibleUnion := fun _ => []
  types := [("Product", .object 0), ("User", .object 1)]
  input := fun
    | 0 => ⟨"id", ⟨.scalar 0, .named true⟩, none, none⟩
    | 1 => ⟨"sku", ⟨.scalar 1, .named false⟩, none, none⟩
    | 2 => ⟨"limit", ⟨.scalar 2, .named true⟩, some (.leaf "9"), none⟩
    | 3 => ⟨"by", ⟨.input 0, .named true⟩, none, none⟩
    | 4 => ⟨"pair", ⟨.input 1, .named false⟩, none, none⟩
    | 5 => ⟨"other", ⟨.input 2, .named false⟩, none, none⟩
    | 6 => ⟨"id", ⟨.scalar 0, .named true⟩, none, none⟩
    | 7 => ⟨"sku", ⟨.scalar 1, .named true⟩, none, none⟩
    | 8 => ⟨"x", ⟨.scalar 2, .named true⟩, none, none⟩
    | 9 => ⟨"keys", ⟨.input 1, .list true (.named true)⟩, none, none⟩
    | 10 => ⟨"one", ⟨.input 3, .named true⟩, none, none⟩
    | 11 => ⟨"id", ⟨.scalar 0, .named false⟩, none, none⟩
    | 12 => ⟨"bulk", ⟨.input 4, .named true⟩, none, none⟩
    | 13 => ⟨"ids", ⟨.scalar 0, .list false (.named true)⟩, none, none⟩
    | 14 => ⟨"codes", ⟨.scalar 0, .list false (.named false)⟩, none, none⟩
    | 15 => ⟨"ids", ⟨.scalar 0, .list true (.named true)⟩, none, none⟩
    | 16 => ⟨"codes", ⟨.scalar 0, .list false (.named false)⟩, none, none⟩
    | 17 => ⟨"owner", ⟨.input 5, .named true⟩, none, none⟩
    | 18 => ⟨"uid", ⟨.scalar 0, .named false⟩, none, none⟩
    | 19 => ⟨"email", ⟨.scalar 1, .named false⟩, none, none⟩
    | 20 => ⟨"key", ⟨.input 1, .named false⟩, none, none⟩
    | 21 => ⟨"shop", ⟨.scalar 2, .named true⟩, none, none⟩
    | n => ⟨"filter" ++ toString n, ⟨.scalar 2, .named false⟩, none, none⟩
  inputFields := fun
    | 0 => [4, 5] | 1 => [6, 7] | 2 => [8] | 3 => [11] | 4 => [13, 14] | 5 => [18, 19] | _ => []
  oneOf := fun i => i == 0 || i == 3 || i == 4 || i == 5

def leafs : Def → Json → Prop := fun _ j => ∃ s, j = .leaf s

def item (id : Nat) : Item Unit := .mk id () []

def dat (key : Nat) (name : String) : Data := ⟨key, name, .object 0, 0⟩

/-- The required fields: `id sku owner { uid email } code`. -/
def reqs : List (Item Data) :=
  [.mk 0 (dat 0 "id") [], .mk 1 (dat 1 "sku") [], .mk 2 (dat 2 "owner") [.mk 3 (dat 3 "uid") [], .mk 5 (dat 5 "email") []],
   .mk 4 (dat 4 "code") []]

def user : Val := .object (some 1) [(3, .leaf "u"), (5, .leaf "e")]
def product (id sku : String) : Obj := ⟨some 0, [(0, .leaf id), (1, .leaf sku), (2, user), (4, .null)]⟩
def obj (o : Obj) : Val := .object o.definition o.fields

def p1 : Obj := product "p1" "s1"
def p2 : Obj := product "p2" "s2"

/-- The arguments that are detected, and their values. -/
def given (batch : Bool) (key : List (Item Unit)) (args : List Nat) (parents : Val) : Out (List (String × Json)) :=
  (detect schema batch key args []).bind fun
    | (none, _) => .err
    | (some range, arena) => (records arena range).bind fun l => arguments schema reqs parents l

end Demo

end Verif.AutoDetect
