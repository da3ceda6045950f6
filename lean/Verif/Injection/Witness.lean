import Verif.Injection.Spec
import Verif.Views.Spec

/-!
# A schema with lookups
-/

namespace Verif.Injection

open Verif.Views

namespace Demo

/-- `interface Node { nid }`, `type Product implements Node { id owner tags }`, `type User { uid }`,
`type Draft implements Node`, and inputs. -/
def schema : Schema where
  fieldName := fun
    | 0 => "id" | 1 => "owner" | 2 => "tags" | 3 => "uid" | _ => "nid"
  fieldTy := fun
    | 1 => ⟨.object 1, .named false⟩
    | 2 => ⟨.object 1, .list true (.named true)⟩
    | _ => ⟨.scalar 0, .named true⟩
  objectFields := fun
    | 0 => [0, 1, 2] | 1 => [3] | _ => []
  interfaceFields := fun _ => [4]
  possibleInterface := fun _ => [0, 2]
  possibleUnion := fun _ => []
  types := [("Draft", .object 2), ("Node", .interface 0), ("Product", .object 0), ("User", .object 1)]
  input := fun
    | 0 => ⟨"id", ⟨.scalar 0, .named true⟩, none, none⟩
    | 1 => ⟨"ids", ⟨.scalar 0, .list true (.named true)⟩, none, none⟩
    | 2 => ⟨"key", ⟨.input 0, .named true⟩, none, none⟩
    | 3 => ⟨"id", ⟨.scalar 0, .named true⟩, none, none⟩
    | 4 => ⟨"n", ⟨.scalar 1, .named false⟩, some (.leaf "5"), none⟩
    | 5 => ⟨"one", ⟨.input 1, .named true⟩, none, none⟩
    | 6 => ⟨"a", ⟨.scalar 0, .named false⟩, none, none⟩
    | 7 => ⟨"b", ⟨.scalar 0, .named false⟩, none, none⟩
    | 8 => ⟨"keys", ⟨.input 0, .list true (.named true)⟩, none, none⟩
    | 9 => ⟨"ones", ⟨.input 1, .list true (.named true)⟩, none, none⟩
    | 10 => ⟨"bulk", ⟨.input 2, .named true⟩, none, none⟩
    | 11 => ⟨"ids", ⟨.scalar 0, .list true (.named true)⟩, none, none⟩
    | 12 => ⟨"n", ⟨.scalar 1, .named false⟩, some (.leaf "5"), none⟩
    | _ => ⟨"limit", ⟨.scalar 1, .named true⟩, some (.leaf "9"), none⟩
  inputFields := fun
    | 0 => [3, 4] | 1 => [6, 7] | 2 => [11, 12] | _ => []
  oneOf := fun i => i == 1

def leafs : Def → Json → Prop := fun _ j => ∃ s, j = .leaf s

def seg (s : String) : Segment := ⟨s, none⟩
def path (ss : List String) : Path := ⟨none, ss.map seg⟩
def one (e : Entry) : Value := .mk [e]

/-- `@is` for one argument. -/
def isAt (t : Nat) (v : Value) : Nat → Option Value := fun i => if i == t then some v else none

def dat (key : Nat) (name : String) : Data := ⟨key, name, .object 0, 0⟩

/-- The required fields: `id owner { uid } tags { uid }`. -/
def reqs : List (Item Data) :=
  [.mk 0 (dat 0 "id") [], .mk 1 (dat 1 "owner") [.mk 3 (dat 3 "uid") []],
   .mk 2 (dat 2 "tags") [.mk 3 (dat 3 "uid") []]]

def user (s : String) : Val := .object (some 1) [(3, .leaf s)]
def product (s : String) (owner : Val) (tags : List Val) : Obj := ⟨some 0, [(0, .leaf s), (1, owner), (2, .list tags)]⟩
def obj (o : Obj) : Val := .object o.definition o.fields

/-- A product without an owner and with two tags. -/
def p1 : Obj := product "p1" .null [user "u1", user "u2"]
def p2 : Obj := product "p2" (user "u3") []

end Demo

end Verif.Injection
