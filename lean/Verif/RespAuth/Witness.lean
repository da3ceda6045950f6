import Verif.RespAuth.Spec
import Verif.NullProp.Witness

/-!
# Concrete responses
-/
namespace Verif.RespAuth

open Verif.NullProp
open Verif.DefaultMerge (Key)

/-! `{ 1 [ { 2  3! } ] }` with two items. -/

def leafVal (n : Nat) : Val := .leaf ⟨false, n⟩

def exParts : List Data :=
  [{ objs := [[⟨⟨1, 1⟩, .list ⟨0, 0⟩⟩], [⟨⟨2, 2⟩, leafVal 5⟩, ⟨⟨3, 3⟩, leafVal 6⟩], [⟨⟨2, 2⟩, leafVal 7⟩, ⟨⟨3, 3⟩, leafVal 8⟩]]
     lists := [[.obj ⟨0, 1⟩, .obj ⟨0, 2⟩]] }]

def exRef (i : Nat) : Ref := ⟨⟨0, i + 1⟩, [.index ⟨0, 0⟩ i true, .field ⟨0, 0⟩ ⟨1, 1⟩ true], 9⟩

def exSets : Sets := ⟨fun s => if s = 0 then some [exRef 0, exRef 1] else none, fun _ => 9, fun _ _ => true⟩

def exMods : List (Rule × Target × Decisions) :=
  [(.field, ⟨0, 9, ⟨2, 2⟩, false⟩, .denySome [(1, 0)] [40]), (.field, ⟨0, 9, ⟨3, 3⟩, true⟩, .denySome [(0, 0)] [41])]

/-! Two plans share the root field 1; the second one asks for the field 3 in it, which is authorized. -/

def authShape : RootShape := rootOf [fieldOf 1 false (.obj (.known 9) (some 0) [] [leafField 3 false])]
def authJson : Json := single 1 (single 3 (num 77))
def authPart : Part := rootSeed noneHidden authShape ⟨⟨0, 0⟩, [], 7⟩ authJson { id := 2 }
def authSets : Sets :=
  ⟨fun s => some ((authPart.refs.filter fun r => r.1 = s).map (·.2)), fun _ => 9, fun _ _ => true⟩
def authMods : List (Rule × Target × Decisions) := [(.field, ⟨0, 9, ⟨3, 3⟩, false⟩, .denyAll 40)]

end Verif.RespAuth
