import Verif.FieldOwners.Accepted
import Verif.FieldOwners.Names

/-!
# Examples: types of two or three subgraphs
-/

namespace Verif.FieldOwners.Witness

open Verif.FieldTypes Verif.FieldOwners

def ascii : Unicode := ⟨fun c => [c.toUpper], Char.isAlpha, Char.isAlphanum⟩

theorem ascii_ok : ascii.Ascii := ⟨fun _ _ => rfl, fun _ _ => rfl, fun _ _ => rfl⟩

def str : FieldType := ⟨7, .new⟩
def strReq : FieldType := ⟨7, Verif.Wrapping.Wrapping.new.nonNull⟩

def fld (n : Nat) : Field := ⟨n, str, [], false, false, false, false, false, false, false, none⟩

/-- An entity with key `0`. -/
def entity (i : Nat) (fields : List Field) : Def := ⟨i, false, false, [.field 0 .nil], fld 0 :: fields⟩

def sgs (l : List String) : List Subgraph := l.map fun s => ⟨s.toList, false⟩

def over (s : String) (l : Option String) (f : Field) : Field := { f with override := some ⟨s.toList, l.map (·.toList)⟩ }

/-- `b` takes field 1 over from `a`; field 2 is in `a` (required there) and shared with `c`; `c` refers to field 1. -/
def sgGood : List Subgraph := sgs ["a", "b", "c"]
def good : List Def :=
  [entity 0 [fld 1, { fld 2 with ty := strReq, shareable := true, args := [⟨5, strReq, some 1, false, false⟩, ⟨6, str, none, false, false⟩] }],
   entity 1 [over "a" (some "percent(100)") (fld 1)],
   entity 2 [{ fld 1 with external := true }, { fld 2 with args := [⟨5, str, none, false, false⟩] }]]

/-- Nobody resolves field 1. -/
def sgExternal : List Subgraph := sgs ["a"]
def external : List Def := [entity 0 [{ fld 1 with external := true }]]

/-- `a` and `b` override each other; `c` does not have field 1. -/
def sgCycle : List Subgraph := sgs ["a", "b", "c"]
def cycle : List Def := [entity 0 [over "b" none (fld 1)], entity 1 [over "a" none (fld 1)], entity 2 [fld 2]]

/-- The same with a field of the query type. -/
def rootCycle : List Def :=
  [⟨0, false, false, [], [over "b" none (fld 1)]⟩, ⟨1, false, false, [], [over "a" none (fld 1)]⟩, ⟨2, false, false, [], [fld 2]⟩]

/-- Half of the requests move to `a`. -/
def half (b : String) : List Def := [entity 0 [over b (some "percent(50)") (fld 1)], entity 1 [fld 1]]

/-- `a` overrides a subgraph which does not exist, `b` has the field too. -/
def sgMissing : List Subgraph := sgs ["a", "b"]
def missing : List Def := [entity 0 [over "old" none (fld 1)], entity 1 [fld 1]]

theorem entity_wf {sg : List Subgraph} {defs : List Def} (h1 : (defs.all fun d => decide (d.subgraph < sg.length)) = true)
    (h2 : decide (defs.Pairwise fun a b => a.subgraph ≠ b.subgraph) = true)
    (h3 : (defs.all fun d => decide (d.fields.Pairwise fun a b => a.name ≠ b.name)) = true)
    (h4 : (defs.all fun d => d.fields.all fun f => decide (f.args.Pairwise fun a b => a.name ≠ b.name)) = true) : WF sg defs := by
  simp only [List.all_eq_true, decide_eq_true_eq] at h1 h2 h3 h4
  exact ⟨h1, h2, h3, h4⟩

theorem distinct {sg : List Subgraph} (h : decide (sg.Pairwise fun a b => enumName ascii a.name ≠ enumName ascii b.name) = true) :
    DistinctEnums ascii sg := by
  rw [decide_eq_true_eq] at h
  intro i j a b ha hb he
  obtain ⟨hi, rfl⟩ := List.getElem?_eq_some_iff.1 ha
  obtain ⟨hj, rfl⟩ := List.getElem?_eq_some_iff.1 hb
  rw [List.pairwise_iff_getElem] at h
  rcases Nat.lt_trichotomy i j with hlt | heq | hgt
  · exact absurd he (h i j hi hj hlt)
  · exact heq
  · exact absurd he.symm (h j i hj hi hgt)

end Verif.FieldOwners.Witness
