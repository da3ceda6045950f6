import Verif.Contracts.Spec
import Verif.Hidden.Witness
import Verif.Hidden.Lemmas

/-!
# Schemas for the theorems about contracts
-/

namespace Verif.Contracts

open Verif.Hidden

/-- The elements of a schema. -/
def allSites (S : Schema) : List Site :=
  (List.range S.objects.length).map Site.object ++ (List.range S.interfaces.length).map Site.interface ++
    (List.range S.unions.length).map Site.union ++ (List.range S.enums.length).map Site.enum ++
    (List.range S.scalars.length).map Site.scalar ++ (List.range S.inputs.length).map Site.input ++
    (List.range S.fields.length).map Site.field ++ (List.range S.values.length).map Site.value ++
    (List.range S.enumValues.length).map Site.enumValue

/-- A test for `Tree`. -/
def treeCheck (S : Schema) : Bool :=
  check S &&
  ((allSites S).all fun p => (children S p).all fun s => decide (parentOf S s = some p)) &&
  ((allSites S).all fun s => match parentOf S s with
    | none => true
    | some p => decide (s ∈ children S p)) &&
  (S.enumValues.all fun n => decide (n < S.enums.length))

theorem mem_allSites {S : Schema} {s : Site} : s ∈ allSites S ↔ inRange S s = true := by
  cases s <;> simp [allSites, inRange]

theorem inRange_of_children {S : Schema} {p s : Site} (h : s ∈ children S p) : inRange S p = true := by
  cases p with
  | object n =>
    simp only [children, Schema.kids] at h
    cases he : S.objects[n]? with
    | none => rw [he] at h; simp at h
    | some o => simp [inRange, getElem?_lt he]
  | interface n =>
    simp only [children, Schema.kids] at h
    cases he : S.interfaces[n]? with
    | none => rw [he] at h; simp at h
    | some o => simp [inRange, getElem?_lt he]
  | enum n =>
    simp only [children, Schema.kids] at h
    cases he : S.enums[n]? with
    | none => rw [he] at h; simp at h
    | some o => simp [inRange, getElem?_lt he]
  | input n =>
    simp only [children, Schema.kids] at h
    cases he : S.inputs[n]? with
    | none => rw [he] at h; simp at h
    | some o => simp [inRange, getElem?_lt he]
  | field n =>
    simp only [children] at h
    cases he : S.fields[n]? with
    | none => rw [he] at h; simp at h
    | some o => simp [inRange, getElem?_lt he]
  | _ => simp [children] at h

theorem inRange_of_parent {S : Schema} {p s : Site} (h : parentOf S s = some p) : inRange S s = true := by
  cases s with
  | field n =>
    simp only [parentOf] at h
    cases he : S.fields[n]? with
    | none => rw [he] at h; simp at h
    | some o => simp [inRange, getElem?_lt he]
  | value n =>
    simp only [parentOf] at h
    cases he : S.values[n]? with
    | none => rw [he] at h; simp at h
    | some o => simp [inRange, getElem?_lt he]
  | enumValue n =>
    simp only [parentOf] at h
    cases he : S.enumValues[n]? with
    | none => rw [he] at h; simp at h
    | some o => simp [inRange, getElem?_lt he]
  | _ => simp [parentOf] at h

theorem tree_of_check {S : Schema} (h : treeCheck S = true) : Tree S := by
  unfold treeCheck at h
  simp only [Bool.and_eq_true, List.all_eq_true, decide_eq_true_eq] at h
  obtain ⟨⟨⟨h1, h2⟩, h3⟩, h4⟩ := h
  refine ⟨wf_of_check h1, ?_, ?_⟩
  · intro p s
    constructor
    · intro hs
      exact h2 p (mem_allSites.2 (inRange_of_children hs)) s hs
    · intro hp
      have := h3 s (mem_allSites.2 (inRange_of_parent hp))
      rw [hp] at this
      simpa using this
  · intro ix n hn
    exact h4 n (List.mem_of_getElem? hn)

/-- `type Query { f(x: Secret!): T, n: Int, e(v: E): Int }  type T { a: Int }  scalar Secret  scalar Int`
`type Mutation { m: Int }  enum E { V W }` with `n` in place of the fields of introspection. -/
def sMain : Schema where
  objects := [⟨[0, 1, 4], []⟩, ⟨[2], []⟩, ⟨[3], []⟩]
  scalars := [true, false]
  enums := [[0, 1]]
  fields := [⟨.object 1, [0], .object 0⟩, ⟨.scalar 0, [], .object 0⟩, ⟨.scalar 0, [], .object 1⟩, ⟨.scalar 0, [], .object 2⟩,
    ⟨.scalar 0, [1], .object 0⟩]
  values := [⟨.scalar 1, true, false, .field 0⟩, ⟨.enum 0, false, false, .field 4⟩]
  enumValues := [0, 0]
  query := 0
  mutation := some 2
  metaFields := [1]

/-- With `e(v: E): Int` as a field of introspection too. -/
def sMeta : Schema := { sMain with metaFields := [1, 4] }

def noMarks : Marks := fun _ => false

end Verif.Contracts
