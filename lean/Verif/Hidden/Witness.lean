import Verif.Hidden.Spec

/-!
# Schemas for the theorems about hidden elements
-/

namespace Verif.Hidden

/-- A test for `WF`. -/
def check (S : Schema) : Bool :=
  (S.values.all fun v => match v.ty with
    | .scalar _ => true
    | .enum _ => true
    | .input n => decide (n < S.inputs.length)
    | _ => false) &&
  (S.values.all fun v => match v.parent with
    | .field _ => true
    | .input n => decide (n < S.inputs.length)
    | _ => false) &&
  (S.fields.all fun f => match f.ty with
    | .scalar _ => true
    | .enum _ => true
    | .object _ => true
    | .interface _ => true
    | .union _ => true
    | _ => false) &&
  (S.fields.all fun f => match f.parent with
    | .object n => decide (n < S.objects.length)
    | .interface n => decide (n < S.interfaces.length)
    | _ => false) &&
  ((List.range S.objects.length).all fun n => (S.kids (.object n)).all fun k => match k with
    | .field ix => decide ((S.fields[ix]?.map (·.parent)) = some (.object n))
    | _ => true) &&
  ((List.range S.interfaces.length).all fun n => (S.kids (.interface n)).all fun k => match k with
    | .field ix => decide ((S.fields[ix]?.map (·.parent)) = some (.interface n))
    | _ => true)

theorem wf_of_check {S : Schema} (h : check S = true) : WF S := by
  unfold check at h
  simp only [Bool.and_eq_true, List.all_eq_true, List.mem_range] at h
  obtain ⟨⟨⟨⟨⟨h1, h2⟩, h3⟩, h4⟩, h5⟩, h6⟩ := h
  constructor
  · intro ix v hv
    have := h1 v (List.mem_of_getElem? hv)
    cases hc : v.ty <;> rw [hc] at this <;> simp_all
  · intro ix v hv
    have := h2 v (List.mem_of_getElem? hv)
    cases hc : v.parent <;> rw [hc] at this <;> simp_all
  · intro ix v hv
    have := h3 v (List.mem_of_getElem? hv)
    cases hc : v.ty <;> rw [hc] at this <;> simp_all
  · intro ix v hv
    have := h4 v (List.mem_of_getElem? hv)
    cases hc : v.parent <;> rw [hc] at this <;> simp_all
  · intro s ix hk
    cases s with
    | object n =>
      have hn : n < S.objects.length := by
        simp only [Schema.kids] at hk
        cases ho : S.objects[n]? with
        | none => rw [ho] at hk; simp at hk
        | some o => exact (List.getElem?_eq_some_iff.1 ho).1
      have := h5 n hn _ hk
      simp only [decide_eq_true_eq] at this
      cases hf : S.fields[ix]? with
      | none => rw [hf] at this; simp at this
      | some f => rw [hf] at this; exact ⟨f, rfl, by simpa using this⟩
    | interface n =>
      have hn : n < S.interfaces.length := by
        simp only [Schema.kids] at hk
        cases ho : S.interfaces[n]? with
        | none => rw [ho] at hk; simp at hk
        | some o => exact (List.getElem?_eq_some_iff.1 ho).1
      have := h6 n hn _ hk
      simp only [decide_eq_true_eq] at this
      cases hf : S.fields[ix]? with
      | none => rw [hf] at this; simp at this
      | some f => rw [hf] at this; exact ⟨f, rfl, by simpa using this⟩
    | union n =>
      exfalso
      simp only [Schema.kids] at hk
      cases ho : S.unions[n]? with
      | none => rw [ho] at hk; simp at hk
      | some o => rw [ho] at hk; simp at hk
    | enum n =>
      exfalso
      simp only [Schema.kids] at hk
      cases ho : S.enums[n]? with
      | none => rw [ho] at hk; simp at hk
      | some o => rw [ho] at hk; simp at hk
    | input n =>
      exfalso
      simp only [Schema.kids] at hk
      cases ho : S.inputs[n]? with
      | none => rw [ho] at hk; simp at hk
      | some o => rw [ho] at hk; simp at hk
    | scalar n => simp [Schema.kids] at hk
    | field n => simp [Schema.kids] at hk
    | value n => simp [Schema.kids] at hk
    | enumValue n => simp [Schema.kids] at hk

/-- `type Query { a: A, u: U, n: Int, g(j: J!): Int }  type A { x: B }  type B implements I { y: C }`
`type C { z: Int @inaccessible }  union U = C  interface I { y: C }  input J { k: K! }`
`input K { l: String! @inaccessible }` -/
def sChain : Schema where
  objects := [⟨[0, 1, 2, 3], []⟩, ⟨[4], []⟩, ⟨[5], [0]⟩, ⟨[6], []⟩]
  interfaces := [⟨[7], [2]⟩]
  unions := [[3]]
  scalars := [true, true]
  inputs := [[1], [2]]
  fields := [⟨.object 1, [], .object 0⟩, ⟨.union 0, [], .object 0⟩, ⟨.scalar 0, [], .object 0⟩, ⟨.scalar 0, [0], .object 0⟩,
    ⟨.object 2, [], .object 1⟩, ⟨.object 3, [], .object 2⟩, ⟨.scalar 0, [], .object 3⟩, ⟨.object 3, [], .interface 0⟩]
  values := [⟨.input 0, true, false, .field 3⟩, ⟨.input 1, true, false, .input 0⟩, ⟨.scalar 1, true, false, .input 1⟩]

def mChain : Marks := fun s => s == .field 6 || s == .value 2

/-- `type Query { f(e: E!): Int }  enum E { V @inaccessible }` -/
def sEnum : Schema where
  objects := [⟨[0], []⟩]
  enums := [[0]]
  scalars := [true]
  fields := [⟨.scalar 0, [0], .object 0⟩]
  values := [⟨.enum 0, true, false, .field 0⟩]
  enumValues := [0]

def mEnum : Marks := fun s => s == .enumValue 0

/-- `type Query { f(i: I!): Int }  input I { k: Int @inaccessible }` -/
def sInput : Schema where
  objects := [⟨[0], []⟩]
  scalars := [true]
  inputs := [[1]]
  fields := [⟨.scalar 0, [0], .object 0⟩]
  values := [⟨.input 0, true, false, .field 0⟩, ⟨.scalar 0, false, false, .input 0⟩]

def mInput : Marks := fun s => s == .value 1

end Verif.Hidden
