import Verif.Leaves.Spec

/-!
# Lemmas for C79
-/
namespace Verif.Leaves

abbrev Marks := List (Option (List Nat))

/-- The marks agree at a position and below it. -/
def Agree (M M' : Marks) (p : List Nat) : Prop := ∀ q, p <:+ q → (some q ∈ M ↔ some q ∈ M')

theorem suffix_cons_self (i : Nat) (p : List Nat) : p <:+ i :: p := List.suffix_cons i p

theorem suffix_index {i k : Nat} {p q : List Nat} (h1 : i :: p <:+ q) (h2 : k :: p <:+ q) : i = k := by
  have h := List.suffix_of_suffix_length_le h1 h2 (by simp)
  have := List.IsSuffix.eq_of_length h (by simp)
  injection this

theorem render_marked {M : Marks} {p : List Nat} (h : some p ∈ M) (v : Val) : render M p v = .null := by
  have h' : M.contains (some p) = true := by simpa using h
  cases v <;> simp [render, h]

mutual
theorem render_any (M : Marks) (p : List Nat) (h : ∀ q, p <:+ q → some q ∉ M) : ∀ j, render M p (anyVal j) = same j
  | .null => rfl
  | .bool b => by simp [anyVal, render, same, h p List.suffix_rfl]
  | .num (.int i) => by simp [anyVal, render, same, h p List.suffix_rfl]
  | .num (.float q) => by simp [anyVal, render, same, h p List.suffix_rfl]
  | .str s => by simp [anyVal, render, same, h p List.suffix_rfl]
  | .list js => by simp [anyVal, render, same, h p List.suffix_rfl, renderList_any M p h 0 js]
  | .map es => by simp [anyVal, render, same, h p List.suffix_rfl, renderMap_any M p h 0 es]
theorem renderList_any (M : Marks) (p : List Nat) (h : ∀ q, p <:+ q → some q ∉ M) :
    ∀ i js, renderList M p i (anyVals js) = sameList js
  | _, [] => rfl
  | i, j :: js => by
    rw [anyVals, renderList, sameList, renderList_any M p h (i + 1) js,
      render_any M (i :: p) (fun q hq => h q ((suffix_cons_self i p).trans hq)) j]
theorem renderMap_any (M : Marks) (p : List Nat) (h : ∀ q, p <:+ q → some q ∉ M) :
    ∀ i es, renderMap M p i (anyEntries es) = sameMap es
  | _, [] => rfl
  | i, (k, j) :: es => by
    rw [anyEntries, renderMap, sameMap, renderMap_any M p h (i + 1) es,
      render_any M (i :: p) (fun q hq => h q ((suffix_cons_self i p).trans hq)) j]
end

/-- The innermost step is as nullable as the type. -/
def HeadOk (c : Ctx) (ty : Ty) : List Step → Prop
  | [] => c.fieldNullable = !ty.required
  | s :: _ => s.nullable = !ty.required

theorem propagate_nullable {c : Ctx} {ty : Ty} {p : List Step} (h : HeadOk c ty p) (hr : ty.required = false) :
    propagate c.fieldNullable p = some (indices p) := by
  cases p with
  | nil => simp only [HeadOk, hr, Bool.not_false] at h; simp [propagate, h, indices]
  | cons s p => simp only [HeadOk, hr, Bool.not_false] at h; simp [propagate, h]

/-- What a seed is to leave. -/
structure Good (c : Ctx) (ty : Ty) (p : List Step) (r : Res) (v : Val) (d : Option Out × List (List Nat)) : Prop where
  errs : r.errs = d.2
  there : ∀ o, d.1 = some o → (∀ m ∈ r.marks, ∃ q, m = some q ∧ indices p <:+ q) ∧
    ∀ M, Agree M r.marks (indices p) → render M (indices p) v = o
  escapes : d.1 = none → ty.required = true ∧ propagate c.fieldNullable p ∈ r.marks ∧
    ∀ m ∈ r.marks, m = propagate c.fieldNullable p ∨ ∃ q, m = some q ∧ indices p <:+ q

theorem good_ok {c : Ctx} {ty : Ty} {p : List Step} {v : Val} {o : Out}
    (h : ∀ M : Marks, (∀ q, indices p <:+ q → some q ∉ M) → render M (indices p) v = o) : Good c ty p (ok v) v (some o, []) := by
  refine ⟨rfl, ?_, fun h => by cases h⟩
  intro o' ho
  injection ho with ho
  subst ho
  refine ⟨by simp [ok], fun M hM => h M (fun q hq hm => ?_)⟩
  have := (hM q hq).mp hm
  simp [ok] at this

theorem good_unexpected {c : Ctx} {ty : Ty} {p : List Step} (hv : c.vis = true) :
    Good c ty p (unexpected c ty.required p) .unexpected (orNull ty.required, [indices p]) := by
  unfold unexpected
  rw [if_pos hv]
  refine ⟨rfl, ?_, ?_⟩
  · intro o ho
    unfold orNull at ho
    split at ho
    · cases ho
    · rename_i hr
      injection ho with ho
      subst ho
      simp [hr, render]
  · intro hn
    unfold orNull at hn
    split at hn
    · rename_i hr
      simp [hr]
    · cases hn

theorem unexpected_val (c : Ctx) (r : Bool) (p : List Step) : (unexpected c r p).val = some .unexpected := by
  unfold unexpected; split <;> rfl

theorem fitsI32_iff (i : Int) : fitsI32 i = true ↔ (-2147483648 ≤ i ∧ i ≤ 2147483647) := by
  unfold fitsI32 i32Min i32Max
  rw [Bool.and_eq_true, decide_eq_true_iff, decide_eq_true_iff]

theorem whole_iff (q : Rat) : ((q.floor : Rat) = q) ↔ q.den = 1 := by
  constructor
  · intro h
    rw [← h]
    simp
  · intro h
    rw [Rat.floor_def, h]
    exact Rat.ext (by simp) (by simp [h])

theorem whole_eq {q : Rat} (h : q.den = 1) : q = (q.num : Rat) := Rat.ext (by simp) (by simp [h])

theorem canCoerce_iff {q : Rat} : canCoerce q = true ↔ q.den = 1 ∧ q.num < 2147483647 := by
  simp only [canCoerce, Bool.and_eq_true, decide_eq_true_eq, whole_iff]
  constructor
  · rintro ⟨h1, h2⟩
    refine ⟨h1, ?_⟩
    rw [whole_eq h1] at h2
    exact Rat.intCast_lt_intCast.mp h2
  · rintro ⟨h1, h2⟩
    refine ⟨h1, ?_⟩
    rw [whole_eq h1]
    exact Rat.intCast_lt_intCast.mpr h2

theorem asI32_of {q : Rat} (h : q.den = 1) (h1 : -2147483648 ≤ q.num) (h2 : q.num ≤ 2147483647) : asI32 q = q.num := by
  have hf : q.floor = q.num := by rw [Rat.floor_def, h]; simp
  have hc : q.ceil = q.num := by
    rw [whole_eq h]; simp
  unfold asI32
  simp only [hf, hc, ite_self, i32Min, i32Max]
  rw [if_neg (by omega), if_neg (by omega)]

/-- Reading an integer from a number that is not written as one. -/
theorem int_of_float {q : Rat} (hq : Fits q) :
    (canCoerce q = true ∧ (q.den = 1 ∧ -2147483648 ≤ q.num ∧ q.num ≤ 2147483647) ∧ asI32 q = q.num) ∨
    (canCoerce q = false ∧ ¬(q.den = 1 ∧ -2147483648 ≤ q.num ∧ q.num ≤ 2147483647)) := by
  by_cases h : q.den = 1
  · have := hq h
    by_cases h2 : q.num < 2147483647
    · exact Or.inl ⟨canCoerce_iff.mpr ⟨h, h2⟩, ⟨h, this.1, by omega⟩, asI32_of h this.1 (by omega)⟩
    · refine Or.inr ⟨?_, fun ⟨_, _, h3⟩ => by omega⟩
      rw [Bool.eq_false_iff]
      intro hc
      exact h2 (canCoerce_iff.mp hc).2
  · refine Or.inr ⟨?_, fun ⟨h3, _⟩ => h h3⟩
    rw [Bool.eq_false_iff]
    intro hc
    exact h (canCoerce_iff.mp hc).1

end Verif.Leaves
