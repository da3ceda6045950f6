import Verif.Literals.Variables
/-!
# A concrete case

`f(range: Range, grid: [[Int]])` over the schema of `Verif.Coercion.Props`, and
`query($v: Int = 3, $u: [Unit]) { f(range: { min: $v, step: $u }, grid: [[1]]) }`.
-/
namespace Verif.Literals

open Verif.Common Verif.Wrapping Verif.Coercion

def wGrid : Wrapping := ⟨0b0001000000000000#16⟩
theorem reach_grid : Reachable wGrid (.list (.list .named)) := ⟨[.list, .list], by decide, rfl⟩

def aRange : InputField := ⟨10, ['r'], ⟨2, wNamed⟩, none, false⟩
def aGrid : InputField := ⟨11, ['g'], ⟨0, wGrid⟩, none, false⟩
def caseArgs : List InputField := [aRange, aGrid]

def caseNames : Names where
  field
    | 0 => fMin.name
    | 1 => fMax.name
    | 2 => fStep.name
    | 3 => fBy.name
    | 10 => aRange.name
    | _ => aGrid.name
  fieldDefault
    | 1 => some 7
    | _ => none
  enumValue _ := eCm.name
  default _ := .num (.pos 9)

theorem caseNames_ok : NamesOk caseSchema caseNames caseArgs := by
  refine ⟨?_, ?_, ?_⟩
  · intro d o fields h f hf
    match d, h with
    | 2, h =>
      cases h
      simp at hf
      rcases hf with rfl | rfl | rfl <;> exact ⟨rfl, rfl⟩
    | 3, h =>
      cases h
      simp at hf
      subst hf
      exact ⟨rfl, rfl⟩
    | 0, h => cases h
    | 1, h => cases h
    | n + 4, h => cases h
  · intro f hf
    simp [caseArgs] at hf
    rcases hf with rfl | rfl <;> exact ⟨rfl, rfl⟩
  · intro d vs h e he
    match d, h with
    | 1, h =>
      cases h
      simp at he
      subst he
      rfl
    | 0, h => cases h
    | 2, h => cases h
    | 3, h => cases h
    | n + 4, h => cases h

theorem caseDefaults_ok (r : Rules) : DefaultsOk caseSchema r caseNames.default caseArgs := by
  refine ⟨?_, ?_⟩
  · intro d o fields h f hf dv hdv t ht
    match d, h with
    | 2, h =>
      cases h
      simp at hf
      rcases hf with rfl | rfl | rfl
      · cases hdv
      · have := (Typed.of_reachable ht).unique (Typed.of_reachable reach_named)
        subst this
        exact .int rfl (i := 9) (by omega) (by omega) (.pos 9 rfl)
      · cases hdv
    | 3, h =>
      cases h
      simp at hf
      subst hf
      cases hdv
    | 0, h => cases h
    | 1, h => cases h
    | n + 4, h => cases h
  · intro f hf dv hdv
    simp [caseArgs] at hf
    rcases hf with rfl | rfl <;> cases hdv

def caseDecls : List Decl := [⟨['v'], ⟨0, wNamed⟩, some (.int 3)⟩, ⟨['u'], ⟨1, wList⟩, none⟩]
def caseVars : List VarDef := [⟨['v'], ⟨0, wRequired⟩, some 0, false⟩, ⟨['u'], ⟨1, wList⟩, none, false⟩]
def caseVarDefaults : Nat → Q := fun _ => .int 3

theorem caseVars_ok : VarsOk caseVars := by
  refine ⟨by decide, fun v hv => ?_⟩
  simp [caseVars] at hv
  rcases hv with rfl | rfl
  · exact ⟨_, reach_required⟩
  · exact ⟨_, reach_list⟩

theorem caseDeclares : Declares caseSchema caseDecls caseVarDefaults caseVars := by
  refine ⟨rfl, fun i decl v h1 h2 => ?_⟩
  match i, h1, h2 with
  | 0, h1, h2 => cases h1; cases h2; exact ⟨rfl, rfl⟩
  | 1, h1, h2 => cases h1; cases h2; exact ⟨rfl, rfl⟩
  | n + 2, h1, h2 => simp [caseDecls] at h1

theorem caseArgs_wrapped : ∀ f ∈ caseArgs, ∃ t, Reachable f.ty.wrapping t := by
  intro f hf
  simp [caseArgs] at hf
  rcases hf with rfl | rfl
  · exact ⟨_, reach_named⟩
  · exact ⟨_, reach_grid⟩

/-- `(grid: [[1]], range: { min: $v, step: $u })`. -/
def caseGiven : List (Str × Lit) :=
  [(aGrid.name, .list [.list [.int 1]]), (aRange.name, .obj [(fMin.name, .var ['v']), (fStep.name, .var ['u'])])]

def caseBound : List (Nat × Q) :=
  [(10, .object false [(0, .variable 0), (1, .default 7), (2, .variable 1)]), (11, .list [.list [.int 1]])]

example : bindArguments caseSchema caseVars caseArgs caseGiven = .ok caseBound := rfl
/-- Without variables: the default of `$v`, no `step`. -/
example : bindVariables caseSchema caseVars [] = some [.default 0, .undefined] := rfl
example : serArguments caseNames (envOf caseNames caseVarDefaults [.default 0, .undefined]) caseBound =
    [(aRange.name, .obj [(fMin.name, .num (.pos 3)), (fMax.name, .num (.pos 9))]), (aGrid.name, .arr [.arr [.num (.pos 1)]])] := rfl

end Verif.Literals
