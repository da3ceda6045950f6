import Verif.Coercion.Sound
/-!
# Coercion of variable values: the variables of a request
-/
namespace Verif.Coercion

open Verif.Common Verif.Wrapping

/-- The value a request gives for a name. -/
def given (raw : List (Str × Json)) (name : Str) : Option Json := (swapRemove name raw).map (·.1)

theorem given_cons (k : Str) (v : Json) (raw : List (Str × Json)) (name : Str) :
    given ((k, v) :: raw) name = if k = name then some v else given raw name := by
  unfold given
  rw [swapRemove]
  split
  · rfl
  · cases swapRemove name raw <;> rfl

theorem given_rest {name name' : Str} (hne : name ≠ name') : ∀ {raw : List (Str × Json)} {v : Json} {raw'},
    swapRemove name raw = some (v, raw') → given raw' name' = given raw name'
  | [], _, _, h => by cases h
  | (k, x) :: raw, v, raw', h => by
    unfold swapRemove at h
    by_cases hk : k = name
    · rw [if_pos hk] at h
      cases h
      rw [given_cons, if_neg (by rw [hk]; exact hne)]
    · rw [if_neg hk] at h
      obtain ⟨⟨v', rest'⟩, h1, h2⟩ := Option.map_eq_some_iff.1 h
      cases h2
      rw [given_cons, given_cons, given_rest hne h1]

theorem given_some {raw : List (Str × Json)} {name : Str} {v : Json} (h : given raw name = some v) : (name, v) ∈ raw := by
  unfold given at h
  obtain ⟨⟨v', rest⟩, h1, rfl⟩ := Option.map_eq_some_iff.1 h
  exact (swapRemove_some h1).1

theorem given_none {raw : List (Str × Json)} {name : Str} : given raw name = none ↔ name ∉ keys raw := by
  unfold given
  rw [Option.map_eq_none_iff, swapRemove_none]

theorem given_of_mem {name : Str} {v : Json} : ∀ {raw : List (Str × Json)}, (keys raw).Nodup → (name, v) ∈ raw → given raw name = some v
  | [], _, h => by cases h
  | (k, x) :: raw, hn, h => by
    obtain ⟨h1, h2⟩ := List.nodup_cons.1 hn
    rw [given_cons]
    rcases List.mem_cons.1 h with h | h
    · cases h
      rw [if_pos rfl]
    · rw [if_neg, given_of_mem h2 h]
      rintro rfl
      exact h1 (List.mem_map.2 ⟨_, h, rfl⟩)

theorem bindLoop_eq (s : Schema) : ∀ (defs : List VarDef) (raw : List (Str × Json)), (defs.map (·.name)).Nodup →
    bindLoop s defs raw = defs.map fun d => bindVariable s d (given raw d.name)
  | [], _, _ => rfl
  | d :: ds, raw, hn => by
    obtain ⟨h1, h2⟩ := List.nodup_cons.1 hn
    unfold bindLoop
    rw [List.map_cons]
    cases hr : swapRemove d.name raw with
    | none =>
      simp only
      rw [bindLoop_eq s ds raw h2]
      unfold given
      rw [hr]
      rfl
    | some r =>
      obtain ⟨v, raw'⟩ := r
      simp only
      rw [bindLoop_eq s ds raw' h2]
      have hg : given raw d.name = some v := by unfold given; rw [hr]; rfl
      rw [hg]
      refine congrArg _ (List.map_congr_left fun x hx => ?_)
      rw [given_rest (name := d.name) (name' := x.name) ?_ hr]
      intro e
      exact h1 (List.mem_map.2 ⟨x, hx, e.symm⟩)

theorem sum_zero {l : List Nat} : l.sum = 0 ↔ ∀ x ∈ l, x = 0 := by
  induction l with
  | nil => simp
  | cons a l ih => simp [ih]

theorem bindVariables_some (s : Schema) (defs : List VarDef) (raw : List (Str × Json)) (hn : (defs.map (·.name)).Nodup)
    (vals : List VarValue) : bindVariables s defs raw = some vals ↔
    (∀ d ∈ defs, (bindVariable s d (given raw d.name)).1 = 0) ∧ vals = defs.map fun d => (bindVariable s d (given raw d.name)).2 := by
  unfold bindVariables
  simp only
  rw [bindLoop_eq s defs raw hn, List.map_map, List.map_map]
  have hsum : ((defs.map ((·.1) ∘ fun d => bindVariable s d (given raw d.name))).sum = 0) ↔
      ∀ d ∈ defs, (bindVariable s d (given raw d.name)).1 = 0 := by
    rw [sum_zero]
    constructor
    · intro h d hd
      exact h _ (List.mem_map.2 ⟨d, hd, rfl⟩)
    · intro h x hx
      obtain ⟨d, hd, rfl⟩ := List.mem_map.1 hx
      exact h d hd
  by_cases h : ∀ d ∈ defs, (bindVariable s d (given raw d.name)).1 = 0
  · rw [if_pos (hsum.2 h), Option.some.injEq]
    exact ⟨fun e => ⟨h, e.symm⟩, fun e => e.2.symm⟩
  · rw [if_neg (fun hc => h (hsum.1 hc))]
    exact ⟨fun e => (by cases e), fun e => absurd e.1 h⟩

/-! ## Leniency of types -/

theorem lenient_conforms {s : Schema} {nul : Prop} {d : Nat} {i i' : Bool} {ls ls' : List ListWrapping} (h : lenientAbs i i' ls ls') :
    ∀ o, Conforms s nul d (readBack i' ls') o → Conforms s nul d (readBack i ls) o := by
  induction ls using snoc_induction generalizing ls' with
  | h0 =>
    rcases snoc_cases ls' with rfl | ⟨ys, y, rfl⟩
    · intro o ho
      cases i with
      | true =>
        cases i' with
        | true => exact ho
        | false => exact absurd ⟨rfl, rfl⟩ h
      | false =>
        cases i' with
        | false => exact ho
        | true =>
          generalize ht : readBack true [] = t at ho
          cases ho with
          | nonNull _ h2 =>
            have : GType.nonNull .named = .nonNull _ := ht
            injection this with this
            subst this
            exact h2
          | null h => subst ht; cases h
          | list => cases ht
          | _ => cases ht
    · cases ys <;> exact absurd h (by simp [lenientAbs])
  | h1 xs x ih =>
    rcases snoc_cases ls' with rfl | ⟨ys, y, rfl⟩
    · cases xs <;> exact absurd h (by simp [lenientAbs])
    · rw [lenientAbs_snoc] at h
      have hlist : ∀ o, Conforms s nul d (.list (readBack i' ys)) o → Conforms s nul d (.list (readBack i xs)) o := by
        intro o ho
        generalize ht : GType.list (readBack i' ys) = t at ho
        cases ho with
        | null h => exact .null rfl
        | list hy =>
          cases ht
          exact .list fun y' hy' => ih h.2 _ (hy y' hy')
        | _ => cases ht
      have hnn : ∀ t o, Conforms s nul d (.nonNull t) o → o ≠ .null ∧ Conforms s nul d t o := by
        intro t o ho
        generalize ht : GType.nonNull t = t' at ho
        cases ho with
        | nonNull h1 h2 => cases ht; exact ⟨h1, h2⟩
        | null h => subst ht; cases h
        | _ => cases ht
      intro o ho
      rw [readBack_snoc] at ho ⊢
      cases y with
      | list =>
        cases x with
        | list => exact hlist o ho
        | listNonNull => exact absurd ⟨rfl, rfl⟩ h.1
      | listNonNull =>
        obtain ⟨h1, h2⟩ := hnn _ o ho
        cases x with
        | list => exact hlist o h2
        | listNonNull => exact .nonNull h1 (hlist o h2)

end Verif.Coercion
