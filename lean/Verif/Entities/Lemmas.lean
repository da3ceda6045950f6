import Verif.Entities.Spec
import Verif.NullProp.ReadLemmas

namespace Verif.Entities

open Verif.NullProp

variable {hid : Nat → Bool} {shape : RootShape}

/-! ## Reading one object -/

theorem fail_part (st : St) (r : Ref) : (st.fail shape r).part =
    if st.part.bubbling then propagatedEmptyUpdate shape.onError r st.part
    else emptyUpdate shape.onError r { st.part with bubbling := true } := by
  unfold St.fail
  split
  · rfl
  · unfold St.error St.empty
    cases h : shape.onError <;> simp [emptyUpdate]

theorem error_part (st : St) (mk : List VId → Err) (r : Ref) :
    (st.error shape mk r).part = emptyUpdate shape.onError r st.part := by
  unfold St.error St.empty
  cases h : shape.onError <;> simp [emptyUpdate]

theorem objectSeed_part (r : Ref) (j : Json) (st : St) :
    (objectSeed hid shape r j st).2.part = rootSeed hid shape r j st.part := by
  unfold objectSeed rootSeed readObject
  cases j with
  | map es =>
    simp only
    cases h : visit hid r.path [] r.id none es shape.fields none [] { st.part with bubbling := false } with
    | mk o p =>
      cases o with
      | none => simp only [fail_part]
                cases hb : p.bubbling
                · simp
                · simp only [if_true]
                  congr 1
                  cases p; simp_all
      | some o =>
        simp only
        cases h2 : finishMap r.path [] (.known r.ty) shape.tns shape.fields o.2 o.1 p with
        | mk f p2 =>
          cases f with
          | null => rfl
          | some t F => rfl
          | error => simp only [error_part]
  | null => rfl
  | bad => simp [fail_part]
  | leaf l => simp [error_part]
  | list js =>
    cases h : js.broken
    · simp [h, error_part]
    · simp [h, fail_part]

/-! ## The flag -/

theorem emptyUpdate_bubbling (on : OnError) (r : Ref) (p : Part) : (emptyUpdate on r p).bubbling = p.bubbling := by
  unfold emptyUpdate Part.propagateParent
  cases on with
  | propagateNull => simp only; split <;> rfl
  | default => rfl
  | skip => rfl

theorem propagated_bubbling (on : OnError) (r : Ref) (p : Part) : (propagatedEmptyUpdate on r p).bubbling = p.bubbling := by
  unfold propagatedEmptyUpdate
  cases on <;> rfl

theorem calm_empty (on : OnError) (r : Ref) {p q : Part} (h : calm p = calm q) :
    calm (emptyUpdate on r p) = calm (emptyUpdate on r q) := by
  cases p; cases q
  simp only [calm, Part.mk.injEq, and_true] at h
  obtain ⟨rfl, rfl, rfl, rfl, rfl, rfl⟩ := by simpa using h
  unfold emptyUpdate Part.propagateParent calm
  cases on with
  | propagateNull => simp only; cases List.find? VId.nullable r.path <;> rfl
  | default => rfl
  | skip => rfl

theorem calm_propagated (on : OnError) (r : Ref) {p q : Part} (h : calm p = calm q) :
    calm (propagatedEmptyUpdate on r p) = calm (propagatedEmptyUpdate on r q) := by
  cases p; cases q
  simp only [calm, Part.mk.injEq, and_true] at h
  obtain ⟨rfl, rfl, rfl, rfl, rfl, rfl⟩ := by simpa using h
  unfold propagatedEmptyUpdate calm
  cases on <;> rfl

theorem rootSeed_calm (r : Ref) (j : Json) {p q : Part} (h : calm p = calm q) :
    rootSeed hid shape r j p = rootSeed hid shape r j q := by
  unfold rootSeed
  unfold calm at h
  rw [h]

theorem give_calm (a : Ref × Answer) {p q : Part} (h : calm p = calm q) :
    calm (give hid shape p a) = calm (give hid shape q a) := by
  unfold give
  obtain ⟨r, a⟩ := a
  cases a with
  | entity j => simp only; rw [rootSeed_calm r j h]
  | nothing => exact calm_empty _ _ h
  | again => exact calm_propagated _ _ h

theorem giveAll_calm (as : List (Ref × Answer)) : ∀ {p q : Part}, calm p = calm q →
    calm (giveAll hid shape p as) = calm (giveAll hid shape q as) := by
  induction as with
  | nil => exact fun h => h
  | cons a as ih => exact fun h => ih (give_calm a h)

theorem giveAll_append (p : Part) (as bs : List (Ref × Answer)) :
    giveAll hid shape p (as ++ bs) = giveAll hid shape (giveAll hid shape p as) bs := by
  simp [giveAll, List.foldl_append]

end Verif.Entities
