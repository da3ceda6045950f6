import Verif.Entities.Lemmas

/-!
The flag `bubbling` stays as it is if reading succeeds.
-/
namespace Verif.Entities

open Verif.NullProp
open Verif.DefaultMerge (Key)

theorem parent_flag (st : Part) (par : List VId) : (st.propagateParent par).bubbling = st.bubbling := by
  unfold Part.propagateParent
  split <;> rfl

theorem propagate_flag (st : Part) (par loc : List VId) : (st.propagate par loc).bubbling = st.bubbling := by
  unfold Part.propagate
  split
  · rfl
  · exact parent_flag _ _

theorem orPropagate_flag (vis req : Bool) (par loc : List VId) (st : Part) :
    (orPropagate vis req par loc st).bubbling = st.bubbling := by
  unfold orPropagate
  split
  · exact propagate_flag _ _ _
  · rfl

theorem onNull_flag {vis req : Bool} {par loc : List VId} {st : Part} :
    (onNull vis req par loc st).2.bubbling = st.bubbling := orPropagate_flag _ _ _ _ _

theorem onUnexpected_flag {vis req : Bool} {par loc : List VId} {st : Part} :
    (onUnexpected vis req par loc st).2.bubbling = st.bubbling := orPropagate_flag _ _ _ _ _

theorem onSkipped_flag {b vis req : Bool} {par loc : List VId} {st : Part} :
    (onSkipped b vis req par loc st).2.bubbling = st.bubbling := by
  unfold onSkipped
  split
  · rfl
  · exact onUnexpected_flag

theorem listOther_flag {vis req : Bool} {par loc : List VId} {j : Json} {st : Part} :
    (listOther vis req par loc j st).2.bubbling = st.bubbling := by
  unfold listOther
  split
  · exact onNull_flag
  · rfl
  · exact onSkipped_flag

theorem seedScalar_flag {ok : Leaf → Bool} {vis req : Bool} {par loc : List VId} {j : Json} {st : Part} :
    (seedScalar ok vis req par loc j st).2.bubbling = st.bubbling := by
  unfold seedScalar
  split
  · exact onNull_flag
  · rfl
  · split
    · rfl
    · exact onUnexpected_flag
  · exact onSkipped_flag

theorem seedEnum_flag {vals : Nat → Option Bool} {vis req : Bool} {par loc : List VId} {j : Json} {st : Part} :
    (seedEnum vals vis req par loc j st).2.bubbling = st.bubbling := by
  unfold seedEnum
  split
  · exact onNull_flag
  · rfl
  · split
    · split
      · exact onUnexpected_flag
      · split
        · split
          · exact propagate_flag _ _ _
          · rfl
        · rfl
    · exact onUnexpected_flag
  · exact onSkipped_flag

theorem packed_flag {ok : Leaf → Bool} {vis : Bool} {par loc : List VId} : ∀ (js : Jsons) (i : Nat) (u : Bool)
    (acc : List Leaf) (st : Part) {r st'}, packedItems ok vis par loc js i u acc st = (some r, st') →
    st'.bubbling = st.bubbling
  | .nil, i, u, acc, st, r, st', h => by
    simp only [packedItems, Prod.mk.injEq] at h
    rw [← h.2]
  | .bad, i, u, acc, st, r, st', h => by simp [packedItems] at h
  | .cons j js, i, u, acc, st, r, st', h => by
    rw [packedItems.eq_def] at h
    simp only at h
    split at h
    · split at h
      · exact packed_flag js _ _ _ _ h
      · rw [packed_flag js _ _ _ _ h, orPropagate_flag]
    · split at h
      · simp at h
      · rw [packed_flag js _ _ _ _ h, orPropagate_flag]

theorem shapeErrors_flag {par loc : List VId} (fs : List FieldShape) : ∀ (done : Bool) (F : List Fld) (st : Part),
    (shapeErrors par loc fs done F st).2.2.bubbling = st.bubbling := by
  induction fs with
  | nil => intros; rfl
  | cons f fs ih =>
    intro done F st
    rw [shapeErrors]
    split
    · exact ih _ _ _
    · have h : (if (!done && f.ty.required) = true then st.propagate par loc else st).bubbling = st.bubbling := by
        split
        · exact propagate_flag _ _ _
        · rfl
      simp only
      split
      · rw [ih]
        exact h
      · rw [ih]
        exact h

theorem missingLoop_flag {par loc : List VId} {F0 : List Fld} (fs : List FieldShape) : ∀ (done : Bool) (F : List Fld)
    (st : Part), (missingLoop par loc F0 fs done F st).2.bubbling = st.bubbling := by
  induction fs with
  | nil => intros; rfl
  | cons f fs ih =>
    intro done F st
    rw [missingLoop]
    split
    · exact ih _ _ _
    · split
      · exact ih _ _ _
      · split
        · split
          · rw [ih]
            split
            · rfl
            · exact propagate_flag _ _ _
          · exact ih _ _ _
        · exact ih _ _ _

theorem finishMap_flag {par loc : List VId} {ident : Ident} {tns : List Key} {fs : List FieldShape} {d : Option Nat}
    {F : List Fld} {st : Part} : (finishMap par loc ident tns fs d F st).2.bubbling = st.bubbling := by
  have key : ∀ (a : Bool × List Fld × Part), a.2.2.bubbling = st.bubbling →
      (missingFields par loc fs a.1 a.2.1 a.2.2).2.bubbling = st.bubbling := by
    intro a ha
    unfold missingFields
    split
    · rw [missingLoop_flag, ha]
    · exact ha
  have h := key _ (shapeErrors_flag (par := par) (loc := loc) fs false F st)
  unfold finishMap
  split
  · rfl
  · simp only
    split
    · exact h
    · split
      · exact h
      · exact h

theorem ingestObj_flag {vis req : Bool} {par loc : List VId} {set : Option Nat} {id : Id} {hid : Nat → Bool}
    {r : ObjFields × Part} : (ingestObj hid vis req par loc set id r).2.bubbling = r.2.bubbling := by
  obtain ⟨o, st⟩ := r
  cases o with
  | null => exact onNull_flag
  | error => exact onUnexpected_flag
  | some ty F =>
    unfold ingestObj
    cases ty with
    | none => rfl
    | some t =>
      have h : (if (vis && hid t) = true then (st.putObj id F).propagate par loc else st.putObj id F).bubbling =
          st.bubbling := by
        split
        · exact propagate_flag _ _ _
        · rfl
      cases set with
      | none => exact h
      | some s => exact h

theorem onErr_flag {vis : Bool} {par loc : List VId} {r : Option Val × Part} {v st'}
    (h : onErr vis par loc r = (some v, st')) : r = (some v, st') := by
  unfold onErr at h
  split at h
  · exact h
  · simp at h

mutual

theorem seed_flag {hid : Nat → Bool} {par : List VId} : ∀ (j : Json) (vis : Bool) (loc : List VId) (ty : Ty) (sh : Shape)
    (st : Part) {v st'}, seed hid par vis loc ty sh j st = (some v, st') → st'.bubbling = st.bubbling
  | j, vis, loc, ty, sh, st, v, st', h => by
    rw [seed.eq_def] at h
    have h := onErr_flag h
    cases ty with
    | list req inner =>
      simp only at h
      split at h
      · cases j with
        | list js =>
          simp only at h
          split at h
          · simp at h
          · next heq =>
            simp only [Prod.mk.injEq] at h
            rw [← h.2]
            exact packed_flag js _ _ _ _ heq
        | null => exact (congrArg (·.2.bubbling) h).symm.trans listOther_flag
        | bad => exact (congrArg (·.2.bubbling) h).symm.trans listOther_flag
        | leaf l => exact (congrArg (·.2.bubbling) h).symm.trans listOther_flag
        | map es => exact (congrArg (·.2.bubbling) h).symm.trans listOther_flag
      · cases j with
        | list js =>
          simp only at h
          split at h
          · simp at h
          · next heq =>
            simp only [Prod.mk.injEq] at h
            rw [← h.2]
            have := items_flag js _ _ _ _ _ _ _ _ heq
            exact this
        | null => exact (congrArg (·.2.bubbling) h).symm.trans listOther_flag
        | bad => exact (congrArg (·.2.bubbling) h).symm.trans listOther_flag
        | leaf l => exact (congrArg (·.2.bubbling) h).symm.trans listOther_flag
        | map es => exact (congrArg (·.2.bubbling) h).symm.trans listOther_flag
    | base req =>
      cases sh with
      | scalar p ok => exact (congrArg (·.2.bubbling) h).symm.trans seedScalar_flag
      | enum vals => exact (congrArg (·.2.bubbling) h).symm.trans seedEnum_flag
      | obj ident set tns fs =>
        cases j with
        | map es =>
          simp only at h
          split at h
          · simp at h
          · next heq =>
            rw [show st'.bubbling = _ from (congrArg (·.2.bubbling) h).symm, ingestObj_flag, finishMap_flag]
            have := visit_flag es _ _ _ _ _ _ _ heq
            exact this
        | null => exact (congrArg (·.2.bubbling) h).symm.trans onNull_flag
        | bad => simp at h
        | leaf l => exact (congrArg (·.2.bubbling) h).symm.trans onUnexpected_flag
        | list js => exact (congrArg (·.2.bubbling) h).symm.trans onSkipped_flag

theorem items_flag {hid : Nat → Bool} {par : List VId} : ∀ (js : Jsons) (vis : Bool) (loc : List VId) (id : Id) (inner : Ty)
    (sh : Shape) (i : Nat) (acc : List Val) (st : Part) {r st'},
    seedItems hid par vis loc id inner sh js i acc st = (some r, st') → st'.bubbling = st.bubbling
  | .nil, vis, loc, id, inner, sh, i, acc, st, r, st', h => by
    simp only [seedItems, Prod.mk.injEq] at h
    rw [← h.2]
  | .bad, vis, loc, id, inner, sh, i, acc, st, r, st', h => by simp [seedItems] at h
  | .cons j js, vis, loc, id, inner, sh, i, acc, st, r, st', h => by
    rw [seedItems] at h
    split at h
    · simp at h
    · next heq => rw [items_flag js _ _ _ _ _ _ _ _ h, seed_flag j _ _ _ _ _ heq]

theorem visit_flag {hid : Nat → Bool} {par : List VId} : ∀ (es : Entries) (loc : List VId) (oid : Id)
    (detect : Option (List Nat)) (rest : List FieldShape) (found : Option Nat) (acc : List Fld) (st : Part) {r st'},
    visit hid par loc oid detect es rest found acc st = (some r, st') → st'.bubbling = st.bubbling
  | .nil, loc, oid, detect, rest, found, acc, st, r, st', h => by
    simp only [visit, Prod.mk.injEq] at h
    rw [← h.2]
  | .bad, loc, oid, detect, rest, found, acc, st, r, st', h => by simp [visit] at h
  | .cons k j es, loc, oid, detect, rest, found, acc, st, r, st', h => by
    rw [visit.eq_def] at h
    simp only at h
    split at h
    · split at h
      · simp at h
      · next heq => rw [visit_flag es _ _ _ _ _ _ _ h, seed_flag j _ _ _ _ _ heq]
    · cases detect with
      | none =>
        simp only at h
        split at h
        · simp at h
        · exact visit_flag es _ _ _ _ _ _ _ h
      | some ps =>
        simp only at h
        split at h
        · split at h
          · split at h
            · exact visit_flag es _ _ _ _ _ _ _ h
            · simp at h
          · simp at h
        · split at h
          · simp at h
          · exact visit_flag es _ _ _ _ _ _ _ h

end

variable {hid : Nat → Bool} {shape : RootShape}

theorem fail_flag (st : St) (r : Ref) : (st.fail shape r).part.bubbling = true := by
  rw [fail_part]
  split
  · next h => rw [propagated_bubbling, h]
  · rw [emptyUpdate_bubbling]

/-- The flag says whether reading the object failed. -/
theorem objectSeed_flag (r : Ref) (j : Json) (st : St) :
    (objectSeed hid shape r j st).2.part.bubbling = !(objectSeed hid shape r j st).1 := by
  unfold objectSeed
  have key : ∀ {o p}, readObject hid shape r j { st.part with bubbling := false } = (some o, p) → p.bubbling = false := by
    intro o p h
    unfold readObject at h
    cases j with
    | map es =>
      simp only at h
      split at h
      · simp at h
      · next heq =>
        simp only [Prod.mk.injEq] at h
        rw [← h.2, finishMap_flag, visit_flag es _ _ _ _ _ _ _ heq]
    | null => simp only [Prod.mk.injEq] at h; rw [← h.2]
    | bad => simp at h
    | leaf l => simp only [Prod.mk.injEq] at h; rw [← h.2]
    | list js =>
      simp only at h
      split at h
      · simp at h
      · simp only [Prod.mk.injEq] at h; rw [← h.2]
  split
  · next heq => have := key heq; exact this
  · next heq => simp [St.empty, emptyUpdate_bubbling, key heq]
  · next heq => simp [error_part, emptyUpdate_bubbling, key heq]
  · next heq => simp [fail_flag]

/-- A readable value is read. -/
theorem objectSeed_total {r : Ref} {j : Json} (st : St) (h : j.Readable) : (objectSeed hid shape r j st).1 = true := by
  unfold objectSeed
  have key : (readObject hid shape r j { st.part with bubbling := false }).1 ≠ none := by
    unfold readObject
    cases j with
    | map es =>
      simp only
      split
      · next heq => exact absurd (congrArg (·.1) heq) (visit_total es _ _ _ _ _ _ _ h)
      · simp
    | null => simp
    | bad => exact h.elim
    | leaf l => simp
    | list js => simp [Jsons.Readable.not_broken (js := js) h]
  split
  · rfl
  · rfl
  · rfl
  · next heq => exact absurd (congrArg (·.1) heq) key

end Verif.Entities
