import Verif.NullProp.SeedOk

/-!
# A readable subgraph response is read
-/
namespace Verif.NullProp

open Verif.DefaultMerge (Key Field)

mutual
theorem Json.Readable.not_broken : ∀ {j : Json}, j.Readable → j.broken = false
  | .null, _ => rfl
  | .leaf _, _ => rfl
  | .bad, h => h.elim
  | .list js, h => Jsons.Readable.not_broken (js := js) h
  | .map es, h => Entries.Readable.not_broken (es := es) h
theorem Jsons.Readable.not_broken : ∀ {js : Jsons}, js.Readable → js.broken = false
  | .nil, _ => rfl
  | .bad, h => h.elim
  | .cons j js, h => by
    simp only [Jsons.broken, Json.Readable.not_broken h.1, Jsons.Readable.not_broken h.2, Bool.or_self]
theorem Entries.Readable.not_broken : ∀ {es : Entries}, es.Readable → es.broken = false
  | .nil, _ => rfl
  | .bad, h => h.elim
  | .cons k j es, h => by
    simp only [Entries.broken, Json.Readable.not_broken h.1, Entries.Readable.not_broken h.2.2, Bool.or_self]
end

theorem onSkipped_total {vis req : Bool} {par loc : List VId} {st : Part} {b : Bool} (h : b = false) :
    (onSkipped b vis req par loc st).1 ≠ none := by
  subst h
  simp [onSkipped, onUnexpected]

theorem onErr_total {vis : Bool} {par loc : List VId} {r : Option Val × Part} (h : r.1 ≠ none) : (onErr vis par loc r).1 ≠ none := by
  rcases r with ⟨_ | v, st⟩
  · exact absurd rfl h
  · simp [onErr]

theorem listOther_total {vis req : Bool} {par loc : List VId} {j : Json} {st : Part} (h : j.Readable) :
    (listOther vis req par loc j st).1 ≠ none := by
  unfold listOther
  cases j with
  | null => simp [onNull]
  | bad => exact h.elim
  | leaf l => exact onSkipped_total h.not_broken
  | list js => exact onSkipped_total h.not_broken
  | map es => exact onSkipped_total h.not_broken

theorem packed_total {ok : Leaf → Bool} {vis : Bool} {par loc : List VId} : ∀ (js : Jsons) (i : Nat) (u : Bool) (acc : List Leaf) (st : Part),
    js.Readable → (packedItems ok vis par loc js i u acc st).1 ≠ none
  | .nil, i, u, acc, st, _ => by simp [packedItems]
  | .bad, i, u, acc, st, h => h.elim
  | .cons j js, i, u, acc, st, h => by
    have hb := h.1.not_broken
    cases j with
    | leaf l =>
      simp only [packedItems]
      split
      · exact packed_total js _ _ _ _ h.2
      · exact packed_total js _ _ _ _ h.2
    | null =>
      simp only [packedItems, hb, Bool.false_eq_true, if_false]
      exact packed_total js _ _ _ _ h.2
    | bad => exact h.1.elim
    | list js' =>
      simp only [packedItems, hb, Bool.false_eq_true, if_false]
      exact packed_total js _ _ _ _ h.2
    | map es =>
      simp only [packedItems, hb, Bool.false_eq_true, if_false]
      exact packed_total js _ _ _ _ h.2

theorem ingestObj_total {hid : Nat → Bool} {vis req : Bool} {par loc : List VId} {set : Option Nat} {id : Id} {r : ObjFields × Part} :
    (ingestObj hid vis req par loc set id r).1 ≠ none := by
  unfold ingestObj
  rcases r with ⟨_ | ⟨ty, F⟩ | _, st⟩
  · simp [onNull]
  · cases ty with
    | none => simp
    | some t => cases set <;> simp
  · simp [onUnexpected]

mutual

theorem seed_total {hid : Nat → Bool} {par : List VId} : ∀ (j : Json) (vis : Bool) (loc : List VId) (ty : Ty) (sh : Shape) (st : Part),
    j.Readable → (seed hid par vis loc ty sh j st).1 ≠ none
  | j, vis, loc, ty, sh, st, h => by
    rw [seed.eq_def]
    apply onErr_total
    cases ty with
    | list req inner =>
      simp only
      split
      · cases j with
        | list js =>
          simp only
          split
          · next heq => exact absurd (congrArg (·.1) heq) (packed_total js _ _ _ _ h)
          · simp
        | null => exact listOther_total h
        | bad => exact h.elim
        | leaf l => exact listOther_total h
        | map es => exact listOther_total h
      · cases j with
        | list js =>
          simp only
          split
          · next heq => exact absurd (congrArg (·.1) heq) (items_total js _ _ _ _ _ _ _ _ h)
          · simp
        | null => exact listOther_total h
        | bad => exact h.elim
        | leaf l => exact listOther_total h
        | map es => exact listOther_total h
    | base req =>
      cases sh with
      | scalar p ok =>
        simp only [seedScalar]
        cases j with
        | null => simp [onNull]
        | bad => exact h.elim
        | leaf l => simp only; split <;> simp [onUnexpected]
        | list js => exact onSkipped_total h.not_broken
        | map es => exact onSkipped_total h.not_broken
      | enum vals =>
        simp only [seedEnum]
        cases j with
        | null => simp [onNull]
        | bad => exact h.elim
        | leaf l =>
          simp only
          split
          · split
            · simp [onUnexpected]
            · split
              · split <;> simp
              · simp
          · simp [onUnexpected]
        | list js => exact onSkipped_total h.not_broken
        | map es => exact onSkipped_total h.not_broken
      | obj ident set tns fs =>
        cases j with
        | map es =>
          simp only
          split
          · next heq => exact absurd (congrArg (·.1) heq) (visit_total es _ _ _ _ _ _ _ h)
          · exact ingestObj_total
        | null => simp [onNull]
        | bad => exact h.elim
        | leaf l => simp [onUnexpected]
        | list js => exact onSkipped_total (Jsons.Readable.not_broken (js := js) h)

theorem items_total {hid : Nat → Bool} {par : List VId} : ∀ (js : Jsons) (vis : Bool) (loc : List VId) (id : Id) (inner : Ty) (sh : Shape)
    (i : Nat) (acc : List Val) (st : Part), js.Readable → (seedItems hid par vis loc id inner sh js i acc st).1 ≠ none
  | .nil, vis, loc, id, inner, sh, i, acc, st, _ => by simp [seedItems]
  | .bad, vis, loc, id, inner, sh, i, acc, st, h => h.elim
  | .cons j js, vis, loc, id, inner, sh, i, acc, st, h => by
    rw [seedItems]
    split
    · next heq => exact absurd (congrArg (·.1) heq) (seed_total j _ _ _ _ _ h.1)
    · exact items_total js _ _ _ _ _ _ _ _ h.2

theorem visit_total {hid : Nat → Bool} {par : List VId} : ∀ (es : Entries) (loc : List VId) (oid : Id) (detect : Option (List Nat))
    (rest : List FieldShape) (found : Option Nat) (acc : List Fld) (st : Part), es.Readable →
    (visit hid par loc oid detect es rest found acc st).1 ≠ none
  | .nil, loc, oid, detect, rest, found, acc, st, _ => by simp [visit]
  | .bad, loc, oid, detect, rest, found, acc, st, h => h.elim
  | .cons k j es, loc, oid, detect, rest, found, acc, st, h => by
    rw [visit.eq_def]
    simp only
    have hb := h.1.not_broken
    split
    · split
      · next heq => exact absurd (congrArg (·.1) heq) (seed_total j _ _ _ _ _ h.1)
      · exact visit_total es _ _ _ _ _ _ _ h.2.2
    · cases detect with
      | none =>
        simp only [hb, Bool.false_eq_true, if_false]
        exact visit_total es _ _ _ _ _ _ _ h.2.2
      | some ps =>
        simp only
        split
        · next hc =>
          rw [Bool.and_eq_true] at hc
          obtain ⟨l, rfl, hs⟩ := h.2.1 (by simpa using hc.2)
          simp only [hs, if_true]
          exact visit_total es _ _ _ _ _ _ _ h.2.2
        · simp only [hb, Bool.false_eq_true, if_false]
          exact visit_total es _ _ _ _ _ _ _ h.2.2

end

end Verif.NullProp
