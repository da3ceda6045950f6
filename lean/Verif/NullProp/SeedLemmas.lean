import Verif.NullProp.MarkLemmas

/-!
# Reading fields that are not sent to the client, and the steps of reading one that is
-/
namespace Verif.NullProp

open Verif.DefaultMerge (Key Field)
open Verif.OpChecks (sortBy insertBy sortBy_perm)

theorem onErr_some {vis : Bool} {par loc : List VId} {r : Option Val × Part} {v : Val} {st' : Part}
    (h : onErr vis par loc r = (some v, st')) : r = (some v, st') := by
  unfold onErr at h
  rcases r with ⟨_ | w, st⟩
  · simp at h
  · exact h

theorem putObj_ext {st st' : Part} (h : Ext st.reserveObj st') (F : List Fld) : Ext st (st'.putObj st.nextObj F) := by
  refine ⟨h.id, ?_, h.lists, h.updates⟩
  obtain ⟨t, ht⟩ := h.objs
  refine ⟨sortBy fldLe F :: t, ?_⟩
  show _ = st'.data.objs.set st.data.objs.length _
  rw [← ht]
  simp [Part.reserveObj]

theorem putList_ext {st st' : Part} (h : Ext st.reserveList st') (vs : List Val) : Ext st (st'.putList st.nextList vs) := by
  refine ⟨h.id, h.objs, ?_, h.updates⟩
  obtain ⟨t, ht⟩ := h.lists
  refine ⟨vs :: t, ?_⟩
  show _ = st'.data.lists.set st.data.lists.length _
  rw [← ht]
  simp [Part.reserveList]

theorem putObj_quiet {st st' : Part} (h : Quiet st.reserveObj st') (F : List Fld) :
    Quiet st (st'.putObj st.nextObj F) := ⟨putObj_ext h.ext F, h.nullAt, h.root⟩

theorem putList_quiet {st st' : Part} (h : Quiet st.reserveList st') (vs : List Val) :
    Quiet st (st'.putList st.nextList vs) := ⟨putList_ext h.ext vs, h.nullAt, h.root⟩

theorem packedItems_cons {ok : Leaf → Bool} {vis : Bool} {par loc : List VId} {j : Json} {js : Jsons} {i : Nat} {u : Bool}
    {acc : List Leaf} {st st' : Part} {r : List Leaf × Bool}
    (h : packedItems ok vis par loc (.cons j js) i u acc st = (some r, st')) :
    (∃ l, j = .leaf l ∧ ok l = true ∧ packedItems ok vis par loc js (i + 1) u (acc ++ [l]) st = (some r, st')) ∨
    ((∀ l, j = .leaf l → ok l = false) ∧ packedItems ok vis par loc js (i + 1) true (acc ++ [⟨false, 0⟩])
      (orPropagate vis true par (.packed st.id i :: loc) st) = (some r, st')) := by
  cases j with
  | leaf l =>
    simp only [packedItems] at h
    split at h
    · next ho => exact .inl ⟨l, rfl, ho, h⟩
    · next ho => exact .inr ⟨fun l' hl => by cases hl; simpa using ho, h⟩
  | null =>
    simp only [packedItems] at h
    split at h
    · simp at h
    · exact .inr ⟨fun l' hl => (nomatch hl), h⟩
  | bad =>
    simp only [packedItems] at h
    split at h
    · simp at h
    · exact .inr ⟨fun l' hl => (nomatch hl), h⟩
  | list js' =>
    simp only [packedItems] at h
    split at h
    · simp at h
    · exact .inr ⟨fun l' hl => (nomatch hl), h⟩
  | map es =>
    simp only [packedItems] at h
    split at h
    · simp at h
    · exact .inr ⟨fun l' hl => (nomatch hl), h⟩

theorem packedItems_quiet {ok : Leaf → Bool} {par loc : List VId} :
    ∀ (js : Jsons) (i : Nat) (u : Bool) (acc : List Leaf) (st : Part) r st',
      packedItems ok false par loc js i u acc st = (some r, st') → Quiet st st'
  | .nil, i, u, acc, st, r, st', h => by
    simp only [packedItems, Prod.mk.injEq] at h
    rw [← h.2]
    exact .refl _
  | .bad, i, u, acc, st, r, st', h => by simp [packedItems] at h
  | .cons j js, i, u, acc, st, r, st', h => by
    rcases packedItems_cons h with ⟨l, _, _, h⟩ | ⟨_, h⟩
    · exact packedItems_quiet js _ _ _ _ _ _ h
    · have : orPropagate false true par (.packed st.id i :: loc) st = st := rfl
      rw [this] at h
      exact packedItems_quiet js _ _ _ _ _ _ h

theorem onNull_hidden {req : Bool} {par loc : List VId} {st st' : Part} {v : Val}
    (h : onNull false req par loc st = (some v, st')) : st' = st := by
  simp only [onNull, orPropagate, Bool.false_and, Bool.false_eq_true, if_false, Prod.mk.injEq] at h
  exact h.2.symm

theorem onUnexpected_hidden {req : Bool} {par loc : List VId} {st st' : Part} {v : Val}
    (h : onUnexpected false req par loc st = (some v, st')) : st' = st := by
  simp only [onUnexpected, orPropagate, Bool.false_and, Bool.false_eq_true, if_false, Prod.mk.injEq] at h
  exact h.2.symm

theorem onSkipped_some {b vis req : Bool} {par loc : List VId} {st st' : Part} {v : Val}
    (h : onSkipped b vis req par loc st = (some v, st')) : b = false ∧ onUnexpected vis req par loc st = (some v, st') := by
  unfold onSkipped at h
  cases b with
  | true => simp at h
  | false => exact ⟨rfl, by simpa using h⟩

/-- A value that is not a list, where a list is expected, is null or unexpected. -/
theorem listOther_some {vis req : Bool} {par loc : List VId} {j : Json} {st st' : Part} {v : Val}
    (h : listOther vis req par loc j st = (some v, st')) :
    onNull vis req par loc st = (some v, st') ∨ onUnexpected vis req par loc st = (some v, st') := by
  unfold listOther at h
  cases j with
  | null => exact .inl h
  | bad => simp at h
  | leaf l => exact .inr (onSkipped_some h).2
  | list js => exact .inr (onSkipped_some h).2
  | map es => exact .inr (onSkipped_some h).2

theorem seedScalar_some {ok : Leaf → Bool} {vis req : Bool} {par loc : List VId} {j : Json} {st st' : Part} {v : Val}
    (h : seedScalar ok vis req par loc j st = (some v, st')) :
    (∃ l, j = .leaf l ∧ ok l = true ∧ v = .leaf l ∧ st' = st) ∨ ((∀ l, j = .leaf l → ok l = false) ∧
      (onNull vis req par loc st = (some v, st') ∨ onUnexpected vis req par loc st = (some v, st'))) := by
  unfold seedScalar at h
  cases j with
  | null => exact .inr ⟨fun l hl => (nomatch hl), .inl h⟩
  | bad => simp at h
  | leaf l =>
    simp only at h
    split at h
    · next ho =>
      simp only [Prod.mk.injEq, Option.some.injEq] at h
      exact .inl ⟨l, rfl, ho, h.1.symm, h.2.symm⟩
    · next ho => exact .inr ⟨fun l' hl => by cases hl; simpa using ho, .inr h⟩
  | list js => exact .inr ⟨fun l hl => (nomatch hl), .inr (onSkipped_some h).2⟩
  | map es => exact .inr ⟨fun l hl => (nomatch hl), .inr (onSkipped_some h).2⟩

theorem seedEnum_some {vals : Nat → Option Bool} {vis req : Bool} {par loc : List VId} {j : Json} {st st' : Part} {v : Val}
    (h : seedEnum vals vis req par loc j st = (some v, st')) :
    (∃ l b, j = .leaf l ∧ l.str = true ∧ vals l.n = some b ∧
      ((vis && b) = false ∧ v = .leaf l ∧ st' = st ∨
        (vis && b) = true ∧ req = true ∧ v = .leaf l ∧ st' = st.propagate par loc ∨
        (vis && b) = true ∧ req = false ∧ v = .inacc st.nextInacc ∧ st' = st.pushInacc (.leaf l))) ∨
    ((∀ l, j = .leaf l → l.str = true → vals l.n = none) ∧
      (onNull vis req par loc st = (some v, st') ∨ onUnexpected vis req par loc st = (some v, st'))) := by
  unfold seedEnum at h
  cases j with
  | null => exact .inr ⟨fun l hl => (nomatch hl), .inl h⟩
  | bad => simp at h
  | leaf l =>
    simp only at h
    split at h
    · next hs =>
      cases hv : vals l.n with
      | none =>
        rw [hv] at h
        exact .inr ⟨fun l' hl _ => by cases hl; exact hv, .inr h⟩
      | some b =>
        rw [hv] at h
        refine .inl ⟨l, b, rfl, hs, hv, ?_⟩
        simp only at h
        split at h
        · next hb =>
          split at h
          · next hr =>
            simp only [Prod.mk.injEq, Option.some.injEq] at h
            exact .inr (.inl ⟨hb, hr, h.1.symm, h.2.symm⟩)
          · next hr =>
            simp only [Prod.mk.injEq, Option.some.injEq] at h
            exact .inr (.inr ⟨hb, by simpa using hr, h.1.symm, h.2.symm⟩)
        · next hb =>
          simp only [Prod.mk.injEq, Option.some.injEq] at h
          exact .inl ⟨by simpa using hb, h.1.symm, h.2.symm⟩
    · next hs => exact .inr ⟨fun l' hl hs' => by cases hl; exact absurd hs' hs, .inr h⟩
  | list js => exact .inr ⟨fun l hl => (nomatch hl), .inr (onSkipped_some h).2⟩
  | map es => exact .inr ⟨fun l hl => (nomatch hl), .inr (onSkipped_some h).2⟩

/-! ## Hidden fields -/

theorem shapeErrors_none {par loc : List VId} {fs : List FieldShape} {done : Bool} {F : List Fld} {st : Part}
    (h : ∀ f ∈ fs, f.errors = 0) : shapeErrors par loc fs done F st = (done, F, st) := by
  induction fs with
  | nil => rfl
  | cons f fs ih =>
    rw [shapeErrors, if_pos (h f List.mem_cons_self)]
    exact ih fun g hg => h g (List.mem_cons_of_mem _ hg)

theorem missingLoop_hidden {par loc : List VId} {F0 : List Fld} {fs : List FieldShape} {done : Bool} {F : List Fld}
    {st : Part} (h : ∀ f ∈ fs, f.vis = false) : (missingLoop par loc F0 fs done F st).2 = st := by
  induction fs generalizing done F with
  | nil => rfl
  | cons f fs ih =>
    have hv : visible f.key = false := h f List.mem_cons_self
    have ih' := fun d G => ih (done := d) (F := G) fun g hg => h g (List.mem_cons_of_mem _ hg)
    rw [missingLoop]
    split
    · exact ih' _ _
    · split
      · exact ih' _ _
      · split
        · rw [hv]
          exact ih' _ _
        · exact ih' _ _

theorem missingFields_hidden {par loc : List VId} {fs : List FieldShape} {done : Bool} {F : List Fld}
    {st : Part} (h : ∀ f ∈ fs, f.vis = false) : (missingFields par loc fs done F st).2 = st := by
  unfold missingFields
  split
  · exact missingLoop_hidden h
  · rfl

theorem finishMap_hidden {par loc : List VId} {ident : Ident} {tns : List Key} {fs : List FieldShape}
    {detected : Option Nat} {F : List Fld} {st : Part} (h : ∀ f ∈ fs, f.vis = false ∧ f.errors = 0) :
    (finishMap par loc ident tns fs detected F st).2 = st := by
  unfold finishMap
  split
  · rfl
  · rw [shapeErrors_none fun f hf => (h f hf).2]
    simp only
    have hm := missingFields_hidden (par := par) (loc := loc) (done := false) (F := F) (st := st) fun f hf => (h f hf).1
    split
    · exact hm
    · split
      · exact hm
      · exact hm

theorem ingestObj_hidden {hid : Nat → Bool} {req : Bool} {par loc : List VId} {set : Option Nat} {st0 st' : Part}
    {r : ObjFields × Part} {v : Val} (h : ingestObj hid false req par loc set st0.nextObj r = (some v, st'))
    (hq : Quiet st0.reserveObj r.2) : Quiet st0 st' := by
  unfold ingestObj at h
  have hq0 := (reserveObj_quiet st0).trans hq
  rcases r with ⟨_ | ⟨ty, F⟩ | _, st⟩
  · rw [onNull_hidden h]; exact hq0
  · have hp := putObj_quiet hq F
    simp only [Bool.false_and, Bool.false_eq_true, if_false] at h
    split at h
    · simp only [Prod.mk.injEq] at h
      rw [← h.2]
      exact hp
    · split at h
      · simp only [Prod.mk.injEq] at h
        rw [← h.2]
        exact hp
      · simp only [Prod.mk.injEq] at h
        rw [← h.2]
        exact ⟨⟨hp.ext.id, hp.ext.objs, hp.ext.lists, hp.ext.updates⟩, hp.nullAt, hp.root⟩
  · rw [onUnexpected_hidden h]; exact hq0

theorem advance_subset {k : Nat} {fs : List FieldShape} : ∀ f ∈ advance k fs, f ∈ fs := by
  cases fs with
  | nil => simp [advance]
  | cons g fs =>
    intro f hf
    simp only [advance] at hf
    split at hf
    · exact List.mem_cons_of_mem _ hf
    · exact hf

mutual

theorem seed_quiet {hid : Nat → Bool} {par : List VId} : ∀ (j : Json) (loc : List VId) (ty : Ty) (sh : Shape) (st : Part) v st',
    AllHidden sh → seed hid par false loc ty sh j st = (some v, st') → Quiet st st'
  | j, loc, ty, sh, st, v, st', hsh, h => by
    rw [seed.eq_def] at h
    replace h := onErr_some h
    cases ty with
    | list req inner =>
      simp only at h
      split at h
      · cases j with
        | list js =>
          simp only at h
          rcases hp : packedItems _ false par loc js 0 false [] st with ⟨_ | ⟨ls, u⟩, st1⟩
          · rw [hp] at h; simp at h
          · rw [hp] at h
            simp only [Prod.mk.injEq] at h
            rw [← h.2]
            exact packedItems_quiet _ _ _ _ _ _ _ hp
        | null => rcases listOther_some h with h | h <;> [rw [onNull_hidden h]; rw [onUnexpected_hidden h]] <;> exact .refl _
        | bad => rcases listOther_some h with h | h <;> [rw [onNull_hidden h]; rw [onUnexpected_hidden h]] <;> exact .refl _
        | leaf l => rcases listOther_some h with h | h <;> [rw [onNull_hidden h]; rw [onUnexpected_hidden h]] <;> exact .refl _
        | map es => rcases listOther_some h with h | h <;> [rw [onNull_hidden h]; rw [onUnexpected_hidden h]] <;> exact .refl _
      · cases j with
        | list js =>
          simp only at h
          rcases hp : seedItems hid par false loc st.nextList inner sh js 0 [] st.reserveList with ⟨_ | vs, st1⟩
          · rw [hp] at h; simp at h
          · rw [hp] at h
            simp only [Prod.mk.injEq] at h
            rw [← h.2]
            exact putList_quiet (items_quiet js _ _ _ _ _ _ _ _ _ hsh hp) _
        | null => rcases listOther_some h with h | h <;> [rw [onNull_hidden h]; rw [onUnexpected_hidden h]] <;> exact reserveList_quiet _
        | bad => rcases listOther_some h with h | h <;> [rw [onNull_hidden h]; rw [onUnexpected_hidden h]] <;> exact reserveList_quiet _
        | leaf l => rcases listOther_some h with h | h <;> [rw [onNull_hidden h]; rw [onUnexpected_hidden h]] <;> exact reserveList_quiet _
        | map es => rcases listOther_some h with h | h <;> [rw [onNull_hidden h]; rw [onUnexpected_hidden h]] <;> exact reserveList_quiet _
    | base req =>
      cases sh with
      | scalar p ok =>
        rcases seedScalar_some h with ⟨l, _, _, _, hs⟩ | ⟨_, h | h⟩
        · rw [hs]; exact .refl _
        · rw [onNull_hidden h]; exact .refl _
        · rw [onUnexpected_hidden h]; exact .refl _
      | enum vals =>
        rcases seedEnum_some h with ⟨l, b, _, _, _, h | h | h⟩ | ⟨_, h | h⟩
        · rw [h.2.2]; exact .refl _
        · simp at h
        · simp at h
        · rw [onNull_hidden h]; exact .refl _
        · rw [onUnexpected_hidden h]; exact .refl _
      | obj ident set tns fs =>
        cases hsh with
        | obj h1 h2 =>
        cases j with
        | map es =>
          simp only at h
          rcases hp : visit hid par loc st.nextObj ident.possible es fs none [] st.reserveObj with ⟨_ | ⟨F, det⟩, st1⟩
          · rw [hp] at h; simp at h
          · rw [hp] at h
            simp only at h
            apply ingestObj_hidden h
            rw [finishMap_hidden h1]
            exact visit_quiet es _ _ _ _ _ _ _ _ _ (fun f hf => ⟨(h1 f hf).1, h2 f hf⟩) hp
        | null => rw [onNull_hidden h]; exact reserveObj_quiet _
        | bad => simp at h
        | leaf l => rw [onUnexpected_hidden h]; exact reserveObj_quiet _
        | list js => rw [onUnexpected_hidden (onSkipped_some h).2]; exact reserveObj_quiet _

theorem items_quiet {hid : Nat → Bool} {par : List VId} : ∀ (js : Jsons) (loc : List VId) (id : Id) (inner : Ty) (sh : Shape)
    (i : Nat) (acc : List Val) (st : Part) vs st', AllHidden sh →
    seedItems hid par false loc id inner sh js i acc st = (some vs, st') → Quiet st st'
  | .nil, loc, id, inner, sh, i, acc, st, vs, st', hsh, h => by
    simp only [seedItems, Prod.mk.injEq] at h
    rw [← h.2]
    exact .refl _
  | .bad, loc, id, inner, sh, i, acc, st, vs, st', hsh, h => by simp [seedItems] at h
  | .cons j js, loc, id, inner, sh, i, acc, st, vs, st', hsh, h => by
    rw [seedItems] at h
    rcases hp : seed hid par false (.index id i (!inner.required) :: loc) inner sh j st with ⟨_ | v, st1⟩
    · rw [hp] at h; simp at h
    · rw [hp] at h
      simp only at h
      exact (seed_quiet j _ _ _ _ _ _ hsh hp).trans (items_quiet js _ _ _ _ _ _ _ _ _ hsh h)

theorem visit_quiet {hid : Nat → Bool} {par : List VId} : ∀ (es : Entries) (loc : List VId) (oid : Id) (detect : Option (List Nat))
    (rest : List FieldShape) (found : Option Nat) (acc : List Fld) (st : Part) r st',
    (∀ f ∈ rest, f.vis = false ∧ AllHidden f.shape) →
    visit hid par loc oid detect es rest found acc st = (some r, st') → Quiet st st'
  | .nil, loc, oid, detect, rest, found, acc, st, r, st', hr, h => by
    simp only [visit, Prod.mk.injEq] at h
    rw [← h.2]
    exact .refl _
  | .bad, loc, oid, detect, rest, found, acc, st, r, st', hr, h => by simp [visit] at h
  | .cons k j es, loc, oid, detect, rest, found, acc, st, r, st', hr, h => by
    rw [visit.eq_def] at h
    simp only at h
    cases hf : rest.find? (fun f => f.expected = k) with
    | some f =>
      rw [hf] at h
      simp only at h
      have hm := hr f (List.mem_of_find?_eq_some hf)
      rw [hm.1] at h
      rcases hp : seed hid par false (.field oid f.key (!f.ty.required) :: loc) f.ty f.shape j st with ⟨_ | v, st1⟩
      · rw [hp] at h; simp at h
      · rw [hp] at h
        simp only at h
        exact (seed_quiet j _ _ _ _ _ _ hm.2 hp).trans
          (visit_quiet es _ _ _ _ _ _ _ _ _ (fun g hg => hr g (advance_subset g hg)) h)
    | none =>
      rw [hf] at h
      cases detect with
      | none =>
        simp only at h
        split at h
        · simp at h
        · exact visit_quiet es _ _ _ _ _ _ _ _ _ hr h
      | some ps =>
        simp only at h
        split at h
        · cases j with
          | leaf l =>
            simp only at h
            split at h
            · exact visit_quiet es _ _ _ _ _ _ _ _ _ hr h
            · simp at h
          | null => simp at h
          | bad => simp at h
          | list js => simp at h
          | map es' => simp at h
        · split at h
          · simp at h
          · exact visit_quiet es _ _ _ _ _ _ _ _ _ hr h

end

end Verif.NullProp
