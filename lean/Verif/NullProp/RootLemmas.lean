import Verif.NullProp.SeedOk

/-!
# Ingesting parts
-/
namespace Verif.NullProp

open Verif.DefaultMerge (Key Field)
open Verif.OpChecks (sortBy insertBy sortBy_perm)

/-! ## Making values inaccessible -/

theorem getObj_set {ps : List Data} {p : Nat} {d d' : Data} {id : Id} (hd : ps[p]? = some d) :
    getObj (ps.set p d') id = if id.part = p then d'.objs[id.ix]? else getObj ps id := by
  unfold getObj
  have hlt : p < ps.length := (List.getElem?_eq_some_iff.1 hd).1
  split
  · next h => rw [h, List.getElem?_set_self hlt]; rfl
  · next h => rw [List.getElem?_set_ne (fun h' => h h'.symm)]

theorem getList_set {ps : List Data} {p : Nat} {d d' : Data} {id : Id} (hd : ps[p]? = some d) :
    getList (ps.set p d') id = if id.part = p then d'.lists[id.ix]? else getList ps id := by
  unfold getList
  have hlt : p < ps.length := (List.getElem?_eq_some_iff.1 hd).1
  split
  · next h => rw [h, List.getElem?_set_self hlt]; rfl
  · next h => rw [List.getElem?_set_ne (fun h' => h h'.symm)]

theorem id_eq {a b : Id} (h1 : a.part = b.part) (h2 : a.ix = b.ix) : a = b := by
  cases a
  cases b
  simp_all

/-- Objects after one value is made inaccessible. -/
theorem makeInaccessible_obj {ps ps' : List Data} {v : VId} (h : makeInaccessible ps v = some ps') (hn : v.nullable = true)
    {id : Id} {F : List Fld} (hF : getObj ps id = some F) (hk : ∀ k, VId.field id k true = v → k ∈ F.map (·.key)) :
    ∃ c, getObj ps' id = some (F.map fun f => ⟨f.key, if .field id f.key true = v then .inacc c else f.value⟩) := by
  have same : (∀ k, VId.field id k true ≠ v) →
      F.map (fun f => (⟨f.key, if .field id f.key true = v then .inacc id else f.value⟩ : Fld)) = F := by
    intro hne
    rw [List.map_congr_left (g := fun x => x)]
    · simp
    · intro f _
      rw [if_neg (hne _)]
  unfold makeInaccessible at h
  cases hd : ps[v.part]? with
  | none => rw [hd] at h; simp at h
  | some d =>
    rw [hd] at h
    obtain ⟨d', hm, rfl⟩ := Option.map_eq_some_iff.1 h
    rw [getObj_set hd]
    have hFd : id.part = v.part → d.objs[id.ix]? = some F := by
      intro hp
      unfold getObj at hF
      rw [hp, hd] at hF
      exact hF
    cases v with
    | field o k n =>
      have hn : n = true := hn
      subst hn
      by_cases hid : id = o
      · subst hid
        have hFd := hFd rfl
        simp only [VId.part, if_true]
        simp only [makeInacc, hFd] at hm
        have hkF := hk k rfl
        cases hf : F.find? (fun f => f.key = k) with
        | none => exact absurd hkF (find_key.1 hf)
        | some x =>
          rw [hf] at hm
          simp only [Option.some.injEq] at hm
          subst hm
          refine ⟨⟨id.part, d.inacc.length⟩, ?_⟩
          simp only
          rw [List.getElem?_set_self (List.getElem?_eq_some_iff.1 hFd).1]
          congr 1
          apply List.map_congr_left
          intro f _
          by_cases hfk : f.key = k
          · rw [if_pos hfk, if_pos (by rw [hfk])]
            rfl
          · rw [if_neg hfk, if_neg]
            intro h
            simp only [VId.field.injEq] at h
            exact hfk h.2.1
      · have hne : ∀ k', VId.field id k' true ≠ .field o k true := by
          intro k' h
          simp only [VId.field.injEq] at h
          exact hid h.1
        refine ⟨id, ?_⟩
        rw [same hne]
        split
        · next hp =>
          have hFd := hFd hp
          have hix : o.ix ≠ id.ix := fun h => hid (id_eq hp h.symm)
          simp only [makeInacc] at hm
          split at hm
          · simp at hm
          · split at hm
            · simp only [Option.some.injEq] at hm
              subst hm
              simp only
              rw [List.getElem?_set_ne hix]
              exact hFd
            · simp only [Option.some.injEq] at hm
              subst hm
              simp only
              rw [List.getElem?_set_ne hix]
              exact hFd
        · exact hF
    | index l i n =>
      refine ⟨id, ?_⟩
      rw [same (by simp)]
      split
      · next hp =>
        have hFd := hFd hp
        simp only [makeInacc] at hm
        split at hm
        · simp at hm
        · split at hm
          · simp at hm
          · simp only [Option.some.injEq] at hm
            subst hm
            exact hFd
      · exact hF
    | packed p i => simp [VId.nullable] at hn

/-- Lists after one value is made inaccessible. -/
theorem makeInaccessible_list {ps ps' : List Data} {v : VId} (h : makeInaccessible ps v = some ps') (hn : v.nullable = true)
    {id : Id} {vs : List Val} (hF : getList ps id = some vs) :
    ∃ c, getList ps' id = some (vs.mapIdx fun n w => if .index id n true = v then .inacc c else w) := by
  have same : (∀ k, VId.index id k true ≠ v) →
      vs.mapIdx (fun n w => (if .index id n true = v then .inacc id else w : Val)) = vs := by
    intro hne
    apply List.ext_getElem?
    intro n
    rw [List.getElem?_mapIdx]
    cases vs[n]? with
    | none => rfl
    | some w =>
      simp only [Option.map_some]
      rw [if_neg (hne n)]
  unfold makeInaccessible at h
  cases hd : ps[v.part]? with
  | none => rw [hd] at h; simp at h
  | some d =>
    rw [hd] at h
    obtain ⟨d', hm, rfl⟩ := Option.map_eq_some_iff.1 h
    rw [getList_set hd]
    have hFd : id.part = v.part → d.lists[id.ix]? = some vs := by
      intro hp
      unfold getList at hF
      rw [hp, hd] at hF
      exact hF
    cases v with
    | index l i n =>
      have hn : n = true := hn
      subst hn
      by_cases hid : id = l
      · subst hid
        have hFd := hFd rfl
        simp only [VId.part, if_true]
        simp only [makeInacc, hFd] at hm
        cases hf : vs[i]? with
        | none => rw [hf] at hm; simp at hm
        | some x =>
          rw [hf] at hm
          simp only [Option.some.injEq] at hm
          subst hm
          refine ⟨⟨id.part, d.inacc.length⟩, ?_⟩
          simp only
          rw [List.getElem?_set_self (List.getElem?_eq_some_iff.1 hFd).1]
          congr 1
          apply List.ext_getElem?
          intro n
          rw [List.getElem?_mapIdx]
          by_cases hni : i = n
          · subst hni
            rw [List.getElem?_set_self (List.getElem?_eq_some_iff.1 hf).1, hf]
            simp only [Option.map_some, if_true]
            rfl
          · rw [List.getElem?_set_ne hni]
            cases vs[n]? with
            | none => rfl
            | some w =>
              simp only [Option.map_some]
              rw [if_neg]
              intro h
              simp only [VId.index.injEq] at h
              exact hni h.2.1.symm
      · have hne : ∀ k', VId.index id k' true ≠ .index l i true := by
          intro k' h
          simp only [VId.index.injEq] at h
          exact hid h.1
        refine ⟨id, ?_⟩
        rw [same hne]
        split
        · next hp =>
          have hFd := hFd hp
          have hix : l.ix ≠ id.ix := fun h => hid (id_eq hp h.symm)
          simp only [makeInacc] at hm
          split at hm
          · simp at hm
          · split at hm
            · simp at hm
            · simp only [Option.some.injEq] at hm
              subst hm
              simp only
              rw [List.getElem?_set_ne hix]
              exact hFd
        · exact hF
    | field o k n =>
      refine ⟨id, ?_⟩
      rw [same (by simp)]
      split
      · next hp =>
        have hFd := hFd hp
        simp only [makeInacc] at hm
        split at hm
        · simp at hm
        · split at hm
          · simp only [Option.some.injEq] at hm
            subst hm
            exact hFd
          · simp only [Option.some.injEq] at hm
            subst hm
            exact hFd
      · exact hF
    | packed p i => simp [VId.nullable] at hn

theorem makeAll_obj {M : List VId} : ∀ {ps h : List Data}, makeAll ps M = some h → (∀ v ∈ M, v.nullable = true) →
    ∀ {id : Id} {F : List Fld}, getObj ps id = some F → (∀ k, VId.field id k true ∈ M → k ∈ F.map (·.key)) →
    ∃ c : Key → Id, getObj h id = some (F.map fun f => ⟨f.key, if .field id f.key true ∈ M then .inacc (c f.key) else f.value⟩) := by
  induction M with
  | nil =>
    intro ps h hm _ id F hF _
    simp only [makeAll, Option.some.injEq] at hm
    subst hm
    refine ⟨fun _ => id, ?_⟩
    rw [hF]
    congr 1
    rw [List.map_congr_left (g := fun x => x)]
    · simp
    · intro f _
      simp
  | cons v M ih =>
    intro ps h hm hn id F hF hk
    rw [makeAll] at hm
    cases h1 : makeInaccessible ps v with
    | none => rw [h1] at hm; simp at hm
    | some ps1 =>
      rw [h1] at hm
      simp only at hm
      obtain ⟨i, hi⟩ := makeInaccessible_obj h1 (hn v List.mem_cons_self) hF
        (fun k hk' => hk k (hk' ▸ List.mem_cons_self))
      obtain ⟨c, hc⟩ := ih hm (fun w hw => hn w (List.mem_cons_of_mem _ hw)) hi (by
        intro k hk'
        rw [List.map_map]
        exact hk k (List.mem_cons_of_mem _ hk'))
      refine ⟨fun k => if VId.field id k true ∈ M then c k else i, ?_⟩
      rw [hc, List.map_map]
      congr 1
      apply List.map_congr_left
      intro f _
      simp only [Function.comp]
      by_cases hm' : VId.field id f.key true ∈ M
      · simp [hm']
      · by_cases hv : VId.field id f.key true = v
        · rw [if_neg hm', if_pos hv, if_pos (hv ▸ List.mem_cons_self), if_neg hm']
        · rw [if_neg hm', if_neg hv, if_neg (by simp [hm', hv])]

theorem makeAll_list {M : List VId} : ∀ {ps h : List Data}, makeAll ps M = some h → (∀ v ∈ M, v.nullable = true) →
    ∀ {id : Id} {vs : List Val}, getList ps id = some vs →
    ∃ c : Nat → Id, getList h id = some (vs.mapIdx fun n w => if .index id n true ∈ M then .inacc (c n) else w) := by
  induction M with
  | nil =>
    intro ps h hm _ id vs hF
    simp only [makeAll, Option.some.injEq] at hm
    subst hm
    refine ⟨fun _ => id, ?_⟩
    rw [hF]
    congr 1
    apply List.ext_getElem?
    intro n
    rw [List.getElem?_mapIdx]
    cases vs[n]? <;> simp
  | cons v M ih =>
    intro ps h hm hn id vs hF
    rw [makeAll] at hm
    cases h1 : makeInaccessible ps v with
    | none => rw [h1] at hm; simp at hm
    | some ps1 =>
      rw [h1] at hm
      simp only at hm
      obtain ⟨i, hi⟩ := makeInaccessible_list h1 (hn v List.mem_cons_self) hF
      obtain ⟨c, hc⟩ := ih hm (fun w hw => hn w (List.mem_cons_of_mem _ hw)) hi
      refine ⟨fun k => if VId.index id k true ∈ M then c k else i, ?_⟩
      rw [hc]
      congr 1
      apply List.ext_getElem?
      intro n
      rw [List.getElem?_mapIdx, List.getElem?_mapIdx, List.getElem?_mapIdx]
      cases vs[n]? with
      | none => rfl
      | some w =>
        simp only [Option.map_some, Option.some.injEq]
        by_cases hm' : VId.index id n true ∈ M
        · simp [hm']
        · by_cases hv : VId.index id n true = v
          · rw [if_neg hm', if_pos hv, if_pos (hv ▸ List.mem_cons_self), if_neg hm']
          · rw [if_neg hm', if_neg hv, if_neg (by simp [hm', hv])]

/-- The value can be made inaccessible. -/
def Target (ps : List Data) : VId → Prop
  | .field o _ _ => ∃ F, getObj ps o = some F
  | .index l i _ => ∃ vs, getList ps l = some vs ∧ i < vs.length
  | .packed _ _ => False

theorem Target.make {ps : List Data} {v : VId} (h : Target ps v) : ∃ ps', makeInaccessible ps v = some ps' := by
  unfold makeInaccessible
  cases v with
  | field o k n =>
    obtain ⟨F, hF⟩ := h
    unfold getObj at hF
    show ∃ ps', (match ps[o.part]? with
      | none => none
      | some d => (makeInacc o.part d (.field o k n)).map fun d => ps.set o.part d) = some ps'
    cases hd : ps[o.part]? with
    | none => rw [hd] at hF; simp at hF
    | some d =>
      rw [hd] at hF
      have hF : d.objs[o.ix]? = some F := hF
      simp only [makeInacc, hF]
      split <;> exact ⟨_, rfl⟩
  | index l i n =>
    obtain ⟨vs, hF, hi⟩ := h
    unfold getList at hF
    show ∃ ps', (match ps[l.part]? with
      | none => none
      | some d => (makeInacc l.part d (.index l i n)).map fun d => ps.set l.part d) = some ps'
    cases hd : ps[l.part]? with
    | none => rw [hd] at hF; simp at hF
    | some d =>
      rw [hd] at hF
      have hF : d.lists[l.ix]? = some vs := hF
      simp only [makeInacc, hF, List.getElem?_eq_getElem hi]
      exact ⟨_, rfl⟩
  | packed _ _ => exact h.elim

theorem Target.after {ps ps' : List Data} {v w : VId} (h : makeInaccessible ps v = some ps') (hn : v.nullable = true)
    (hw : Target ps w) : Target ps' w := by
  cases w with
  | field o k n =>
    obtain ⟨F, hF⟩ := hw
    by_cases hk : ∀ k, VId.field o k true = v → k ∈ F.map (·.key)
    · obtain ⟨c, hc⟩ := makeInaccessible_obj h hn hF hk
      exact ⟨_, hc⟩
    · -- a null field is inserted
      have ⟨k', hk'⟩ := Classical.not_forall.1 hk
      have hv : VId.field o k' true = v := Classical.byContradiction fun hc => hk' fun h => absurd h hc
      have hkk : k' ∉ F.map (·.key) := fun hc => hk' fun _ => hc
      subst hv
      unfold makeInaccessible at h
      cases hd : ps[o.part]? with
      | none => unfold getObj at hF; rw [hd] at hF; simp at hF
      | some d =>
        have hFd : d.objs[o.ix]? = some F := by
          unfold getObj at hF
          rw [hd] at hF
          exact hF
        simp only [VId.part, hd, makeInacc, hFd, find_key.2 hkk, Option.map_some, Option.some.injEq] at h
        subst h
        show ∃ F, getObj _ o = some F
        rw [getObj_set hd, if_pos rfl]
        simp only
        rw [List.getElem?_set_self (List.getElem?_eq_some_iff.1 hFd).1]
        exact ⟨_, rfl⟩
  | index l i n =>
    obtain ⟨vs, hF, hi⟩ := hw
    obtain ⟨c, hc⟩ := makeInaccessible_list h hn hF
    exact ⟨_, hc, by simpa using hi⟩
  | packed _ _ => exact hw.elim

theorem makeAll_total {M : List VId} : ∀ {ps : List Data}, (∀ v ∈ M, v.nullable = true) → (∀ v ∈ M, Target ps v) →
    ∃ h, makeAll ps M = some h := by
  induction M with
  | nil => intro ps _ _; exact ⟨ps, rfl⟩
  | cons v M ih =>
    intro ps hn ht
    obtain ⟨ps1, h1⟩ := (ht v List.mem_cons_self).make
    obtain ⟨h, hh⟩ := ih (ps := ps1) (fun w hw => hn w (List.mem_cons_of_mem _ hw))
      (fun w hw => (ht w (List.mem_cons_of_mem _ hw)).after h1 (hn v List.mem_cons_self))
    refine ⟨h, ?_⟩
    rw [makeAll, h1]
    exact hh

end Verif.NullProp
