import Verif.NullProp.ObjLemmas

/-!
# Completed values conform
-/
namespace Verif.NullProp

open Verif.DefaultMerge (Key Field)
open Verif.OpChecks (sortBy sortBy_perm)

theorem mapM_mem {α β : Type} {f : α → Option β} {l : List α} {r : List β} (h : l.mapM f = some r) :
    (∀ a ∈ l, ∃ b ∈ r, f a = some b) ∧ ∀ b ∈ r, ∃ a ∈ l, f a = some b := by
  obtain ⟨hl, hi⟩ := mapM_eq_some_iff.1 h
  constructor
  · intro a ha
    obtain ⟨i, hia⟩ := List.getElem?_of_mem ha
    have hlt : i < r.length := hl ▸ (List.getElem?_eq_some_iff.1 hia).1
    exact ⟨r[i], List.getElem_mem _, hi i a _ hia (List.getElem?_eq_getElem hlt)⟩
  · intro b hb
    obtain ⟨i, hib⟩ := List.getElem?_of_mem hb
    have hlt : i < l.length := hl ▸ (List.getElem?_eq_some_iff.1 hib).1
    exact ⟨l[i], List.getElem_mem _, hi i _ b (List.getElem?_eq_getElem hlt) hib⟩

theorem flatMap_inj {α β : Type} {g : α → List β} : ∀ {l : List α}, (l.flatMap g).Nodup → ∀ {p q : α}, p ∈ l → q ∈ l →
    ∀ {k : β}, k ∈ g p → k ∈ g q → p = q
  | [], _, _, _, hp, _, _, _, _ => by simp at hp
  | x :: l, hn, p, q, hp, hq, k, hk, hk' => by
    rw [List.flatMap_cons, List.nodup_append] at hn
    rcases List.mem_cons.1 hp with hpx | hp
    · rcases List.mem_cons.1 hq with hqx | hq
      · exact hpx.trans hqx.symm
      · exact absurd rfl (hn.2.2 k (hpx ▸ hk) k (List.mem_flatMap.2 ⟨q, hq, hk'⟩))
    · rcases List.mem_cons.1 hq with hqx | hq
      · exact absurd rfl (hn.2.2 k (hqx ▸ hk') k (List.mem_flatMap.2 ⟨p, hp, hk⟩))
      · exact flatMap_inj hn.2.1 hp hq hk hk'

theorem orNull_conforms {ty : Ty} {sh : Shape} {req : Bool} {o : Out} (h : orNull req = some o) (hr : ty.required = req) :
    Conforms ty sh o := by
  cases req with
  | true => simp [orNull] at h
  | false =>
    simp only [orNull, Bool.false_eq_true, if_false, Option.some.injEq] at h
    subst h
    exact .null hr

theorem mem_inOrder {os : List (Key × Out)} {x : Nat × Out} : x ∈ inOrder os ↔ ∃ y ∈ os, (y.1.key, y.2) = x := by
  unfold inOrder
  rw [List.mem_map]
  constructor
  · rintro ⟨y, hy, rfl⟩
    exact ⟨y, (sortBy_perm keyLe os).mem_iff.1 hy, rfl⟩
  · rintro ⟨y, hy, rfl⟩
    exact ⟨y, (sortBy_perm keyLe os).mem_iff.2 hy, rfl⟩

/-- The fields of a completed object. -/
theorem fields_conform {hid : Nat → Bool} {tns : List Key} {fs : List FieldShape} {es : Entries} {os : List (Key × Out)}
    {t : Option Nat} (hn : (fs.map (·.key.key) ++ tns.map (·.key)).Nodup)
    (hm : ((fs.filter FieldShape.vis).mapM fun f => (completeField hid f es).map fun o => (f.key, o)) = some os)
    (hc : ∀ f ∈ fs, ∀ o, completeField hid f es = some o → Conforms f.ty f.shape o) :
    (∀ f ∈ fs, f.vis = true → f.key.key ∈ (inOrder (os ++ typenameFields tns t)).map (·.1)) ∧
    (∀ f ∈ fs, f.vis = true → ∀ o, (f.key.key, o) ∈ inOrder (os ++ typenameFields tns t) → Conforms f.ty f.shape o) := by
  have hmem := mapM_mem hm
  constructor
  · intro f hf hv
    obtain ⟨y, hy, hfy⟩ := hmem.1 f (List.mem_filter.2 ⟨hf, hv⟩)
    obtain ⟨o, _, rfl⟩ := Option.map_eq_some_iff.1 hfy
    exact List.mem_map.2 ⟨(f.key.key, o), mem_inOrder.2 ⟨(f.key, o), List.mem_append_left _ hy, rfl⟩, rfl⟩
  · intro f hf hv o ho
    obtain ⟨y, hy, hyx⟩ := mem_inOrder.1 ho
    simp only [Prod.mk.injEq] at hyx
    rcases List.mem_append.1 hy with hy | hy
    · obtain ⟨g, hg, hgy⟩ := hmem.2 y hy
      obtain ⟨o', hc', rfl⟩ := Option.map_eq_some_iff.1 hgy
      have hg := (List.mem_filter.1 hg).1
      have : g = f := inj_of_nodup_map (List.nodup_append.1 hn).1 g hg f hf hyx.1
      subst this
      exact hc _ hf _ (hyx.2 ▸ hc')
    · exfalso
      unfold typenameFields at hy
      obtain ⟨k, hk, rfl⟩ := List.mem_map.1 hy
      exact (List.nodup_append.1 hn).2.2 f.key.key (List.mem_map.2 ⟨f, hf, rfl⟩) k.key
        (List.mem_map.2 ⟨k, (List.mem_filter.1 hk).1, rfl⟩) hyx.1.symm

mutual

theorem complete_conforms {hid : Nat → Bool} : ∀ (j : Json) (ty : Ty) (sh : Shape) (o : Out), WF sh →
    complete hid ty sh j = some o → Conforms ty sh o
  | .null, ty, sh, o, _, h => by
    rw [complete] at h
    exact orNull_conforms h rfl
  | .bad, ty, sh, o, _, h => by
    rw [complete] at h
    exact orNull_conforms h rfl
  | .leaf l, ty, sh, o, _, h => by
    rw [complete.eq_def] at h
    simp only at h
    cases ty with
    | list r i => exact orNull_conforms h rfl
    | base r =>
      cases sh with
      | scalar p ok =>
        simp only at h
        split at h
        · next hok =>
          simp only [Option.some.injEq] at h
          exact h ▸ .scalar hok
        · exact orNull_conforms h rfl
      | enum vals =>
        simp only at h
        split at h
        · next hok =>
          simp only [Option.some.injEq] at h
          exact h ▸ .enum hok.2
        · exact orNull_conforms h rfl
      | obj ident set tns fs => exact orNull_conforms h rfl
  | .list js, ty, sh, o, hw, h => by
    rw [complete.eq_def] at h
    simp only at h
    cases ty with
    | base r => exact orNull_conforms h rfl
    | list r i =>
      simp only at h
      split at h
      · next os hos =>
        simp only [Option.some.injEq] at h
        exact h ▸ .list (completeAll_conforms js i sh os hw hos)
      · exact orNull_conforms h rfl
  | .map es, ty, sh, o, hw, h => by
    rw [complete.eq_def] at h
    simp only at h
    cases ty with
    | list r i => exact orNull_conforms h rfl
    | base r =>
      cases sh with
      | scalar p ok => exact orNull_conforms h rfl
      | enum vals => exact orNull_conforms h rfl
      | obj ident set tns fs =>
        simp only at h
        split at h
        · exact orNull_conforms h rfl
        · split at h
          · exact orNull_conforms h rfl
          · split at h
            · exact orNull_conforms h rfl
            · next os hos =>
              simp only [Option.some.injEq] at h
              subst h
              cases hw with
              | obj hwf _ hws =>
                exact .obj
                  (fields_conform hwf.names hos fun f hf o ho => completeField_conforms es f o (hws f hf) ho).1
                  (fields_conform hwf.names hos fun f hf o ho => completeField_conforms es f o (hws f hf) ho).2

theorem completeAll_conforms {hid : Nat → Bool} : ∀ (js : Jsons) (ty : Ty) (sh : Shape) (os : List Out), WF sh →
    completeAll hid ty sh js = some os → ∀ o ∈ os, Conforms ty sh o
  | .nil, ty, sh, os, _, h => by
    rw [completeAll] at h
    simp only [Option.some.injEq] at h
    subst h
    simp
  | .bad, ty, sh, os, _, h => by
    rw [completeAll] at h
    simp at h
  | .cons j js, ty, sh, os, hw, h => by
    rw [completeAll] at h
    cases h1 : complete hid ty sh j with
    | none => rw [h1] at h; simp at h
    | some o1 =>
      cases h2 : completeAll hid ty sh js with
      | none => rw [h1, h2] at h; simp at h
      | some os2 =>
        rw [h1, h2] at h
        simp only [Option.some.injEq] at h
        subst h
        intro o ho
        rcases List.mem_cons.1 ho with rfl | ho
        · exact complete_conforms j ty sh _ hw h1
        · exact completeAll_conforms js ty sh os2 hw h2 o ho

theorem completeField_conforms {hid : Nat → Bool} : ∀ (es : Entries) (f : FieldShape) (o : Out), WF f.shape →
    completeField hid f es = some o → Conforms f.ty f.shape o
  | .nil, f, o, _, h => by
    rw [completeField] at h
    exact orNull_conforms h rfl
  | .bad, f, o, _, h => by
    rw [completeField] at h
    exact orNull_conforms h rfl
  | .cons k j es, f, o, hw, h => by
    rw [completeField] at h
    split at h
    · exact orNull_conforms h rfl
    · split at h
      · exact complete_conforms j _ _ _ hw h
      · exact completeField_conforms es f o hw h

end

/-- The shape of the whole response. -/
theorem completeData_conforms {hid : Nat → Bool} {ty : Nat} {plans : List (RootShape × Entries)} (h : RootsOk plans)
    {ident : Ident} {set : Option Nat} {tns : List Key} {req : Bool} (hnull : completeData hid ty plans ≠ .null) :
    Conforms (.base req) (.obj ident set tns (plans.flatMap fun p => p.1.fields)) (completeData hid ty plans) := by
  unfold completeData at hnull ⊢
  cases hm : plans.mapM (rootFields hid ty) with
  | none => rw [hm] at hnull; simp at hnull
  | some oss =>
    simp only
    have hmem := mapM_mem hm
    have hplan : ∀ p ∈ plans, ∀ os, rootFields hid ty p = some os →
        (∀ f ∈ p.1.fields, f.vis = true → f.key.key ∈ (inOrder os).map (·.1)) ∧
        (∀ f ∈ p.1.fields, f.vis = true → ∀ o, (f.key.key, o) ∈ inOrder os → Conforms f.ty f.shape o) := by
      intro p hp os hos
      unfold rootFields at hos
      obtain ⟨os1, h1, rfl⟩ := Option.map_eq_some_iff.1 hos
      exact fields_conform (h.fields p hp).names h1
        (fun f hf o ho => completeField_conforms p.2 f o (h.shapes p hp f hf) ho)
    refine .obj ?_ ?_
    · intro f hf hv
      obtain ⟨p, hp, hf⟩ := List.mem_flatMap.1 hf
      obtain ⟨os, hos, hpo⟩ := hmem.1 p hp
      obtain ⟨x, hx, hxk⟩ := List.mem_map.1 ((hplan p hp os hpo).1 f hf hv)
      obtain ⟨y, hy, hyx⟩ := mem_inOrder.1 hx
      exact List.mem_map.2 ⟨x, mem_inOrder.2 ⟨y, List.mem_flatten.2 ⟨os, hos, hy⟩, hyx⟩, hxk⟩
    · intro f hf hv o ho
      obtain ⟨p, hp, hf⟩ := List.mem_flatMap.1 hf
      obtain ⟨y, hy, hyx⟩ := mem_inOrder.1 ho
      obtain ⟨os, hos, hy⟩ := List.mem_flatten.1 hy
      obtain ⟨q, hq, hqo⟩ := hmem.2 os hos
      have hyk : y.1.key ∈ q.1.fields.map (·.key.key) ++ q.1.tns.map (·.key) := by
        unfold rootFields at hqo
        obtain ⟨os1, h1, rfl⟩ := Option.map_eq_some_iff.1 hqo
        rcases List.mem_append.1 hy with hy | hy
        · obtain ⟨g, hg, hgy⟩ := (mapM_mem h1).2 y hy
          obtain ⟨o', _, rfl⟩ := Option.map_eq_some_iff.1 hgy
          exact List.mem_append_left _ (List.mem_map.2 ⟨g, (List.mem_filter.1 hg).1, rfl⟩)
        · unfold typenameFields at hy
          obtain ⟨k, hk, rfl⟩ := List.mem_map.1 hy
          exact List.mem_append_right _ (List.mem_map.2 ⟨k, (List.mem_filter.1 hk).1, rfl⟩)
      have hfk : f.key.key ∈ p.1.fields.map (·.key.key) ++ p.1.tns.map (·.key) :=
        List.mem_append_left _ (List.mem_map.2 ⟨f, hf, rfl⟩)
      simp only [Prod.mk.injEq] at hyx
      rw [hyx.1] at hyk
      have hpq : p = q := flatMap_inj h.names hp hq hfk hyk
      subst hpq
      exact (hplan p hp os hqo).2 f hf hv o (mem_inOrder.2 ⟨y, hy, by simp [hyx]⟩)

end Verif.NullProp
