import Verif.NullProp.ObjLemmas

/-!
# Reading a value gives what it should be
-/
namespace Verif.NullProp

open Verif.DefaultMerge (Key Field)
open Verif.OpChecks (sortBy insertBy sortBy_perm)

theorem mapM_pair {g : FieldShape → Option Out} {l : List FieldShape} {os : List (Key × Out)}
    (h : l.mapM (fun f => (g f).map fun o => (f.key, o)) = some os) :
    os.map (·.1) = l.map (·.key) ∧ ∀ p ∈ os, ∃ f ∈ l, f.key = p.1 ∧ g f = some p.2 := by
  induction l generalizing os with
  | nil =>
    have : os = [] := by simpa using h.symm
    subst this
    simp
  | cons f l ih =>
    rw [List.mapM_cons] at h
    cases hg : g f with
    | none => simp [hg] at h
    | some o =>
      cases hm : l.mapM (fun f => (g f).map fun o => (f.key, o)) with
      | none => simp [hg, hm] at h
      | some ps =>
        have : os = (f.key, o) :: ps := by simpa [hg, hm] using h.symm
        subst this
        obtain ⟨h1, h2⟩ := ih hm
        refine ⟨by simp [h1], ?_⟩
        intro p hp
        rcases List.mem_cons.1 hp with rfl | hp
        · exact ⟨f, List.mem_cons_self, rfl, hg⟩
        · obtain ⟨x, hx, hx'⟩ := h2 p hp
          exact ⟨x, List.mem_cons_of_mem _ hx, hx'⟩

/-- The stored `__typename` fields. -/
def tnFields (tns : List Key) (t : Nat) : List Fld := tns.map fun k => ⟨k, .leaf ⟨true, t⟩⟩

/-- The keys of an object whose fields were read without a null escaping. -/
theorem fields_keys {hid : Nat → Bool} {oid : Id} {es : Entries} {fs : List FieldShape} {tns : List Key} {e : Option VId}
    {st st' : Part} {own : List VId} {F G : List Fld} {t : Nat} {ty : Option Nat} {os : List (Key × Out)}
    (hw : WFFields tns fs) (hf : FieldsOk hid oid es fs e st st' own false F)
    (hos : (fs.filter FieldShape.vis).mapM (fun f => (completeField hid f es).map fun o => (f.key, o)) = some os)
    (hG : G = F ++ tnFields tns t) :
    (G.map (·.key)).Nodup ∧ ((os ++ typenameFields tns ty).map (·.1)).Nodup ∧
      (∀ k, k ∈ (os ++ typenameFields tns ty).map (·.1) ↔ k ∈ G.map (·.key) ∧ visible k = true) ∧
      (∀ k ∈ F.map (·.key), k ∉ tns) ∧ (∀ k ∈ G.map (·.key), k ∈ fs.map (·.key) ++ tns) := by
  obtain ⟨hk, hvals⟩ := mapM_pair hos
  have hGk : G.map (·.key) = F.map (·.key) ++ tns := by
    rw [hG, List.map_append]
    unfold tnFields
    rw [List.map_map]
    congr 1
    exact List.map_id' tns
  have hnd := hw.keys_nodup
  have hFs : ∀ k ∈ F.map (·.key), k ∈ fs.map (·.key) := by
    intro k hk'
    obtain ⟨x, hx, rfl⟩ := List.mem_map.1 hk'
    obtain ⟨f, hf', hfk⟩ := hf.sub x hx
    exact List.mem_map.2 ⟨f, hf', hfk⟩
  have hdisj : ∀ k ∈ F.map (·.key), k ∉ tns := by
    intro k hk' ht
    exact (List.nodup_append.1 hnd).2.2 k (hFs k hk') k ht rfl
  have hosk : (os ++ typenameFields tns ty).map (·.1) = (fs.filter FieldShape.vis).map (·.key) ++ tns.filter visible := by
    rw [List.map_append, hk]
    unfold typenameFields
    rw [List.map_map]
    congr 1
    exact List.map_id' _
  refine ⟨?_, ?_, ?_, hdisj, ?_⟩
  · rw [hGk]
    refine List.nodup_append.2 ⟨hf.nodup, (List.nodup_append.1 hnd).2.1, ?_⟩
    intro a ha b hb hab
    exact hdisj a ha (hab ▸ hb)
  · rw [hosk]
    exact hnd.sublist ((List.filter_sublist.map _).append List.filter_sublist)
  · intro k
    rw [hosk, hGk, List.mem_append, List.mem_append, List.mem_filter]
    constructor
    · rintro (h | ⟨h1, h2⟩)
      · obtain ⟨f, hf', rfl⟩ := List.mem_map.1 h
        have hf' := List.mem_filter.1 hf'
        rcases hf.vals f hf'.1 hf'.2 with ⟨_, hb⟩ | ⟨o, v, _, hv, _⟩
        · simp at hb
        · exact ⟨.inl (List.mem_map.2 ⟨_, hv, rfl⟩), hf'.2⟩
      · exact ⟨.inr h1, h2⟩
    · rintro ⟨h | h, hv⟩
      · left
        obtain ⟨x, hx, rfl⟩ := List.mem_map.1 h
        obtain ⟨f, hf', hfk⟩ := hf.sub x hx
        refine List.mem_map.2 ⟨f, List.mem_filter.2 ⟨hf', ?_⟩, hfk⟩
        unfold FieldShape.vis
        rw [hfk]
        exact hv
      · exact .inr ⟨h, hv⟩
  · intro k hk'
    rw [hGk] at hk'
    rcases List.mem_append.1 hk' with h | h
    · exact List.mem_append_left _ (hFs k h)
    · exact List.mem_append_right _ h

/-- The values of an object whose fields were read without a null escaping. -/
theorem field_shows {hid : Nat → Bool} {oid : Id} {es : Entries} {fs : List FieldShape} {tns : List Key} {par loc : List VId}
    {st st' : Part} {own M : List VId} {F G : List Fld} {h : List Data} {ty : Option Nat} {os : List (Key × Out)} {c : Key → Id}
    (hw : WFFields tns fs) (hp : Paths st par loc oid)
    (hf : FieldsOk hid oid es fs (esc par loc) st st' own false F)
    (hos : (fs.filter FieldShape.vis).mapM (fun f => (completeField hid f es).map fun o => (f.key, o)) = some os)
    (hr : Realises h M st st') (hM : ∀ id, Inner st st' id → (id ∈ M ↔ id ∈ own))
    (hL : ∀ k, VId.field oid k true ∈ M ↔ VId.field oid k true ∈ own)
    (hG : G = F ++ tnFields tns (ty.getD 0)) {y : Fld} (hyG : y ∈ G) {o : Out}
    (ho : (y.key, o) ∈ os ++ typenameFields tns ty) :
    Shows h (if .field oid y.key true ∈ M then .inacc (c y.key) else y.value) o := by
  obtain ⟨hk, hvals⟩ := mapM_pair hos
  have hnd := hw.keys_nodup
  have hdisj := (fields_keys (ty := ty) hw hf hos hG).2.2.2.1
  rw [hG] at hyG
  rcases List.mem_append.1 hyG with hyF | hyT
  · have hyk : y.key ∈ F.map (·.key) := List.mem_map.2 ⟨y, hyF, rfl⟩
    rcases List.mem_append.1 ho with ho | ho
    · obtain ⟨f, hf', hfk, hc⟩ := hvals _ ho
      simp only at hfk hc
      have hf' := List.mem_filter.1 hf'
      rcases hf.vals f hf'.1 hf'.2 with ⟨_, hb⟩ | ⟨o', v, hc', hv, hlk⟩
      · simp at hb
      · rw [hc] at hc'
        have : o = o' := Option.some.inj hc'
        subst this
        have hyv : y = ⟨f.key, v⟩ := inj_of_nodup_map hf.nodup y hyF _ hv hfk.symm
        rw [hyv]
        simp only
        split
        · next hm =>
          have := hlk.1 ((hL _).1 hm)
          rw [this]
          exact shows_inacc
        · next hm => exact hlk.2 (fun h' => hm ((hL _).2 h')) h M hr hM
    · exfalso
      obtain ⟨k, hk', hkk⟩ := List.mem_map.1 ho
      have : y.key = k := (congrArg (·.1) hkk).symm
      exact hdisj y.key hyk (this ▸ (List.mem_filter.1 hk').1)
  · obtain ⟨k, hk', rfl⟩ := List.mem_map.1 hyT
    simp only at ho ⊢
    have hno : VId.field oid k true ∉ M := by
      intro hm
      rcases hf.marks.inner _ ((hL k).1 hm) with h1 | ⟨k', hk1, hk2⟩ | h1
      · exact h1.1.not_old (hp.link k)
      · have : k = k' := by
          have := hk2
          simp only [VId.field.injEq] at this
          exact this.2.1
        exact hdisj k (this ▸ hk1) hk'
      · exact hp.esc_ne k h1.2
    rw [if_neg hno]
    rcases List.mem_append.1 ho with ho | ho
    · exfalso
      obtain ⟨f, hf', hfk, _⟩ := hvals _ ho
      exact (List.nodup_append.1 hnd).2.2 f.key (List.mem_map.2 ⟨f, (List.mem_filter.1 hf').1, rfl⟩) k hk' hfk
    · obtain ⟨k', _, hkk⟩ := List.mem_map.1 ho
      have : o = .leaf ⟨true, ty.getD 0⟩ := (congrArg (·.2) hkk).symm
      rw [this]
      exact shows_leaf

/-- An object whose fields were read without a null escaping is shown as it should be. -/
theorem show_fields {hid : Nat → Bool} {oid : Id} {es : Entries} {fs : List FieldShape} {tns : List Key} {par loc : List VId}
    {st st' : Part} {own M : List VId} {F G : List Fld} {h : List Data} {ty : Option Nat} {os : List (Key × Out)} {c : Key → Id}
    (hw : WFFields tns fs) (hp : Paths st par loc oid)
    (hf : FieldsOk hid oid es fs (esc par loc) st st' own false F)
    (hos : (fs.filter FieldShape.vis).mapM (fun f => (completeField hid f es).map fun o => (f.key, o)) = some os)
    (hr : Realises h M st st') (hM : ∀ id, Inner st st' id → (id ∈ M ↔ id ∈ own))
    (hL : ∀ k, VId.field oid k true ∈ M ↔ VId.field oid k true ∈ own)
    (hG : G = F ++ tnFields tns (ty.getD 0))
    (hg : getObj h oid = some ((sortBy fldLe G).map fun f =>
      ⟨f.key, if .field oid f.key true ∈ M then .inacc (c f.key) else f.value⟩)) :
    Shows h (.obj oid) (.obj (inOrder (os ++ typenameFields tns ty))) := by
  obtain ⟨h1, h2, h3, _, _⟩ := fields_keys (ty := ty) hw hf hos hG
  refine shows_fields (F := G) hg ?_ h1 h2 h3 ?_
  · rw [List.map_map]
    rfl
  · intro x hx hvis o ho
    obtain ⟨y, hy, rfl⟩ := List.mem_map.1 hx
    exact field_shows hw hp hf hos hr hM hL hG ((sortBy_perm fldLe G).mem_iff.1 hy) ho

/-! ## Objects -/

/-- Marks in the object being read are inside once the object is reserved within. -/
theorem Marks.inside {e : Option VId} {st st' : Part} {b : Bool} {own : List VId} {P : Key → Prop}
    (h : Marks (fun x => ∃ k, P k ∧ x = .field st.nextObj k true) e st.reserveObj st' b own) :
    Marks NoLink e st st' b own := by
  refine ⟨(reserveObj_quiet st).ext.trans h.ext, h.nullAt, h.root, ?_, h.out⟩
  intro id hid
  rcases h.inner id hid with h1 | ⟨k, _, rfl⟩ | h1
  · exact .inl ⟨h1.1.right (reserveObj_quiet st).ext, h1.2⟩
  · left
    refine ⟨⟨rfl, rfl, Nat.le_refl _, ?_⟩, trivial⟩
    have := h.ext.olen
    simp only [Part.reserveObj, List.length_append, List.length_singleton, Part.nextObj] at this ⊢
    omega
  · exact .inr (.inr h1)

theorem Marks.putObj {e : Option VId} {st st' : Part} {b : Bool} {own : List VId} (F : List Fld)
    (hx : Ext st.reserveObj st') (h : Marks NoLink e st st' b own) : Marks NoLink e st (st'.putObj st.nextObj F) b own := by
  refine ⟨putObj_ext hx F, h.nullAt, h.root, ?_, h.out⟩
  intro id hid
  rcases h.inner id hid with h1 | h1 | h1
  · left
    refine ⟨?_, ?_⟩
    · have := h1.1
      cases id with
      | field o k n =>
        refine ⟨this.1, this.2.1, this.2.2.1, ?_⟩
        show o.ix < (st'.data.objs.set _ _).length
        rw [List.length_set]
        exact this.2.2.2
      | index l i n => exact this
      | packed _ _ => exact this
    · cases id with
      | field o k n => trivial
      | index l i n => exact h1.2
      | packed _ _ => trivial
  · exact h1.elim
  · exact .inr (.inr h1)

theorem finishMap_eq {par loc : List VId} {ident : Ident} {tns : List Key} {fs : List FieldShape}
    {det : Option Nat} {F F1 F2 : List Fld} {st1 st2 st3 : Part} {done : Bool}
    (hbad : ¬ ((∃ ps, ident = .detect ps) ∧ det = none)) (hse : shapeErrors par loc fs false F st1 = (done, F1, st2))
    (hmf : missingFields par loc fs done F1 st2 = (F2, st3)) :
    finishMap par loc ident tns fs det F st1 =
      match tns with
      | [] => (.some (objTy ident det) F2, st3)
      | tns =>
        match objTy ident det with
        | none => (.error, st3)
        | some t => (.some (some t) (F2 ++ tns.map fun k => ⟨k, .leaf ⟨true, t⟩⟩), st3) := by
  unfold finishMap
  split
  · exact absurd ⟨⟨_, rfl⟩, rfl⟩ hbad
  · rw [hse]
    simp only [hmf]
    cases tns <;> rfl

theorem obj_ok {hid : Nat → Bool} {req : Bool} {par loc : List VId} {ident : Ident} {set : Option Nat} {tns : List Key}
    {fs : List FieldShape} {es : Entries} {st st1 st' : Part} {own : List VId} {b : Bool} {new : List Fld}
    {det : Option Nat} {v : Val} (hw : WFFields tns fs) (hp : Paths st.reserveObj par loc st.nextObj)
    (hv : VisitOk hid st.nextObj es fs (esc par loc) st.reserveObj st1 own b new)
    (hdet : objTy ident det = (typeOf ident es).getD none ∧
      ((∃ ps, ident = .detect ps) → (det = none ↔ typeOf ident es = none)))
    (h : ingestObj hid true req par loc set st.nextObj (finishMap par loc ident tns fs det new st1) = (some v, st')) :
    ValOk (esc par loc) st st' req (complete hid (.base req) (.obj ident set tns fs) (.map es)) v := by
  simp only [complete]
  have hdt : ∀ ps, ident = .detect ps → det = none → typeOf ident es = none := fun ps h1 h2 => (hdet.2 ⟨ps, h1⟩).1 h2
  by_cases hbad : (∃ ps, ident = .detect ps) ∧ det = none
  · obtain ⟨⟨ps, rfl⟩, rfl⟩ := hbad
    rw [hdt ps rfl rfl]
    simp only [finishMap, ingestObj] at h
    exact onUnexpected_after hv.marks.inside h
  · rcases hse : shapeErrors par loc fs false new st1 with ⟨done, F1, st2⟩
    rcases hmf : missingFields par loc fs done F1 st2 with ⟨F2, st3⟩
    rw [finishMap_eq hbad hse hmf] at h
    obtain ⟨own', b', hF⟩ := fields_ok hw hp hv hse hmf
    have hty : typeOf ident es = some (objTy ident det) := by
      cases ident with
      | known t => rfl
      | anonymous => rfl
      | detect ps =>
        cases ht : typeOf (.detect ps) es with
        | none => exact absurd ⟨⟨ps, rfl⟩, (hdet.2 ⟨ps, rfl⟩).2 ht⟩ hbad
        | some t => rw [hdet.1, ht]; rfl
    rw [hty]
    simp only
    -- the object is stored
    have stored : ∀ (ty : Option Nat) (G : List Fld), objTy ident det = ty → G = F2 ++ tnFields tns (ty.getD 0) →
        (ty = none → tns = []) →
        ingestObj hid true req par loc set st.nextObj (.some ty G, st3) = (some v, st') →
        ValOk (esc par loc) st st' req
          (if (objTy ident det).any hid = true ∨ objTy ident det = none ∧ tns ≠ [] then orNull req
          else
            match (fs.filter FieldShape.vis).mapM fun f => (completeField hid f es).map fun o => (f.key, o) with
            | none => orNull req
            | some os => some (.obj (inOrder (os ++ typenameFields tns (objTy ident det))))) v := by
      intro ty G hty hG hnone h
      rw [hty]
      have hm0 := hF.marks.inside.putObj G hF.marks.ext
      -- what is shown
      have hshow : b' = false → ∃ o, (match (fs.filter FieldShape.vis).mapM fun f => (completeField hid f es).map fun o => (f.key, o) with
            | none => orNull req
            | some os => some (.obj (inOrder (os ++ typenameFields tns ty)))) = some o ∧
            Showing st (st3.putObj st.nextObj G) own' (.obj st.nextObj) o := by
        intro hb
        subst hb
        cases hmap : (fs.filter FieldShape.vis).mapM fun f => (completeField hid f es).map fun o => (f.key, o) with
        | none =>
          exfalso
          obtain ⟨f, hf, hfn⟩ := mapM_none.1 hmap
          have hf := List.mem_filter.1 hf
          rcases hF.vals f hf.1 hf.2 with ⟨_, hb⟩ | ⟨o, v, hc, _⟩
          · simp at hb
          · rw [hc] at hfn
            simp at hfn
        | some os =>
          refine ⟨_, rfl, ?_⟩
          intro hp' M hr hM
          have hlen : st.data.objs.length < st3.data.objs.length := by
            have := hF.marks.ext.olen
            simp only [Part.reserveObj, List.length_append, List.length_singleton] at this
            omega
          have hin : ∀ k, Inner st (st3.putObj st.nextObj G) (.field st.nextObj k true) := by
            intro k
            refine ⟨rfl, rfl, Nat.le_refl _, ?_⟩
            show st.data.objs.length < (st3.data.objs.set _ _).length
            rw [List.length_set]
            exact hlen
          have hsub : Sub st.reserveObj st3 st (st3.putObj st.nextObj G) := by
            refine ⟨rfl, rfl, ?_, ?_, ?_, ?_, ?_, ?_⟩
            · simp [Part.reserveObj]
            · simp [Part.reserveObj]
            · simp [Part.putObj]
            · simp [Part.putObj]
            · intro i hi _
              show (st3.data.objs.set st.data.objs.length _)[i]? = _
              rw [List.getElem?_set_ne]
              simp only [Part.reserveObj, List.length_append, List.length_singleton] at hi
              omega
            · intro i _ _
              rfl
          have hid3 : st3.id = st.id := hF.marks.ext.id
          have hobj : (st3.putObj st.nextObj G).data.objs[st.data.objs.length]? = some (sortBy fldLe G) := by
            show (st3.data.objs.set st.data.objs.length _)[st.data.objs.length]? = _
            rw [List.getElem?_set_self hlen]
          have hkeys : ∀ k, VId.field st.nextObj k true ∈ own' → k ∈ F2.map (·.key) := by
            intro k hk
            rcases hF.marks.inner _ hk with h1 | ⟨k', hk1, hk2⟩ | h1
            · exact absurd (hp.link k) h1.1.not_old
            · have : k = k' := by
                simp only [VId.field.injEq] at hk2
                exact hk2.2.1
              exact this ▸ hk1
            · exact absurd h1.2 (hp.esc_ne k)
          obtain ⟨c, hc⟩ := hr.objs st.data.objs.length _ (Nat.le_refl _) hobj (by
            intro k hk
            have hk' : VId.field st.nextObj k true ∈ M := by
              have : (st3.putObj st.nextObj G).id = st.id := hid3
              rw [this] at hk
              exact hk
            have := hkeys k ((hM _ (hin k)).1 hk')
            refine ((sortBy_perm fldLe G).map (·.key)).mem_iff.2 ?_
            rw [hG, List.map_append]
            exact List.mem_append_left _ this)
          have hidp : (st3.putObj st.nextObj G).id = st.id := hid3
          rw [hidp] at hc
          refine show_fields (M := M) (own := own') hw hp hF hmap ?_ ?_ (fun k => hM _ (hin k)) hG hc
          · refine ⟨?_, ?_⟩
            · intro i F hi hFi hk
              have hlt : i < st3.data.objs.length := (List.getElem?_eq_some_iff.1 hFi).1
              exact hr.objs i F (Nat.le_trans hsub.olo hi) (by rw [hsub.objs i hi hlt]; exact hFi) hk
            · intro i vs hi hvs
              exact hr.lists i vs (Nat.le_trans hsub.llo hi) hvs
          · intro id hid
            apply hM
            cases id with
            | field o k n =>
              refine ⟨hid.1, hid.2.1, Nat.le_trans hsub.olo hid.2.2.1, Nat.lt_of_lt_of_le hid.2.2.2 hsub.ohi⟩
            | index l i n => exact hid
            | packed _ _ => exact hid
      have hbn : b' = true → (match (fs.filter FieldShape.vis).mapM fun f => (completeField hid f es).map fun o => (f.key, o) with
            | none => orNull req
            | some os => some (.obj (inOrder (os ++ typenameFields tns ty)))) = orNull req := by
        intro hb
        obtain ⟨f, hf, hvis, hc⟩ := hF.none hb
        have : ((fs.filter FieldShape.vis).mapM fun f => (completeField hid f es).map fun o => (f.key, o)) = none :=
          mapM_none.2 ⟨f, List.mem_filter.2 ⟨hf, hvis⟩, by rw [hc]; rfl⟩
        rw [this]
      simp only [ingestObj] at h
      cases ty with
      | none =>
        simp only [Prod.mk.injEq, Option.some.injEq] at h
        obtain ⟨rfl, rfl⟩ := h
        rw [if_neg (by simp [hnone rfl])]
        exact ⟨own', b', hm0, hbn, hshow⟩
      | some t =>
        simp only at h
        by_cases hh : hid t = true
        · rw [if_pos (Or.inl (by simpa using hh))]
          rw [hh] at h
          simp only [Bool.and_self, if_true] at h
          obtain ⟨own2, hm2⟩ := propagate_marks NoLink (st3.putObj st.nextObj G) par loc
          have hm3 := hm0.trans hm2
          cases set with
          | none =>
            simp only [Prod.mk.injEq, Option.some.injEq] at h
            obtain ⟨rfl, rfl⟩ := h
            exact ⟨_, _, hm3, fun _ => rfl, by simp⟩
          | some s =>
            simp only [Prod.mk.injEq, Option.some.injEq] at h
            obtain ⟨rfl, rfl⟩ := h
            refine ⟨_, b' || true, ⟨⟨hm3.ext.id, hm3.ext.objs, hm3.ext.lists, hm3.ext.updates⟩, hm3.nullAt, hm3.root, ?_, hm3.out⟩, fun _ => rfl, by simp⟩
            exact hm3.inner
        · have hh' : hid t = false := by simpa using hh
          rw [if_neg (by simp [hh'])]
          rw [hh'] at h
          simp only [Bool.and_false, Bool.false_eq_true, if_false] at h
          cases set with
          | none =>
            simp only [Prod.mk.injEq, Option.some.injEq] at h
            obtain ⟨rfl, rfl⟩ := h
            exact ⟨own', b', hm0, hbn, hshow⟩
          | some s =>
            simp only [Prod.mk.injEq, Option.some.injEq] at h
            obtain ⟨rfl, rfl⟩ := h
            refine ⟨own', b', ⟨⟨hm0.ext.id, hm0.ext.objs, hm0.ext.lists, hm0.ext.updates⟩, hm0.nullAt, hm0.root, hm0.inner, hm0.out⟩, hbn, ?_⟩
            intro hb
            obtain ⟨o, ho, hs⟩ := hshow hb
            refine ⟨o, ho, ?_⟩
            intro hp' M hr hM
            exact hs hp' M ⟨hr.objs, hr.lists⟩ hM
    cases tns with
    | nil => exact stored _ F2 rfl (by simp [tnFields]) (fun _ => rfl) h
    | cons k tns =>
      cases ho : objTy ident det with
      | none =>
        rw [ho] at h
        simp only [ingestObj] at h
        rw [if_pos (Or.inr ⟨rfl, by simp⟩)]
        exact onUnexpected_after hF.marks.inside h
      | some t =>
        have h' := stored (some t) (F2 ++ tnFields (k :: tns) t) ho rfl (by simp) (by rw [ho] at h; exact h)
        rw [ho] at h'
        exact h'

end Verif.NullProp
