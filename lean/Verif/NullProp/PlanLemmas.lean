import Verif.NullProp.RootLemmas
import Verif.NullProp.ReadLemmas

/-!
# Plans of root fields
-/
namespace Verif.NullProp

open Verif.DefaultMerge (Key Field)
open Verif.OpChecks (sortBy insertBy sortBy_perm)

/-! ## Merging disjoint fields -/

theorem cmp_ne_eq {a b : Key} (h : a ≠ b) : a.cmp b ≠ .eq := fun hc => h (Verif.DefaultMerge.Key.cmp_eq.1 hc)

theorem mergeScan_disjoint {mv : List Data → Val → Val → Option (List Data)} {n : Nat} {ps : List Data} {es : List Fld} {d : Fld}
    {ds : List Fld} (hd : ∀ e ∈ es, ∀ f ∈ d :: ds, e.key ≠ f.key) (hn : es.length + ds.length < n) :
    mergeScan mv n ps es d ds = some (ps, d :: ds) := by
  induction n generalizing es d ds with
  | zero => omega
  | succ n ih =>
    cases es with
    | nil => rfl
    | cons e es =>
      have hne := cmp_ne_eq (hd e List.mem_cons_self d List.mem_cons_self)
      simp only [mergeScan]
      cases hc : e.key.cmp d.key with
      | lt =>
        simp only
        exact ih (fun x hx => hd x (List.mem_cons_of_mem _ hx)) (by simp at hn; omega)
      | eq => exact absurd hc hne
      | gt =>
        cases ds with
        | nil => rfl
        | cons d' ds' =>
          simp only
          rw [ih (fun x hx f hf => hd x hx f (List.mem_cons_of_mem _ hf)) (by simp at hn ⊢; omega)]
          rfl

theorem setObj_set {ps : List Data} {id : Id} {F F' : List Fld} : setObj (setObj ps id F) id F' = setObj ps id F' := by
  unfold setObj
  apply List.ext_getElem?
  intro i
  rw [List.getElem?_modify, List.getElem?_modify, List.getElem?_modify]
  split
  · cases ps[i]? with
    | none => rfl
    | some d => simp [List.set_set]
  · cases ps[i]? <;> rfl

theorem getObj_setObj {ps : List Data} {id : Id} {F G : List Fld} (h : getObj ps id = some F) :
    getObj (setObj ps id G) id = some G := by
  unfold getObj setObj at *
  rw [List.getElem?_modify]
  cases hp : ps[id.part]? with
  | none => rw [hp] at h; simp at h
  | some d =>
    rw [hp] at h
    have h : d.objs[id.ix]? = some F := h
    simp [List.getElem?_set_self (List.getElem?_eq_some_iff.1 h).1]

theorem setObj_other {ps : List Data} {id : Id} {G : List Fld} {i : Nat} (h : i ≠ id.part) : (setObj ps id G)[i]? = ps[i]? := by
  unfold setObj
  rw [List.getElem?_modify]
  cases ps[i]? with
  | none => rfl
  | some d =>
    simp only [Option.map_eq_map, Option.map_some, Option.some.injEq]
    rw [if_neg fun h' => h h'.symm]

theorem mergeObj_disjoint {mv : List Data → Val → Val → Option (List Data)} {ps : List Data} {id : Id} {G new : List Fld}
    (hg : getObj ps id = some G) (hG : G = sortBy fldLe G) (hd : ∀ e ∈ G, ∀ f ∈ new, e.key ≠ f.key) :
    ∃ ps', mergeObj mv ps id new = some ps' ∧ getObj ps' id = some (sortBy fldLe (G ++ new)) ∧
      (∀ i, i ≠ id.part → ps'[i]? = ps[i]?) ∧ ps'.length = ps.length := by
  unfold mergeObj
  cases new with
  | nil => exact ⟨ps, rfl, by simpa [← hG] using hg, fun _ _ => rfl, rfl⟩
  | cons d ds =>
    simp only [hg]
    rw [mergeScan_disjoint hd (by omega)]
    simp only
    rw [setObj_set]
    refine ⟨_, rfl, getObj_setObj hg, fun i hi => setObj_other hi, ?_⟩
    simp [setObj]

theorem sortBy_of_sorted {α : Type} {le : α → α → Bool} {l : List α} (h : l.Pairwise fun a b => le a b = true) :
    sortBy le l = l := by
  induction l with
  | nil => rfl
  | cons x t ih =>
    rw [List.pairwise_cons] at h
    show insertBy le x (sortBy le t) = x :: t
    rw [ih h.2]
    cases t with
    | nil => rfl
    | cons y t => simp [insertBy, h.1 y List.mem_cons_self]

theorem sortBy_sortBy {F : List Fld} : sortBy fldLe (sortBy fldLe F) = sortBy fldLe F := by
  apply sortBy_of_sorted
  exact (sort_fld_sorted F).imp fun h => fldLe_iff.2 h

theorem sorted_map {F : List Fld} {g : Fld → Fld} (hg : ∀ f, (g f).key = f.key) :
    (sortBy fldLe F).map g = sortBy fldLe ((sortBy fldLe F).map g) := by
  symm
  apply sortBy_of_sorted
  rw [List.pairwise_map]
  refine (sort_fld_sorted F).imp fun {a b} h => fldLe_iff.2 ?_
  rw [hg, hg]
  exact h

/-! ## Other parts -/

theorem makeAll_other {M : List VId} {i : Nat} : ∀ {ps h : List Data}, makeAll ps M = some h → (∀ v ∈ M, v.part ≠ i) →
    h[i]? = ps[i]? ∧ h.length = ps.length := by
  induction M with
  | nil =>
    intro ps h hm _
    simp only [makeAll, Option.some.injEq] at hm
    subst hm
    exact ⟨rfl, rfl⟩
  | cons v M ih =>
    intro ps h hm hv
    rw [makeAll] at hm
    cases h1 : makeInaccessible ps v with
    | none => rw [h1] at hm; simp at hm
    | some ps1 =>
      rw [h1] at hm
      simp only at hm
      obtain ⟨h2, h3⟩ := ih hm (fun w hw => hv w (List.mem_cons_of_mem _ hw))
      unfold makeInaccessible at h1
      cases hd : ps[v.part]? with
      | none => rw [hd] at h1; simp at h1
      | some d =>
        rw [hd] at h1
        obtain ⟨d', _, rfl⟩ := Option.map_eq_some_iff.1 h1
        rw [h2, h3, List.getElem?_set_ne (hv v List.mem_cons_self)]
        simp

theorem makeAll_length {M : List VId} : ∀ {ps h : List Data}, makeAll ps M = some h → h.length = ps.length := by
  induction M with
  | nil =>
    intro ps h hm
    simp only [makeAll, Option.some.injEq] at hm
    rw [hm]
  | cons v M ih =>
    intro ps h hm
    rw [makeAll] at hm
    cases h1 : makeInaccessible ps v with
    | none => rw [h1] at hm; simp at hm
    | some ps1 =>
      rw [h1] at hm
      rw [ih hm]
      unfold makeInaccessible at h1
      cases hd : ps[v.part]? with
      | none => rw [hd] at h1; simp at h1
      | some d =>
        rw [hd] at h1
        obtain ⟨d', _, rfl⟩ := Option.map_eq_some_iff.1 h1
        simp

theorem getObj_congr {h h' : List Data} {id : Id} (hp : h'[id.part]? = h[id.part]?) : getObj h' id = getObj h id := by
  unfold getObj
  rw [hp]

theorem getList_congr {h h' : List Data} {id : Id} (hp : h'[id.part]? = h[id.part]?) : getList h' id = getList h id := by
  unfold getList
  rw [hp]

/-! ## One plan -/

/-- The root object. -/
abbrev rootId : Id := ⟨0, 0⟩

/-- The keys of a plan. -/
def planKeys (p : RootShape × Entries) : List Key := p.1.fields.map (·.key) ++ p.1.tns

/-- What is known of the response after some plans. -/
structure Inv (r : Response) (n : Nat) (ks : List Key) (res : Option (List (Key × Out))) : Prop where
  len : r.parts.length = n
  pos : 1 ≤ n
  dead : res = none → r.root = none
  live : ∀ os, res = some os → r.root = some rootId ∧ (os.map (·.1)).Nodup ∧ ∃ G, getObj r.parts rootId = some G ∧
    G = sortBy fldLe G ∧ (G.map (·.key)).Nodup ∧ (∀ k ∈ G.map (·.key), k ∈ ks) ∧
    (∀ k, k ∈ os.map (·.1) ↔ k ∈ G.map (·.key) ∧ visible k = true) ∧
    ∀ f ∈ G, ∀ o, (f.key, o) ∈ os → ∀ h', (∀ i : Nat, 1 ≤ i → i < n → h'[i]? = r.parts[i]?) → Shows h' f.value o

theorem Inv.new : Inv Response.new 1 [] (some []) := by
  refine ⟨rfl, Nat.le_refl _, by simp, ?_⟩
  intro os h
  simp only [Option.some.injEq] at h
  subst h
  exact ⟨rfl, by simp, [], rfl, rfl, by simp, by simp, by simp, by simp⟩

theorem runPlan_ok {hid : Nat → Bool} {ty fuel : Nat} {p : RootShape × Entries} {r : Response} {n : Nat} {ks : List Key}
    {os : List (Key × Out)} (hr : p.2.Readable) (hw : WFFields p.1.tns p.1.fields)
    (hh : ∀ f ∈ p.1.fields, f.vis = false → AllHidden f.shape) (hsh : ∀ f ∈ p.1.fields, WF f.shape)
    (hu : (Json.map p.2).Uniq) (hks : ∀ k ∈ planKeys p, k ∉ ks) (hI : Inv r n ks (some os)) :
    ∃ r', runPlan hid ty fuel (p.1, .map p.2) r = some r' ∧
      Inv r' (n + 1) (ks ++ planKeys p) ((rootFields hid ty p).map fun o => os ++ o) := by
  obtain ⟨hroot, hosn, G0, hG0, hG0s, hG0n, hG0k, hG0v, hG0sh⟩ := hI.live os rfl
  have hn := hI.len
  have hpos := hI.pos
  unfold runPlan
  simp only [Response.rootRef, hroot, Option.map_some, Response.createPart, hn]
  generalize hst : ({ id := n } : Part) = st
  have hstid : st.id = n := by rw [← hst]
  have hbub : { st with bubbling := false } = st := by rw [← hst]
  have hnull : st.nullAt = [] := by rw [← hst]
  have hup : st.updates = [] := by rw [← hst]
  have htr : st.toRoot = false := by rw [← hst]
  have hobj0 : st.data.objs = [] := by rw [← hst]
  have hlist0 : st.data.lists = [] := by rw [← hst]
  have hpaths : Paths st [] [] rootId := by
    refine ⟨by simp, ?_, by simp⟩
    intro k
    left
    show (0 : Nat) ≠ st.id
    rw [hstid]
    omega
  -- reading
  rcases hv : visit hid [] [] rootId none p.2 p.1.fields none [] st with ⟨_ | ⟨F, det⟩, st1⟩
  · exact absurd (congrArg (·.1) hv) (visit_total _ _ _ _ _ _ _ _ hr)
  obtain ⟨own0, b0, new, hnew, hvok⟩ := visit_ok p.2 [] rootId none p.1.fields none [] st F det st1 hw.inj
    (fun f hf => ⟨hh f hf, hsh f hf⟩) hu.1 hu.2 hpaths hv
  rw [List.nil_append] at hnew
  subst hnew
  rcases hse : shapeErrors [] [] p.1.fields false F st1 with ⟨done, F1, st2⟩
  rcases hmf : missingFields [] [] p.1.fields done F1 st2 with ⟨F2, st3⟩
  obtain ⟨own, b, hF⟩ := fields_ok hw hpaths hvok hse hmf
  have hesc : esc [] [] = (none : Option VId) := rfl
  obtain ⟨G, hGdef⟩ : ∃ G, G = F2 ++ tnFields p.1.tns ty := ⟨_, rfl⟩
  have hfin : finishMap [] [] (.known ty) p.1.tns p.1.fields det F st1 = (.some (some ty) G, st3) := by
    rw [finishMap_eq (by simp) hse hmf]
    cases htns : p.1.tns with
    | nil => simp [hGdef, htns, tnFields, objTy]
    | cons k tns => simp [hGdef, htns, tnFields, objTy]
  have hseed : rootSeed hid p.1 ⟨rootId, [], ty⟩ (.map p.2) st = { st3 with updates := [.fields rootId G] } := by
    unfold rootSeed
    rw [hbub]
    simp only [hv, hfin]
    rw [hF.marks.ext.updates, hup]
    rfl
  rw [hseed]
  have hid3 : st3.id = n := by rw [hF.marks.ext.id, hstid]
  have hnull3 : st3.nullAt = own := by rw [hF.marks.nullAt, hnull]; rfl
  have hroot3 : st3.toRoot = b := by rw [hF.marks.root, htr, hesc]; simp
  unfold ingest
  simp only [hid3, hnull3, hroot3]
  have hlen' : ((r.parts ++ [({} : Data)]).set n st3.data).length = n + 1 := by simp [hn]
  cases hb : b with
  | true =>
    have hnone : rootFields hid ty p = none := by
      obtain ⟨f, hf, hvis, hc⟩ := hF.none hb
      unfold rootFields
      rw [mapM_none.2 ⟨f, List.mem_filter.2 ⟨hf, hvis⟩, by rw [hc]; rfl⟩]
      rfl
    rw [if_pos rfl, hnone]
    refine ⟨_, rfl, hlen', by omega, fun _ => rfl, ?_⟩
    · intro os h
      simp at h
  | false =>
    subst hb
    simp only [Bool.false_eq_true, if_false]
    -- the values
    cases hmap : (p.1.fields.filter FieldShape.vis).mapM fun f => (completeField hid f p.2).map fun o => (f.key, o) with
    | none =>
      exfalso
      obtain ⟨f, hf, hfn⟩ := mapM_none.1 hmap
      have hf := List.mem_filter.1 hf
      rcases hF.vals f hf.1 hf.2 with ⟨_, hb⟩ | ⟨o, v, hc, _⟩
      · simp at hb
      · rw [hc] at hfn
        simp at hfn
    | some os1 =>
    obtain ⟨hGn, hosn1, hGv, hFt, hGk⟩ := fields_keys (ty := some ty) hw hF hmap hGdef
    have hrf : rootFields hid ty p = some (os1 ++ typenameFields p.1.tns (some ty)) := by
      unfold rootFields
      rw [hmap]
      rfl
    rw [hrf]
    -- merging
    obtain ⟨ps0, hps0⟩ : ∃ ps, ps = (r.parts ++ [({} : Data)]).set n st3.data := ⟨_, rfl⟩
    rw [← hps0]
    have hps_n : ps0[n]? = some st3.data := by
      rw [hps0, List.getElem?_set_self (by simp [hn])]
    have hps_lt : ∀ i : Nat, i < n → ps0[i]? = r.parts[i]? := by
      intro i hi
      rw [hps0, List.getElem?_set_ne (by omega), List.getElem?_append_left (by omega)]
    have hps_root : getObj ps0 rootId = some G0 := by
      rw [getObj_congr (hps_lt 0 (by omega))]
      exact hG0
    have hdisj : ∀ e ∈ G0, ∀ f ∈ sortBy fldLe G, e.key ≠ f.key := by
      intro e he f hf hef
      have h1 := hG0k e.key (List.mem_map.2 ⟨e, he, rfl⟩)
      have h2 := hGk f.key (List.mem_map.2 ⟨f, (sortBy_perm fldLe G).mem_iff.1 hf, rfl⟩)
      exact hks f.key h2 (hef ▸ h1)
    obtain ⟨ps1, hmerge, hroot1, hother1, hlen1⟩ := mergeObj_disjoint (mv := mergeVal fuel) hps_root hG0s hdisj
    have happly : applyUpdates fuel ps0 [.fields rootId G] = some ps1 := by
      simp only [applyUpdates, hmerge]
    rw [happly]
    simp only
    -- the marks
    have hps1_n : ps1[n]? = some st3.data := by
      rw [hother1 n (by show n ≠ 0; omega)]
      exact hps_n
    have hnul : ∀ v ∈ own, v.nullable = true := by
      intro v hv
      rcases hF.marks.inner v hv with h1 | ⟨k, _, rfl⟩ | h1
      · have := h1.1
        cases v with
        | field o k n => exact this.1
        | index l i n => exact this.1
        | packed _ _ => exact this.elim
      · rfl
      · rw [hesc] at h1
        simp at h1
    have hpart : ∀ v ∈ own, v.part = n ∨ v.part = 0 := by
      intro v hv
      rcases hF.marks.inner v hv with h1 | ⟨k, _, rfl⟩ | h1
      · have := h1.1
        cases v with
        | field o k m => exact .inl (this.2.1.trans hstid)
        | index l i m => exact .inl (this.2.1.trans hstid)
        | packed _ _ => exact this.elim
      · exact .inr rfl
      · rw [hesc] at h1
        simp at h1
    have htarget : ∀ v ∈ own, Target ps1 v := by
      intro v hv
      rcases hF.marks.inner v hv with h1 | ⟨k, _, rfl⟩ | h1
      · cases v with
        | field o k m =>
          obtain ⟨⟨_, h2, _, h4⟩, _⟩ := h1
          refine ⟨st3.data.objs[o.ix], ?_⟩
          unfold getObj
          rw [show o.part = n from h2.trans hstid, hps1_n]
          exact List.getElem?_eq_getElem h4
        | index l i m =>
          obtain ⟨⟨_, h2, _, h4⟩, vs, h5, h6⟩ := h1
          refine ⟨vs, ?_, h6⟩
          unfold getList
          rw [show l.part = n from h2.trans hstid, hps1_n]
          exact h5
        | packed _ _ => exact h1.1.elim
      · exact ⟨_, hroot1⟩
      · rw [hesc] at h1
        simp at h1
    obtain ⟨h, hmake⟩ := makeAll_total hnul htarget
    rw [hmake]
    have hlink : ∀ k, VId.field rootId k true ∈ own → k ∈ F2.map (·.key) := by
      intro k hk
      rcases hF.marks.inner _ hk with h1 | ⟨k', hk1, hk2⟩ | h1
      · exact absurd (hpaths.link k) h1.1.not_old
      · have : k = k' := by
          simp only [VId.field.injEq] at hk2
          exact hk2.2.1
        exact this ▸ hk1
      · rw [hesc] at h1
        simp at h1
    have hGF : ∀ k ∈ F2.map (·.key), k ∈ G.map (·.key) := by
      intro k hk
      rw [hGdef, List.map_append]
      exact List.mem_append_left _ hk
    obtain ⟨c, hc⟩ := makeAll_obj hmake hnul hroot1 (by
      intro k hk
      refine ((sortBy_perm fldLe _).map (·.key)).mem_iff.2 ?_
      rw [List.map_append]
      exact List.mem_append_right _ (((sortBy_perm fldLe G).map (·.key)).mem_iff.2 (hGF k (hlink k hk))))
    have hreal : ∀ h', h'[n]? = h[n]? → Realises h' own st st3 := by
      intro h' hh'
      constructor
      · intro i Fi hi hFi hk
        rw [hid3] at hk ⊢
        rw [getObj_congr (h := h) hh']
        refine makeAll_obj hmake hnul ?_ hk
        unfold getObj
        rw [show (⟨n, i⟩ : Id).part = n from rfl, hps1_n]
        exact hFi
      · intro i vs hi hvs
        rw [hid3]
        rw [getList_congr (h := h) hh']
        refine makeAll_list hmake hnul ?_
        unfold getList
        rw [show (⟨n, i⟩ : Id).part = n from rfl, hps1_n]
        exact hvs
    have hkeys' : ∀ k, k ∈ (G0 ++ sortBy fldLe G).map (·.key) ↔ k ∈ G0.map (·.key) ∨ k ∈ G.map (·.key) := by
      intro k
      rw [List.map_append, List.mem_append, ((sortBy_perm fldLe G).map (·.key)).mem_iff]
    have hkdisj : ∀ k ∈ G0.map (·.key), k ∉ G.map (·.key) := by
      intro k hk hk'
      exact hks k (hGk k hk') (hG0k k hk)
    refine ⟨⟨h, some rootId⟩, rfl, ?_, by omega, by simp, ?_⟩
    · show h.length = n + 1
      rw [makeAll_length hmake, hlen1, hps0, hlen']
    · intro os' hos'
      simp only [Option.map_some, Option.some.injEq] at hos'
      subst hos'
      have hosdisj : ∀ k ∈ os.map (·.1), k ∉ (os1 ++ typenameFields p.1.tns (some ty)).map (·.1) := by
        intro k hk hk'
        exact hkdisj k ((hG0v k).1 hk).1 ((hGv k).1 hk').1
      refine ⟨rfl, ?_, _, hc, sorted_map fun _ => rfl, ?_, ?_, ?_, ?_⟩
      · rw [List.map_append]
        refine List.nodup_append.2 ⟨hosn, hosn1, ?_⟩
        intro a ha a' ha' haa
        exact hosdisj a ha (haa ▸ ha')
      · rw [List.map_map]
        show ((sortBy fldLe (G0 ++ sortBy fldLe G)).map (·.key)).Nodup
        refine ((sortBy_perm fldLe _).map (·.key)).nodup_iff.2 ?_
        rw [List.map_append]
        refine List.nodup_append.2 ⟨hG0n, ((sortBy_perm fldLe G).map (·.key)).nodup_iff.2 hGn, ?_⟩
        intro a ha a' ha' haa
        exact hkdisj a ha (haa ▸ ((sortBy_perm fldLe G).map (·.key)).mem_iff.1 ha')
      · intro k hk
        rw [List.map_map] at hk
        have hk : k ∈ (sortBy fldLe (G0 ++ sortBy fldLe G)).map (·.key) := hk
        rw [((sortBy_perm fldLe _).map (·.key)).mem_iff, hkeys'] at hk
        rcases hk with hk | hk
        · exact List.mem_append_left _ (hG0k k hk)
        · exact List.mem_append_right _ (hGk k hk)
      · intro k
        rw [List.map_map]
        show _ ↔ k ∈ (sortBy fldLe (G0 ++ sortBy fldLe G)).map (·.key) ∧ _
        rw [((sortBy_perm fldLe _).map (·.key)).mem_iff, hkeys', List.map_append, List.mem_append, hG0v, hGv]
        constructor
        · rintro (⟨h1, h2⟩ | ⟨h1, h2⟩)
          · exact ⟨.inl h1, h2⟩
          · exact ⟨.inr h1, h2⟩
        · rintro ⟨h1 | h1, h2⟩
          · exact .inl ⟨h1, h2⟩
          · exact .inr ⟨h1, h2⟩
      · intro f hf o ho h' hag
        obtain ⟨y, hy, rfl⟩ := List.mem_map.1 hf
        have hy' : y ∈ G0 ++ sortBy fldLe G := (sortBy_perm fldLe _).mem_iff.1 hy
        simp only at ho ⊢
        rcases List.mem_append.1 hy' with hy0 | hyG
        · have hyk : y.key ∈ G0.map (·.key) := List.mem_map.2 ⟨y, hy0, rfl⟩
          rw [if_neg (fun hm => hkdisj _ hyk (hGF _ (hlink _ hm)))]
          rcases List.mem_append.1 ho with ho | ho
          · refine hG0sh y hy0 o ho h' ?_
            intro i hi1 hi2
            rw [hag i hi1 (by omega)]
            show h[i]? = _
            have hne : ∀ v ∈ own, v.part ≠ i := by
              intro v hv
              rcases hpart v hv with h1 | h1 <;> omega
            rw [(makeAll_other hmake hne).1, hother1 i (by show i ≠ 0; omega), hps_lt i hi2]
          · exact absurd ((hGv _).1 (List.mem_map.2 ⟨_, ho, rfl⟩)).1 (hkdisj _ hyk)
        · have hyG := (sortBy_perm fldLe G).mem_iff.1 hyG
          have hyk : y.key ∈ G.map (·.key) := List.mem_map.2 ⟨y, hyG, rfl⟩
          rcases List.mem_append.1 ho with ho | ho
          · exact absurd hyk (hkdisj _ ((hG0v _).1 (List.mem_map.2 ⟨_, ho, rfl⟩)).1)
          · exact field_shows hw hpaths hF hmap (hreal h' (hag n (by omega) (by omega))) (fun _ _ => Iff.rfl) (fun _ => Iff.rfl)
              hGdef hyG ho

theorem runPlan_dead {hid : Nat → Bool} {ty fuel : Nat} {p : RootShape × Json} {r : Response} (h : r.root = none) :
    runPlan hid ty fuel p r = some r := by
  unfold runPlan Response.rootRef
  rw [h]
  rfl

theorem runPlans_dead {hid : Nat → Bool} {ty fuel : Nat} {ps : List (RootShape × Json)} {r : Response} (h : r.root = none) :
    runPlans hid ty fuel ps r = some r := by
  induction ps with
  | nil => rfl
  | cons p ps ih => rw [runPlans, runPlan_dead h]; exact ih

theorem Inv.shows {r : Response} {n : Nat} {ks : List Key} {os : List (Key × Out)} (h : Inv r n ks (some os)) :
    ∃ m, ∀ k, m ≤ k → r.show k = some (.obj (inOrder os)) := by
  obtain ⟨hroot, hosn, G, hG, hGs, hGn, _, hGv, hGsh⟩ := h.live os rfl
  have hs : Shows r.parts (.obj rootId) (.obj (inOrder os)) := by
    refine shows_fields (F := G) hG (by rw [← hGs]) hGn hosn hGv ?_
    intro f hf _ o ho
    exact hGsh f hf o ho r.parts fun _ _ _ => rfl
  obtain ⟨m, hm⟩ := hs
  refine ⟨m, fun k hk => ?_⟩
  unfold Response.show
  rw [hroot]
  exact showVal_mono hm hk

/-- The keys of the plans are distinct. -/
theorem RootsOk.tail {p : RootShape × Entries} {ps : List (RootShape × Entries)} (h : RootsOk (p :: ps)) : RootsOk ps :=
  ⟨fun q hq => h.fields q (List.mem_cons_of_mem _ hq), fun q hq => h.hidden q (List.mem_cons_of_mem _ hq),
    fun q hq => h.shapes q (List.mem_cons_of_mem _ hq), by
      have := h.names
      rw [List.flatMap_cons] at this
      exact (List.nodup_append.1 this).2.1,
    fun q hq => h.unique q (List.mem_cons_of_mem _ hq)⟩

theorem key_mem {p : RootShape × Entries} {k : Key} (h : k ∈ planKeys p) :
    k.key ∈ p.1.fields.map (·.key.key) ++ p.1.tns.map (·.key) := by
  unfold planKeys at h
  rcases List.mem_append.1 h with h | h
  · obtain ⟨f, hf, rfl⟩ := List.mem_map.1 h
    exact List.mem_append_left _ (List.mem_map.2 ⟨f, hf, rfl⟩)
  · exact List.mem_append_right _ (List.mem_map.2 ⟨k, h, rfl⟩)

theorem runPlans_ok {hid : Nat → Bool} {ty fuel : Nat} : ∀ (ps : List (RootShape × Entries)) {r : Response} {n : Nat}
    {ks : List Key} {os : List (Key × Out)}, RootsOk ps → (∀ p ∈ ps, p.2.Readable) →
    (∀ p ∈ ps, ∀ k ∈ planKeys p, k ∉ ks) → Inv r n ks (some os) →
    ∃ r', runPlans hid ty fuel (ps.map fun p => (p.1, .map p.2)) r = some r' ∧
      ∃ m, ∀ k, m ≤ k → r'.show k = some (match ps.mapM (rootFields hid ty) with
        | none => .null
        | some oss => .obj (inOrder (os ++ oss.flatten)))
  | [], r, n, ks, os, _, _, _, hI => by
    refine ⟨r, rfl, ?_⟩
    obtain ⟨m, hm⟩ := hI.shows
    exact ⟨m, fun k hk => by simpa using hm k hk⟩
  | p :: ps, r, n, ks, os, hok, hr, hd, hI => by
    obtain ⟨r1, h1, hI1⟩ := runPlan_ok (hid := hid) (ty := ty) (fuel := fuel) (hr p List.mem_cons_self) (hok.fields p List.mem_cons_self)
      (hok.hidden p List.mem_cons_self) (hok.shapes p List.mem_cons_self) (hok.unique p List.mem_cons_self)
      (hd p List.mem_cons_self) hI
    rw [List.map_cons, runPlans, h1]
    simp only
    cases hrf : rootFields hid ty p with
    | none =>
      rw [hrf] at hI1
      have hdead := hI1.dead rfl
      rw [runPlans_dead hdead]
      refine ⟨r1, rfl, 0, fun k _ => ?_⟩
      have : (p :: ps).mapM (rootFields hid ty) = none := mapM_none.2 ⟨p, List.mem_cons_self, hrf⟩
      rw [this]
      unfold Response.show
      rw [hdead]
    | some o =>
      rw [hrf] at hI1
      obtain ⟨r', hr', m, hm⟩ := runPlans_ok ps (hok.tail) (fun q hq => hr q (List.mem_cons_of_mem _ hq)) (by
        intro q hq k hk hmem
        rcases List.mem_append.1 hmem with hmem | hmem
        · exact hd q (List.mem_cons_of_mem _ hq) k hk hmem
        · have hnm := hok.names
          rw [List.flatMap_cons] at hnm
          exact (List.nodup_append.1 hnm).2.2 k.key (key_mem hmem) k.key
            (List.mem_flatMap.2 ⟨q, hq, key_mem hk⟩) rfl) hI1
      refine ⟨r', hr', m, fun k hk => ?_⟩
      rw [hm k hk, List.mapM_cons, hrf]
      cases ps.mapM (rootFields hid ty) with
      | none => rfl
      | some oss => simp

end Verif.NullProp
