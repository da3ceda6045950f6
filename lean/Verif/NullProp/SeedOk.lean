import Verif.NullProp.CompleteLemmas

/-!
# Reading a value gives what it should be: the induction
-/
namespace Verif.NullProp

open Verif.DefaultMerge (Key Field)
open Verif.OpChecks (sortBy insertBy sortBy_perm)

/-! ## Lists -/

/-- What is known of the items read. -/
structure ItemsOk (hid : Nat → Bool) (id : Id) (inner : Ty) (sh : Shape) (js : Jsons) (i : Nat) (e : Option VId) (st st' : Part)
    (own : List VId) (b : Bool) (new : List Val) : Prop where
  marks : Marks (fun x => ∃ n, i ≤ n ∧ n < i + new.length ∧ x = .index id n true) e st st' b own
  none : b = true → completeAll hid inner sh js = none
  vals : b = false → ∃ os, completeAll hid inner sh js = some os ∧ os.length = new.length ∧
    ∀ (n : Nat) o v, os[n]? = some o → new[n]? = some v → LinkOk st st' own b (.index id (i + n) true) (some o) v

theorem list_ok {hid : Nat → Bool} {req : Bool} {inner : Ty} {sh : Shape} {js : Jsons} {par loc : List VId} {st st1 : Part}
    {own : List VId} {b : Bool} {new : List Val} (hold : ∀ id ∈ loc ++ par, OldId st id)
    (h : ItemsOk hid st.nextList inner sh js 0 (esc par loc) st.reserveList st1 own b new) :
    ValOk (esc par loc) st (st1.putList st.nextList new) req (complete hid (.list req inner) sh (.list js)) (.list st.nextList) := by
  have hlen : st.data.lists.length < st1.data.lists.length := by
    have := h.marks.ext.llen
    simp only [Part.reserveList, List.length_append, List.length_singleton] at this
    omega
  have hlist : (st1.putList st.nextList new).data.lists[st.data.lists.length]? = some new := by
    show (st1.data.lists.set st.data.lists.length _)[st.data.lists.length]? = _
    rw [List.getElem?_set_self hlen]
  have hsub : Sub st.reserveList st1 st (st1.putList st.nextList new) := by
    refine ⟨rfl, rfl, ?_, ?_, ?_, ?_, ?_, ?_⟩
    · simp [Part.reserveList]
    · simp [Part.reserveList]
    · simp [Part.putList]
    · simp [Part.putList]
    · intro i _ _
      rfl
    · intro i hi _
      show (st1.data.lists.set st.data.lists.length _)[i]? = _
      rw [List.getElem?_set_ne]
      simp only [Part.reserveList, List.length_append, List.length_singleton] at hi
      omega
  have hin : ∀ n, Inner st (st1.putList st.nextList new) (.index st.nextList n true) := by
    intro k
    refine ⟨rfl, rfl, Nat.le_refl _, ?_⟩
    show st.data.lists.length < (st1.data.lists.set _ _).length
    rw [List.length_set]
    exact hlen
  have hm : Marks NoLink (esc par loc) st (st1.putList st.nextList new) b own := by
    refine ⟨putList_ext h.marks.ext new, h.marks.nullAt, h.marks.root, ?_, h.marks.out⟩
    intro id hid'
    rcases h.marks.inner id hid' with h1 | ⟨n, _, hn, rfl⟩ | h1
    · left
      cases id with
      | field o k n => exact ⟨h1.1, trivial⟩
      | index l i n =>
        obtain ⟨⟨g1, g2, g3, g4⟩, vs, g5, g6⟩ := h1
        simp only [Part.reserveList, List.length_append, List.length_singleton] at g3
        refine ⟨⟨g1, g2, by omega, ?_⟩, vs, ?_, g6⟩
        · show l.ix < (st1.data.lists.set _ _).length
          rw [List.length_set]
          exact g4
        · show (st1.data.lists.set st.data.lists.length _)[l.ix]? = _
          rw [List.getElem?_set_ne (by omega)]
          exact g5
      | packed _ _ => exact h1.1.elim
    · exact .inl ⟨hin n, new, hlist, by omega⟩
    · exact .inr (.inr h1)
  refine ⟨own, b, hm, ?_, ?_⟩
  · intro hb
    simp only [complete, h.none hb]
  · intro hb
    obtain ⟨os, hos, hl, hvals⟩ := h.vals hb
    refine ⟨.list os, by simp only [complete, hos], ?_⟩
    intro hp M hr hM
    have hid1 : (st1.putList st.nextList new).id = st.id := h.marks.ext.id
    obtain ⟨c, hc⟩ := hr.lists _ _ (Nat.le_refl _) hlist
    rw [hid1] at hc
    refine shows_list hc (by simp [hl]) ?_
    intro n v o hv ho
    rw [List.getElem?_mapIdx] at hv
    obtain ⟨w, hw, rfl⟩ := Option.map_eq_some_iff.1 hv
    have hlk := hvals n o w ho hw
    rw [Nat.zero_add] at hlk
    have hmem := hM _ (hin n)
    split
    · next hx =>
      have := hlk.1 (hmem.1 hx)
      rw [this]
      exact shows_inacc
    · next hx =>
      exact (hlk.2 (fun h' => hx (hmem.2 h'))).mono hsub (fun _ _ => Iff.rfl) hp M hr hM

/-! ## The type of an object -/

theorem visit_found {hid : Nat → Bool} {par loc : List VId} {oid : Id} {detect : Option (List Nat)} {t : Nat} :
    ∀ (es : Entries) (rest : List FieldShape) (acc : List Fld) (st : Part) F det st',
    visit hid par loc oid detect es rest (some t) acc st = (some (F, det), st') → det = some t
  | .nil, rest, acc, st, F, det, st', h => by
    simp only [visit, Prod.mk.injEq, Option.some.injEq] at h
    exact h.1.2.symm
  | .bad, rest, acc, st, F, det, st', h => by simp [visit] at h
  | .cons k j es, rest, acc, st, F, det, st', h => by
    rw [visit.eq_def] at h
    simp only at h
    cases hf : rest.find? (fun f => f.expected = k) with
    | some f =>
      rw [hf] at h
      simp only at h
      rcases hp : seed hid par f.vis (.field oid f.key (!f.ty.required) :: loc) f.ty f.shape j st with ⟨_ | v, st1⟩
      · rw [hp] at h; simp at h
      · rw [hp] at h
        exact visit_found es _ _ _ _ _ _ h
    | none =>
      rw [hf] at h
      cases detect with
      | none =>
        simp only at h
        split at h
        · simp at h
        · exact visit_found es _ _ _ _ _ _ h
      | some ps =>
        simp only [reduceCtorEq, decide_false, Bool.false_and, Bool.false_eq_true, if_false] at h
        split at h
        · simp at h
        · exact visit_found es _ _ _ _ _ _ h

theorem visit_not_found {hid : Nat → Bool} {par loc : List VId} {oid : Id} {detect : Option (List Nat)} :
    ∀ (es : Entries) (rest : List FieldShape) (acc : List Fld) (st : Part) F det st', (detect = none ∨ typenameKey ∉ es.keys) →
    visit hid par loc oid detect es rest none acc st = (some (F, det), st') → det = none
  | .nil, rest, acc, st, F, det, st', _, h => by
    simp only [visit, Prod.mk.injEq, Option.some.injEq] at h
    exact h.1.2.symm
  | .bad, rest, acc, st, F, det, st', _, h => by simp [visit] at h
  | .cons k j es, rest, acc, st, F, det, st', hd, h => by
    have hd' : detect = none ∨ typenameKey ∉ es.keys := by
      rcases hd with h | h
      · exact .inl h
      · simp only [Entries.keys, List.mem_cons, not_or] at h
        exact .inr h.2
    rw [visit.eq_def] at h
    simp only at h
    cases hf : rest.find? (fun f => f.expected = k) with
    | some f =>
      rw [hf] at h
      simp only at h
      rcases hp : seed hid par f.vis (.field oid f.key (!f.ty.required) :: loc) f.ty f.shape j st with ⟨_ | v, st1⟩
      · rw [hp] at h; simp at h
      · rw [hp] at h
        exact visit_not_found es _ _ _ _ _ _ hd' h
    | none =>
      rw [hf] at h
      cases detect with
      | none =>
        simp only at h
        split at h
        · simp at h
        · exact visit_not_found es _ _ _ _ _ _ hd' h
      | some ps =>
        have hk : k ≠ typenameKey := by
          rcases hd with h | h
          · simp at h
          · simp only [Entries.keys, List.mem_cons, not_or] at h
            exact fun h' => h.1 h'.symm
        simp only [hk, decide_false, Bool.and_false, Bool.false_eq_true, if_false] at h
        split at h
        · simp at h
        · exact visit_not_found es _ _ _ _ _ _ hd' h

theorem typeOf_cons {ps : List Nat} {k : Nat} {j : Json} {es : Entries} (hk : k ≠ typenameKey) :
    typeOf (.detect ps) (.cons k j es) = typeOf (.detect ps) es := by
  simp only [typeOf, Entries.lookup, hk, if_false]

theorem visit_detect {hid : Nat → Bool} {par loc : List VId} {oid : Id} {ps : List Nat} :
    ∀ (es : Entries) (rest : List FieldShape) (acc : List Fld) (st : Part) F det st', es.keys.Nodup →
    (∀ f ∈ rest, f.expected ≠ typenameKey) →
    visit hid par loc oid (some ps) es rest none acc st = (some (F, det), st') → det = (typeOf (.detect ps) es).getD none
  | .nil, rest, acc, st, F, det, st', _, _, h => by
    simp only [visit, Prod.mk.injEq, Option.some.injEq] at h
    rw [← h.1.2]
    rfl
  | .bad, rest, acc, st, F, det, st', _, _, h => by simp [visit] at h
  | .cons k j es, rest, acc, st, F, det, st', hd, hr, h => by
    simp only [Entries.keys, List.nodup_cons] at hd
    rw [visit.eq_def] at h
    simp only at h
    cases hf : rest.find? (fun f => f.expected = k) with
    | some f =>
      rw [hf] at h
      simp only at h
      have hk : k ≠ typenameKey := by
        have h1 := hr f (List.mem_of_find?_eq_some hf)
        have h2 : f.expected = k := by simpa using List.find?_some hf
        rw [← h2]
        exact h1
      rw [typeOf_cons hk]
      rcases hp : seed hid par f.vis (.field oid f.key (!f.ty.required) :: loc) f.ty f.shape j st with ⟨_ | v, st1⟩
      · rw [hp] at h; simp at h
      · rw [hp] at h
        exact visit_detect es _ _ _ _ _ _ hd.2 (fun g hg => hr g (advance_subset g hg)) h
    | none =>
      rw [hf] at h
      by_cases hk : k = typenameKey
      · subst hk
        simp only [decide_true, Bool.and_self, if_true] at h
        cases j with
        | leaf l =>
          simp only at h
          split at h
          · next hs =>
            simp only [typeOf, Entries.lookup, if_true, hs, true_and]
            by_cases hmem : ps.contains l.n = true
            · rw [if_pos hmem] at h
              rw [if_pos (by simpa using hmem)]
              exact visit_found es _ _ _ _ _ _ h
            · rw [if_neg hmem] at h
              rw [if_neg (by simpa using hmem)]
              exact visit_not_found es _ _ _ _ _ _ (.inr hd.1) h
          · simp at h
        | null => simp at h
        | bad => simp at h
        | list js => simp at h
        | map es' => simp at h
      · rw [typeOf_cons hk]
        simp only [hk, decide_false, Bool.and_false, Bool.false_eq_true, if_false] at h
        split at h
        · simp at h
        · exact visit_detect es _ _ _ _ _ _ hd.2 hr h

theorem visit_type {hid : Nat → Bool} {par loc : List VId} {oid : Id} {ident : Ident} {es : Entries} {fs : List FieldShape}
    {st st' : Part} {F : List Fld} {det : Option Nat} (hn : es.keys.Nodup) (ht : ∀ f ∈ fs, f.expected ≠ typenameKey)
    (h : visit hid par loc oid ident.possible es fs none [] st = (some (F, det), st')) :
    objTy ident det = (typeOf ident es).getD none ∧ ((∃ ps, ident = .detect ps) → (det = none ↔ typeOf ident es = none)) := by
  cases ident with
  | known t => exact ⟨rfl, fun ⟨ps, hps⟩ => (nomatch hps)⟩
  | anonymous => exact ⟨rfl, fun ⟨ps, hps⟩ => (nomatch hps)⟩
  | detect ps =>
    have hd := visit_detect es _ _ _ _ _ _ hn ht h
    refine ⟨hd, fun _ => ?_⟩
    rw [hd]
    cases hty : typeOf (.detect ps) es with
    | none => simp
    | some t =>
      have : t ≠ none := by
        simp only [typeOf] at hty
        split at hty
        · split at hty
          · simp only [Option.some.injEq] at hty
            rw [← hty]
            simp
          · simp at hty
        · simp at hty
      simpa using this

/-! ## The induction -/

theorem link_old {st : Part} {oid : Id} {k : Key} {n : Bool} (h : OldId st (.field oid k true)) : OldId st (.field oid k n) := h
theorem index_old {st : Part} {l : Id} {i : Nat} {n : Bool} (h : OldId st (.index l i true)) : OldId st (.index l i n) := h

theorem mem_advance {k : Nat} {fs : List FieldShape} {f : FieldShape} (hf : f ∈ fs) (hk : f.expected ≠ k) : f ∈ advance k fs := by
  cases fs with
  | nil => simp at hf
  | cons g fs =>
    simp only [advance]
    split
    · next h =>
      rcases List.mem_cons.1 hf with rfl | hf
      · exact absurd h hk
      · exact hf
    · exact hf

mutual

theorem seed_ok {hid : Nat → Bool} {par : List VId} : ∀ (j : Json) (loc : List VId) (ty : Ty) (sh : Shape) (st : Part) v st',
    WF sh → j.Uniq → (∀ id ∈ loc ++ par, OldId st id) → seed hid par true loc ty sh j st = (some v, st') →
    ValOk (esc par loc) st st' ty.required (complete hid ty sh j) v
  | j, loc, ty, sh, st, v, st', hsh, hu, hold, h => by
    have hesc : ∀ id, esc par loc = some id → OldId st id := fun id h => hold id (esc_mem h)
    rw [seed.eq_def] at h
    replace h := onErr_some h
    cases ty with
    | list req inner =>
      have other : ∀ st0, Quiet st st0 → (∀ js, j ≠ .list js) → listOther true req par loc j st0 = (some v, st') →
          ValOk (esc par loc) st st' req (complete hid (.list req inner) sh j) v := by
        intro st0 hq hj h
        have hc : complete hid (.list req inner) sh j = orNull req := by
          cases j with
          | list js => exact absurd rfl (hj js)
          | leaf l => cases sh <;> rfl
          | null => rfl
          | bad => rfl
          | map es => cases sh <;> rfl
        rw [hc]
        rcases listOther_some h with h | h
        · exact onNull_after hq.marks h
        · exact onUnexpected_after hq.marks h
      simp only at h
      split at h
      · next ok hpk =>
        obtain ⟨rfl, rfl⟩ : sh = .scalar true ok ∧ inner = .base true := by
          unfold packedOk at hpk
          split at hpk
          · simp only [Option.some.injEq] at hpk
            exact ⟨by rw [hpk], rfl⟩
          · simp at hpk
        cases j with
        | list js =>
          simp only at h
          rcases hp : packedItems ok true par loc js 0 false [] st with ⟨_ | ⟨ls, u⟩, st1⟩
          · rw [hp] at h; simp at h
          · rw [hp] at h
            simp only [Prod.mk.injEq, Option.some.injEq] at h
            obtain ⟨own, b, new, h1, h2, h3, h4, h5⟩ := packed_ok (hid := hid) js _ _ _ _ _ _ _ hp
            obtain ⟨rfl, rfl⟩ := h
            refine ⟨own, b, h2, ?_, ?_⟩
            · intro hb
              simp only [complete, h4 hb]
              rfl
            · intro hb
              subst hb
              have hu' : u = false := by simpa using h3
              subst hu'
              refine ⟨.list (new.map .leaf), by simp only [complete, h5 rfl], ?_⟩
              intro hp' M _ _
              refine ⟨1, ?_⟩
              have : ls = new := by simpa using h1
              subst this
              simp [showVal]
        | null => exact other st (.refl _) (by simp) h
        | bad => exact other st (.refl _) (by simp) h
        | leaf l => exact other st (.refl _) (by simp) h
        | map es => exact other st (.refl _) (by simp) h
      · cases j with
        | list js =>
          simp only at h
          rcases hp : seedItems hid par true loc st.nextList inner sh js 0 [] st.reserveList with ⟨_ | vs, st1⟩
          · rw [hp] at h; simp at h
          · rw [hp] at h
            simp only [Prod.mk.injEq, Option.some.injEq] at h
            obtain ⟨rfl, rfl⟩ := h
            obtain ⟨own, b, new, hnew, hok⟩ := items_ok js loc st.nextList inner sh 0 [] st.reserveList vs st1 hsh hu
              (fun id hid => (hold id hid).mono (reserveList_quiet st).ext)
              (fun n => by
                right
                simp [Part.reserveList, Part.nextList])
              (fun n hmem => by
                have := hold _ hmem
                simp [OldId, Part.nextList] at this) hp
            rw [List.nil_append] at hnew
            subst hnew
            exact list_ok hold hok
        | null => exact other _ (reserveList_quiet st) (by simp) h
        | bad => exact other _ (reserveList_quiet st) (by simp) h
        | leaf l => exact other _ (reserveList_quiet st) (by simp) h
        | map es => exact other _ (reserveList_quiet st) (by simp) h
    | base req =>
      cases sh with
      | scalar p ok => exact scalar_ok h
      | enum vals => exact enum_ok h
      | obj ident set tns fs =>
        cases hsh with
        | obj hw hh hsub =>
        cases j with
        | map es =>
          simp only at h
          rcases hp : visit hid par loc st.nextObj ident.possible es fs none [] st.reserveObj with ⟨_ | ⟨F, det⟩, st1⟩
          · rw [hp] at h; simp at h
          · rw [hp] at h
            simp only at h
            have hpaths : Paths st.reserveObj par loc st.nextObj := by
              refine ⟨fun id hid => (hold id hid).mono (reserveObj_quiet st).ext, ?_, ?_⟩
              · intro k
                right
                simp [Part.reserveObj, Part.nextObj]
              · intro k hmem
                have := hold _ hmem
                simp [OldId, Part.nextObj] at this
            obtain ⟨own, b, new, hnew, hv⟩ := visit_ok es loc st.nextObj ident.possible fs none [] st.reserveObj F det st1
              hw.inj (fun f hf => ⟨hh f hf, hsub f hf⟩) hu.1 hu.2 hpaths hp
            rw [List.nil_append] at hnew
            subst hnew
            exact obj_ok hw hpaths hv (visit_type hu.1 hw.typename hp) h
        | null => exact onNull_after (reserveObj_quiet st).marks h
        | bad => simp at h
        | leaf l => exact onUnexpected_after (reserveObj_quiet st).marks h
        | list js => exact onUnexpected_after (reserveObj_quiet st).marks (onSkipped_some h).2

theorem items_ok {hid : Nat → Bool} {par : List VId} : ∀ (js : Jsons) (loc : List VId) (id : Id) (inner : Ty) (sh : Shape)
    (i : Nat) (acc : List Val) (st : Part) vs st', WF sh → js.Uniq → (∀ x ∈ loc ++ par, OldId st x) →
    (∀ n, OldId st (.index id n true)) → (∀ n, VId.index id n true ∉ loc ++ par) →
    seedItems hid par true loc id inner sh js i acc st = (some vs, st') →
    ∃ own b new, vs = acc ++ new ∧ ItemsOk hid id inner sh js i (esc par loc) st st' own b new
  | .nil, loc, id, inner, sh, i, acc, st, vs, st', hsh, _, hold, hl, hf, h => by
    simp only [seedItems, Prod.mk.injEq, Option.some.injEq] at h
    obtain ⟨rfl, rfl⟩ := h
    exact ⟨[], false, [], by simp, (Quiet.refl _).marks, by simp, fun _ => ⟨[], rfl, rfl, by simp⟩⟩
  | .bad, loc, id, inner, sh, i, acc, st, vs, st', hsh, _, hold, hl, hf, h => by simp [seedItems] at h
  | .cons j js, loc, id, inner, sh, i, acc, st, vs, st', hsh, hu, hold, hl, hf, h => by
    have hesc : ∀ x, esc par loc = some x → OldId st x := fun x h => hold x (esc_mem h)
    have hne : ∀ n, esc par loc ≠ some (.index id n true) := fun n h => hf n (esc_mem h)
    rw [seedItems] at h
    rcases hp : seed hid par true (.index id i (!inner.required) :: loc) inner sh j st with ⟨_ | v, st1⟩
    · rw [hp] at h; simp at h
    · rw [hp] at h
      simp only at h
      have hval := seed_ok j (.index id i (!inner.required) :: loc) inner sh st v st1 hsh hu.1
        (fun x hx => by
          rcases List.mem_cons.1 hx with rfl | hx
          · exact index_old (hl i)
          · exact hold x hx) hp
      obtain ⟨own1, b1, m1, hlk, hb1⟩ := hval.link (l := .index id i true) rfl (fun hr => by rw [hr]; rfl) (hl i)
        (fun x hx hxl => hne i (hxl ▸ hx))
      obtain ⟨own2, b2, new, hvs, hok⟩ := items_ok js loc id inner sh (i + 1) (acc ++ [v]) st1 vs st' hsh hu.2
        (fun x hx => (hold x hx).mono m1.ext) (fun n => (hl n).mono m1.ext) hf h
      refine ⟨own1 ++ own2, b1 || b2, v :: new, by simp [hvs], ?_, ?_, ?_⟩
      · refine (m1.mono ?_).trans (hok.marks.mono ?_)
        · rintro x rfl
          exact ⟨i, Nat.le_refl _, by simp, rfl⟩
        · rintro x ⟨n, h1, h2, rfl⟩
          refine ⟨n, by omega, ?_, rfl⟩
          rw [List.length_cons]
          omega
      · intro hb
        simp only [completeAll]
        cases hb1' : b1 with
        | true => rw [hb1 hb1']
        | false =>
          rw [hb1'] at hb
          rw [hok.none (by simpa using hb)]
          cases complete hid inner sh j <;> rfl
      · intro hb
        obtain ⟨hb1', hb2'⟩ : b1 = false ∧ b2 = false := by simpa using hb
        obtain ⟨os, hos, hlen, hvals⟩ := hok.vals hb2'
        cases hc : complete hid inner sh j with
        | none =>
          rw [hc] at hlk
          have : b1 = true := hlk
          rw [hb1'] at this
          simp at this
        | some o =>
          rw [hc] at hlk
          refine ⟨o :: os, by simp only [completeAll, hc, hos], by simp [hlen], ?_⟩
          intro n o' w ho hw
          cases n with
          | zero =>
            simp only [List.getElem?_cons_zero, Option.some.injEq] at ho hw
            subst ho
            subst hw
            refine hlk.right m1.ext hok.marks ?_ (hl i) (hne i) ?_ hesc
            · rintro ⟨n, h1, _, h3⟩
              simp only [VId.index.injEq] at h3
              omega
            · rintro x ⟨n, _, _, rfl⟩
              exact hl n
          | succ n =>
            simp only [List.getElem?_cons_succ] at ho hw
            have := hvals n o' w ho hw
            have hidx : i + 1 + n = i + (n + 1) := by omega
            rw [hidx] at this
            refine this.left m1 hok.marks.ext ?_ (hl _) (hne _) ?_ hesc
            · intro h3
              simp only [VId.index.injEq] at h3
              omega
            · rintro x rfl
              exact hl i

theorem visit_ok {hid : Nat → Bool} {par : List VId} : ∀ (es : Entries) (loc : List VId) (oid : Id) (detect : Option (List Nat))
    (rest : List FieldShape) (found : Option Nat) (acc : List Fld) (st : Part) F det st',
    Inj rest → (∀ f ∈ rest, (f.vis = false → AllHidden f.shape) ∧ WF f.shape) → es.keys.Nodup → es.Uniq → Paths st par loc oid →
    visit hid par loc oid detect es rest found acc st = (some (F, det), st') →
    ∃ own b new, F = acc ++ new ∧ VisitOk hid oid es rest (esc par loc) st st' own b new
  | .nil, loc, oid, detect, rest, found, acc, st, F, det, st', hi, hr, _, _, hp, h => by
    simp only [visit, Prod.mk.injEq, Option.some.injEq] at h
    obtain ⟨⟨rfl, rfl⟩, rfl⟩ := h
    exact ⟨[], false, [], by simp, (Quiet.refl _).marks, by simp, by simp [Entries.keys], by simp, by simp⟩
  | .bad, loc, oid, detect, rest, found, acc, st, F, det, st', hi, hr, _, _, hp, h => by simp [visit] at h
  | .cons k j es, loc, oid, detect, rest, found, acc, st, F, det, st', hi, hr, hn, hu, hp, h => by
    simp only [Entries.keys, List.nodup_cons] at hn
    rw [visit.eq_def] at h
    simp only at h
    cases hf : rest.find? (fun f => f.expected = k) with
    | some f =>
      rw [hf] at h
      simp only at h
      have hfm := List.mem_of_find?_eq_some hf
      have hfk : f.expected = k := by simpa using List.find?_some hf
      rcases hs : seed hid par f.vis (.field oid f.key (!f.ty.required) :: loc) f.ty f.shape j st with ⟨_ | v, st1⟩
      · rw [hs] at h; simp at h
      · rw [hs] at h
        simp only at h
        -- the field itself
        have hfield : ∃ own1 b1, Marks (· = .field oid f.key true) (esc par loc) st st1 b1 own1 ∧
            (f.vis = true → LinkOk st st1 own1 b1 (.field oid f.key true) (complete hid f.ty f.shape j) v) ∧
            (b1 = true → f.vis = true ∧ complete hid f.ty f.shape j = none) := by
          cases hvis : f.vis with
          | true =>
            rw [hvis] at hs
            have hval := seed_ok j (.field oid f.key (!f.ty.required) :: loc) f.ty f.shape st v st1 (hr f hfm).2 hu.1
              (fun x hx => by
                rcases List.mem_cons.1 hx with rfl | hx
                · exact link_old (hp.link f.key)
                · exact hp.old x hx) hs
            obtain ⟨own1, b1, m1, hlk, hb1⟩ := hval.link (l := .field oid f.key true) rfl (fun hr => by rw [hr]; rfl)
              (hp.link f.key) (fun x hx hxl => hp.esc_ne f.key (hxl ▸ hx))
            exact ⟨own1, b1, m1, fun _ => hlk, fun hb => ⟨rfl, hb1 hb⟩⟩
          | false =>
            rw [hvis] at hs
            exact ⟨[], false, (seed_quiet j _ _ _ _ _ _ ((hr f hfm).1 hvis) hs).marks, by simp, by simp⟩
        obtain ⟨own1, b1, m1, hlk, hb1⟩ := hfield
        obtain ⟨own2, b2, new, hF, hok⟩ := visit_ok es loc oid detect (advance k rest) found (acc ++ [⟨f.key, v⟩]) st1 F det st'
          ⟨fun a ha b hb => hi.key a (advance_subset a ha) b (advance_subset b hb),
            fun a ha b hb => hi.expected a (advance_subset a ha) b (advance_subset b hb)⟩
          (fun g hg => hr g (advance_subset g hg)) hn.2 hu.2 (hp.mono m1.ext) h
        have hlook : ∀ g j', es.lookup g = some j' → Entries.lookup g (.cons k j es) = some j' := by
          intro g j' hg
          simp only [Entries.lookup]
          rw [if_neg, hg]
          rintro rfl
          exact hn.1 (lookup_mem hg)
        have hfnew : f.key ∉ new.map (·.key) := by
          intro hmem
          obtain ⟨x, hx, hxk⟩ := List.mem_map.1 hmem
          obtain ⟨g, hg, j', hj', hgk, _⟩ := hok.vals x hx
          have : g = f := hi.key g (advance_subset g hg) f hfm (by rw [hgk, hxk])
          subst this
          have := lookup_mem hj'
          rw [hfk] at this
          exact hn.1 this
        refine ⟨own1 ++ own2, b1 || b2, ⟨f.key, v⟩ :: new, by simp [hF], ?_, ?_, ?_, ?_, ?_⟩
        · refine (m1.mono ?_).trans (hok.marks.mono ?_)
          · rintro x rfl
            exact ⟨f.key, by simp, rfl⟩
          · rintro x ⟨k', hk', rfl⟩
            exact ⟨k', by rw [List.map_cons]; exact List.mem_cons_of_mem _ hk', rfl⟩
        · intro x hx
          rcases List.mem_cons.1 hx with rfl | hx
          · refine ⟨f, hfm, j, by simp [Entries.lookup, hfk], rfl, fun hvis => ?_⟩
            refine (hlk hvis).right m1.ext hok.marks ?_ (hp.link _) (hp.esc_ne _) ?_ hp.esc_old
            · rintro ⟨k', hk', h3⟩
              simp only [VId.field.injEq] at h3
              exact hfnew (h3.2.1 ▸ hk')
            · rintro x ⟨k', _, rfl⟩
              exact hp.link k'
          · obtain ⟨g, hg, j', hj', hgk, hlg⟩ := hok.vals x hx
            refine ⟨g, advance_subset g hg, j', hlook _ _ hj', hgk, fun hvis => ?_⟩
            refine (hlg hvis).left m1 hok.marks.ext ?_ (hp.link _) (hp.esc_ne _) ?_ hp.esc_old
            · intro h3
              simp only [VId.field.injEq] at h3
              exact hfnew (List.mem_map.2 ⟨x, hx, by rw [← hgk, h3.2.1]⟩)
            · rintro x rfl
              exact hp.link _
        · intro g hg hmem
          simp only [Entries.keys, List.mem_cons] at hmem
          rw [List.map_cons]
          by_cases hgk : g.expected = k
          · have : g = f := hi.expected g hg f hfm (by rw [hgk, hfk])
            subst this
            exact List.mem_cons_self
          · exact List.mem_cons_of_mem _ (hok.cover g (mem_advance hg hgk) (hmem.resolve_left hgk))
        · rw [List.map_cons]
          exact List.nodup_cons.2 ⟨hfnew, hok.nodup⟩
        · intro hb
          cases hb1' : b1 with
          | true =>
            exact ⟨f, hfm, (hb1 hb1').1, j, by simp [Entries.lookup, hfk], (hb1 hb1').2⟩
          | false =>
            rw [hb1'] at hb
            obtain ⟨g, hg, hvis, j', hj', hc⟩ := hok.none (by simpa using hb)
            exact ⟨g, advance_subset g hg, hvis, j', hlook _ _ hj', hc⟩
    | none =>
      rw [hf] at h
      have hno : ∀ g ∈ rest, g.expected ≠ k := by
        intro g hg hgk
        have := List.find?_eq_none.1 hf g hg
        simp [hgk] at this
      -- the entry is not a field
      have skip : ∀ found', visit hid par loc oid detect es rest found' acc st = (some (F, det), st') →
          ∃ own b new, F = acc ++ new ∧ VisitOk hid oid (.cons k j es) rest (esc par loc) st st' own b new := by
        intro found' h
        obtain ⟨own, b, new, hF, hok⟩ := visit_ok es loc oid detect rest found' acc st F det st' hi hr hn.2 hu.2 hp h
        have hlook : ∀ g ∈ rest, Entries.lookup g.expected (.cons k j es) = es.lookup g.expected := by
          intro g hg
          simp only [Entries.lookup]
          rw [if_neg (fun h => hno g hg h.symm)]
        refine ⟨own, b, new, hF, hok.marks, ?_, ?_, hok.nodup, ?_⟩
        · intro x hx
          obtain ⟨g, hg, j', hj', h'⟩ := hok.vals x hx
          exact ⟨g, hg, j', by rw [hlook g hg]; exact hj', h'⟩
        · intro g hg hmem
          simp only [Entries.keys, List.mem_cons] at hmem
          exact hok.cover g hg (hmem.resolve_left (hno g hg))
        · intro hb
          obtain ⟨g, hg, hvis, j', hj', hc⟩ := hok.none hb
          exact ⟨g, hg, hvis, j', by rw [hlook g hg]; exact hj', hc⟩
      cases detect with
      | none =>
        simp only at h
        split at h
        · simp at h
        · exact skip _ h
      | some ps =>
        simp only at h
        split at h
        · cases j with
          | leaf l =>
            simp only at h
            split at h
            · exact skip _ h
            · simp at h
          | null => simp at h
          | bad => simp at h
          | list js => simp at h
          | map es' => simp at h
        · split at h
          · simp at h
          · exact skip _ h

end

end Verif.NullProp
