import Verif.Injection.Spec
import Verif.Views.Props

/-!
# Lemmas about injected values
-/

namespace Verif.Injection

open Verif.OpChecks (sortBy sortBy_perm)
open Verif.Views

variable {S : Schema} {leaf : Def → Json → Prop} {subgraph : Nat}

/-! ## Outcomes -/

theorem bind_ok {α β : Type} {x : Out α} {f : α → Out β} {b : β} : x.bind f = .ok b ↔ ∃ a, x = .ok a ∧ f a = .ok b := by
  cases x <;> simp [Out.bind]

theorem forwardList_ok {k : Obj → Out Json} : ∀ {vs : List Val} {js : List Json}, forwardList k vs = .ok js →
    ∀ j ∈ js, ∃ v ∈ vs, forward k v = .ok j
  | [], js, h, j, hj => by
    rw [forwardList] at h
    cases h
    cases hj
  | v :: vs, js, h, j, hj => by
    rw [forwardList] at h
    obtain ⟨x, hx, h⟩ := bind_ok.1 h
    obtain ⟨xs, hxs, rfl⟩ := Views.map_ok.1 h
    rcases List.mem_cons.1 hj with rfl | hj
    · exact ⟨v, List.mem_cons_self, hx⟩
    · obtain ⟨v', hv', h'⟩ := forwardList_ok hxs j hj
      exact ⟨v', List.mem_cons_of_mem _ hv', h'⟩

theorem forward_list_ok {k : Obj → Out Json} {vs : List Val} {j : Json} (h : forward k (.list vs) = .ok j) :
    ∃ js, j = .list js ∧ ∀ x ∈ js, ∃ v ∈ vs, forward k v = .ok x := by
  rw [forward] at h
  obtain ⟨js, hjs, rfl⟩ := Views.map_ok.1 h
  exact ⟨js, rfl, forwardList_ok hjs⟩

/-! ## Values of the response -/

/-- An object of the response that is of type `d`. -/
def ObjOk (S : Schema) (leaf : Def → Json → Prop) (d : Def) (reqs : List (Item Data)) (o : Obj) : Prop :=
  ∃ t ∈ possible S d,
    (∀ i ∈ reqs, ∀ e fs, fieldsOf S e = some fs → i.id ∈ fs → t ∈ possible S e → (o.find i.data.key).isSome = true) ∧
    (∀ i ∈ reqs, ∀ v, o.find i.data.key = some v →
      ValOk S leaf (S.fieldTy i.id).definition (S.fieldTy i.id).wrap i.sub v)

theorem ObjOk.val {d : Def} {reqs : List (Item Data)} {o : Obj} (h : ObjOk S leaf d reqs o) (hd : d.isComposite = true)
    (r : Bool) : ValOk S leaf d (.named r) reqs (.object o.definition o.fields) := by
  obtain ⟨t, ht, h1, h2⟩ := h
  exact .object d r reqs o t hd ht h1 h2

/-- What a value that can be shown is. -/
theorem ValOk.elim {d : Def} {w : Wrap} {reqs : List (Item Data)} {v : Val} (h : ValOk S leaf d w reqs v)
    {k : Obj → Out Json} {j : Json} (hf : forward k v = .ok j) :
    (j = .null ∧ w.isNonNull = false) ∨
    (∃ r w' vs, w = .list r w' ∧ (∀ v ∈ vs, ValOk S leaf d w' reqs v) ∧ forward k (.list vs) = .ok j) ∨
    (∃ r, w = .named r ∧ d.isLeaf = true ∧ leaf d j) ∨
    (∃ r o, w = .named r ∧ d.isComposite = true ∧ ObjOk S leaf d reqs o ∧ k o = .ok j) := by
  induction h with
  | null d w reqs h =>
    rw [forward] at hf
    cases hf
    exact .inl ⟨rfl, h⟩
  | unexpected => rw [forward] at hf; cases hf
  | inaccessible d w reqs v h ih =>
    rw [forward] at hf
    exact ih hf
  | list d r w reqs vs h ih => exact .inr (.inl ⟨r, w, vs, rfl, h, hf⟩)
  | scalar d r reqs v hd h => exact .inr (.inr (.inl ⟨r, rfl, hd, h k j hf⟩))
  | object d r reqs o t hd ht h1 h2 ih =>
    rw [forward] at hf
    exact .inr (.inr (.inr ⟨r, o, rfl, hd, ⟨t, ht, h1, h2⟩, hf⟩))

theorem isNonNull_withoutNonNull (w : Wrap) : w.withoutNonNull.isNonNull = false := by
  cases w <;> rfl

theorem isList_withoutNonNull (w : Wrap) : w.withoutNonNull.isList = w.isList := by
  cases w <;> rfl

theorem ValOk.weaken {d : Def} {w : Wrap} {reqs : List (Item Data)} {v : Val} (h : ValOk S leaf d w reqs v) :
    ValOk S leaf d w.withoutNonNull reqs v := by
  induction h with
  | null d w reqs h => exact .null _ _ _ (isNonNull_withoutNonNull w)
  | unexpected => exact .unexpected _ _ _
  | inaccessible d w reqs v h ih => exact .inaccessible _ _ _ _ ih
  | list d r w reqs vs h ih => exact .list _ _ _ _ _ h
  | scalar d r reqs v hd h => exact .scalar _ _ _ _ hd h
  | object d r reqs o t hd ht h1 h2 ih => exact .object _ _ _ _ t hd ht h1 h2

theorem leaf_not_composite {d : Def} (h : d.isLeaf = true) : d.isComposite = false := by
  cases d <;> first | rfl | cases h

theorem ValOk.upcast {d d' : Def} {w : Wrap} {reqs : List (Item Data)} {v : Val} (h : ValOk S leaf d w reqs v)
    (hd : d.isComposite = true) (hd' : d'.isComposite = true) (hp : ∀ t ∈ possible S d, t ∈ possible S d') :
    ValOk S leaf d' w reqs v := by
  induction h with
  | null d w reqs h => exact .null _ _ _ h
  | unexpected => exact .unexpected _ _ _
  | inaccessible d w reqs v h ih => exact .inaccessible _ _ _ _ (ih hd hp)
  | list d r w reqs vs h ih => exact .list _ _ _ _ _ (fun v hv => ih v hv hd hp)
  | scalar d r reqs v hl h =>
    rw [leaf_not_composite hl] at hd
    cases hd
  | object d r reqs o t _ ht h1 h2 ih => exact .object _ _ _ _ t hd' (hp t ht) h1 h2

/-! ## Paths -/

theorem condition_ok {d d' : Def} {ty : Option String} (h : condition S d ty = .ok d') :
    d' = d ∨ (d.isComposite = true ∧ d'.isComposite = true ∧ ∃ t ∈ possible S d, t ∈ possible S d') := by
  cases ty with
  | none =>
    cases h
    exact .inl rfl
  | some ty =>
    rw [condition] at h
    split at h
    · rename_i hc
      rw [bindTypeCondition] at h
      split at h
      · cases h
      · split at h
        · cases h
        · rename_i he
          split at h
          · cases h
          · rename_i hj
            cases h
            refine .inr ⟨hc, ?_, ?_⟩
            · revert he
              cases d' <;> simp [Def.isEntity, Def.isComposite]
            · simp only [isDisjoint, Bool.not_eq_true', Bool.not_eq_false] at hj
              obtain ⟨t, ht, ht'⟩ := List.any_eq_true.1 hj
              exact ⟨t, ht, by simpa using ht'⟩
    · cases h

theorem condition_val {d d' : Def} {ty : Option String} (h : condition S d ty = .ok d') (ha : Always S d ty)
    {w : Wrap} {reqs : List (Item Data)} {v : Val} (hv : ValOk S leaf d w reqs v) : ValOk S leaf d' w reqs v := by
  rcases condition_ok h with rfl | ⟨h1, h2, _⟩
  · exact hv
  · exact hv.upcast h1 h2 (ha d' h)

theorem fieldsOf_composite {d : Def} {ids : List Nat} (h : fieldsOf S d = some ids) : d.isComposite = true := by
  cases d <;> simp [fieldsOf, Def.isComposite] at *

theorem bindSegments_cons {d : Def} {w : Wrap} {seg : Segment} {segs : List Segment} {fs : List Nat} {ty : Ty}
    (h : bindSegments S d w (seg :: segs) = .ok (fs, ty)) :
    ∃ ids f d' fs', fieldsOf S d = some ids ∧ ids.find? (fun f => S.fieldName f == seg.field) = some f ∧
      condition S (S.fieldTy f).definition seg.ty = .ok d' ∧ fs = f :: fs' ∧
      bindSegments S d' (if w.isNonNull then (S.fieldTy f).wrap else (S.fieldTy f).wrap.withoutNonNull) segs =
        .ok (fs', ty) := by
  rw [bindSegments] at h
  split at h
  · cases h
  · rename_i ids hids
    split at h
    · cases h
    · rename_i f hf
      obtain ⟨d', hd', h⟩ := bind_ok.1 h
      obtain ⟨⟨fs', ty'⟩, hs, heq⟩ := Views.map_ok.1 h
      cases heq
      exact ⟨ids, f, d', fs', hids, hf, hd', rfl, hs⟩

theorem bindSegments_nullable : ∀ {segs : List Segment} {d : Def} {w : Wrap} {fs : List Nat} {ty : Ty},
    bindSegments S d w segs = .ok (fs, ty) → w.isNonNull = false → ty.wrap.isNonNull = false
  | [], d, w, fs, ty, h, hw => by
    cases h
    exact hw
  | seg :: segs, d, w, fs, ty, h, hw => by
    obtain ⟨ids, f, d', fs', _, _, _, _, hs⟩ := bindSegments_cons h
    refine bindSegments_nullable hs ?_
    rw [if_neg (by simp [hw])]
    exact isNonNull_withoutNonNull _

/-- What is at the end of a path. -/
theorem bindSegments_val : ∀ {segs : List Segment} {d : Def} {w : Wrap} {fs : List Nat} {ty : Ty},
    bindSegments S d w segs = .ok (fs, ty) → CleanSegments S d segs → (segs ≠ [] → w.isList = false) →
    ∀ {reqs : List (Item Data)} {v : Val} {k : List (Item Data) → Obj → Out Json} {j : Json}, ValOk S leaf d w reqs v →
      forward (readPath fs k reqs) v = .ok j →
      ∃ reqs' v', ValOk S leaf ty.definition ty.wrap reqs' v' ∧ forward (k reqs') v' = .ok j
  | [], d, w, fs, ty, h, _, _, reqs, v, k, j, hv, hf => by
    cases h
    exact ⟨reqs, v, hv, hf⟩
  | seg :: segs, d, w, fs, ty, h, hc, hl, reqs, v, k, j, hv, hf => by
    obtain ⟨ids, f, d', fs', hids, hfind, hcond, rfl, hs⟩ := bindSegments_cons h
    obtain ⟨hc1, hc2, hc3⟩ := hc ids f d' hids hfind hcond
    rcases hv.elim hf with ⟨rfl, hw⟩ | ⟨r, w', vs, rfl, _⟩ | ⟨r, _, hleaf, _⟩ | ⟨r, o, rfl, hcomp, ho, hk⟩
    · exact ⟨[], .null, .null _ _ _ (bindSegments_nullable h hw), rfl⟩
    · cases hl (by simp)
    · have := leaf_not_composite hleaf
      rw [fieldsOf_composite hids] at this
      cases this
    · rw [readPath] at hk
      split at hk
      · cases hk
      · rename_i i hi
        split at hk
        · cases hk
        · rename_i v1 hv1
          have himem := List.mem_of_find?_eq_some hi
          have hid : i.id = f := by simpa using List.find?_some hi
          obtain ⟨t, _, _, htyped⟩ := ho
          have hv1' := htyped i himem v1 hv1
          rw [hid] at hv1'
          refine bindSegments_val hs hc3 ?_ ?_ hk
          · intro hne
            split
            · exact hc1 hne
            · rw [isList_withoutNonNull]
              exact hc1 hne
          · split
            · exact condition_val hcond hc2 hv1'
            · exact condition_val hcond hc2 hv1'.weaken

theorem bindPath_ok {source : Ty} {p : Path} {fs : List Nat} {ty : Ty} (h : bindPath S source p = .ok (fs, ty)) :
    source.wrap.isList = false ∧ source.definition.isComposite = true ∧
    ∃ d, condition S source.definition p.ty = .ok d ∧ bindSegments S d source.wrap p.segments = .ok (fs, ty) := by
  rw [bindPath] at h
  split at h
  · cases h
  · rename_i h1
    split at h
    · cases h
    · rename_i h2
      obtain ⟨d, hd, hs⟩ := bind_ok.1 h
      exact ⟨by simpa using h1, by simpa using h2, d, hd, hs⟩

theorem bindPath_val {source : Ty} {p : Path} {fs : List Nat} {ty : Ty} (h : bindPath S source p = .ok (fs, ty))
    (hc : CleanPath S source p) {reqs : List (Item Data)} {v : Val} {k : List (Item Data) → Obj → Out Json} {j : Json}
    (hv : ValOk S leaf source.definition source.wrap reqs v) (hf : forward (readPath fs k reqs) v = .ok j) :
    ∃ reqs' v', ValOk S leaf ty.definition ty.wrap reqs' v' ∧ forward (k reqs') v' = .ok j := by
  obtain ⟨hl, _, d, hd, hs⟩ := bindPath_ok h
  exact bindSegments_val hs (hc.2.2 d hd) (fun _ => hl) (condition_val hd hc.2.1 hv) hf

theorem bindPathOpt_val {source : Ty} {p : Option Path} {fs : List Nat} {ty : Ty}
    (h : bindPathOpt S source p = .ok (fs, ty)) (hc : CleanPathOpt S source p) {reqs : List (Item Data)} {v : Val}
    {k : List (Item Data) → Obj → Out Json} {j : Json}
    (hv : ValOk S leaf source.definition source.wrap reqs v) (hf : forward (readPath fs k reqs) v = .ok j) :
    ∃ reqs' v', ValOk S leaf ty.definition ty.wrap reqs' v' ∧ forward (k reqs') v' = .ok j := by
  cases p with
  | none =>
    cases h
    exact ⟨reqs, v, hv, hf⟩
  | some p => exact bindPath_val h hc hv hf

/-- The first field of a path is a field of all objects of the source. -/
def First (S : Schema) (d : Def) (p : List Nat) : Prop :=
  ∀ f rest, p = f :: rest → ∃ e ids, fieldsOf S e = some ids ∧ f ∈ ids ∧ ∀ t ∈ possible S d, t ∈ possible S e

theorem bindPath_first {source : Ty} {p : Path} {fs : List Nat} {ty : Ty} (h : bindPath S source p = .ok (fs, ty))
    (hc : CleanPath S source p) : fs ≠ [] ∧ First S source.definition fs := by
  obtain ⟨_, _, d, hd, hs⟩ := bindPath_ok h
  obtain ⟨hne, ha, _⟩ := hc
  cases hsegs : p.segments with
  | nil => exact absurd hsegs hne
  | cons seg segs =>
    rw [hsegs] at hs
    obtain ⟨ids, f, d', fs', hids, hfind, _, rfl, _⟩ := bindSegments_cons hs
    refine ⟨by simp, fun g rest hg => ?_⟩
    cases hg
    exact ⟨d, ids, hids, List.mem_of_find?_eq_some hfind, ha d hd⟩

theorem bindSegments_last : ∀ {segs : List Segment} {d : Def} {w : Wrap} {fs : List Nat} {ty : Ty} {last : Nat},
    bindSegments S d w segs = .ok (fs, ty) → fs.getLast? = some last →
    ty.definition = (S.fieldTy last).definition ∨ (S.fieldTy last).definition.isComposite = true
  | [], d, w, fs, ty, last, h, hl => by
    cases h
    cases hl
  | seg :: segs, d, w, fs, ty, last, h, hl => by
    obtain ⟨ids, f, d', fs', _, _, hcond, rfl, hs⟩ := bindSegments_cons h
    cases segs with
    | nil =>
      cases hs
      cases hl
      rcases condition_ok hcond with rfl | ⟨h1, _⟩
      · exact .inl rfl
      · exact .inr h1
    | cons seg' segs' =>
      obtain ⟨ids', f', d'', fs'', _, _, _, rfl, _⟩ := bindSegments_cons hs
      rw [List.getLast?_cons_cons] at hl
      exact bindSegments_last hs hl

/-! ## Scalars -/

theorem compatible_ok {source : Ty} {t : Nat} {w : Wrap} (h : compatible S source t w = true) :
    w.lenient source.wrap = true ∧ (S.input t).ty.definition = source.definition ∧ source.definition.isLeaf = true := by
  rw [compatible, Bool.and_eq_true] at h
  refine ⟨h.1, ?_⟩
  have h2 := h.2
  revert h2
  cases (S.input t).ty.definition <;> cases source.definition <;> simp [Def.isLeaf]

theorem lenient_admits {d : Def} (hd : d.isLeaf = true) : ∀ {w w' : Wrap}, w.lenient w' = true →
    ∀ {reqs : List (Item Data)} {v : Val} {k : Obj → Out Json} {j : Json}, ValOk S leaf d w' reqs v →
      forward k v = .ok j → Admits S leaf subgraph d w j
  | w, w', hw, reqs, v, k, j, hv, hf => by
    rcases hv.elim hf with ⟨rfl, hn⟩ | ⟨r, w1, vs, rfl, hvs, hl⟩ | ⟨r, rfl, _, hj⟩ | ⟨_, _, _, hc, _⟩
    · refine .null _ _ ?_
      revert hw hn
      cases w <;> cases w' <;> simp [Wrap.lenient, Wrap.isNonNull]
      · intro h1 h2
        subst h2
        simpa using h1
      · intro h1 _ h2
        subst h2
        simpa using h1
    · cases w with
      | named => cases hw
      | list r0 w0 =>
        obtain ⟨js, rfl, hjs⟩ := forward_list_ok hl
        refine .list _ _ _ _ fun x hx => ?_
        obtain ⟨v', hv', hx'⟩ := hjs x hx
        have hw' : w0.lenient w1 = true := by
          rw [Wrap.lenient, Bool.and_eq_true] at hw
          exact hw.2
        exact lenient_admits hd hw' (hvs v' hv') hx'
    · cases w with
      | named r0 => exact .scalar _ _ _ hd hj
      | list => cases hw
    · rw [leaf_not_composite hd] at hc
      cases hc

theorem nonNull_forward (hleaf : ∀ d, ¬ leaf d .null) {d : Def} {w : Wrap} {reqs : List (Item Data)} {v : Val}
    (hv : ValOk S leaf d w reqs v) (hw : w.isNonNull = true) {k : Obj → Out Json} {j : Json}
    (hf : forward k v = .ok j) (hk : w.isList = false → d.isComposite = true → ∀ o, ObjOk S leaf d reqs o → k o ≠ .ok .null) :
    j ≠ .null := by
  rintro rfl
  rcases hv.elim hf with ⟨_, hn⟩ | ⟨r, w1, vs, rfl, hvs, hl⟩ | ⟨r, rfl, _, hj⟩ | ⟨_, o, rfl, hc, ho, hko⟩
  · rw [hw] at hn; cases hn
  · obtain ⟨js, h, _⟩ := forward_list_ok hl
    cases h
  · exact hleaf d hj
  · exact hk rfl hc o ho hko

/-! ## Objects -/

theorem asObject_ok {t : Nat} {oneOf : Bool} {targets : List Nat} (h : asObject S subgraph t = some (oneOf, targets)) :
    ∃ id, (S.input t).ty.definition = .input id ∧ oneOf = S.oneOf id ∧ targets = known S subgraph id ∧
      isOneOf S t = oneOf := by
  rw [asObject] at h
  split at h
  · rename_i id hid
    cases h
    refine ⟨id, hid, rfl, ?_, ?_⟩
    · rw [known]
      apply List.filter_congr
      intro i _
      cases (S.input i).internal with
      | none => simp
      | some s => by_cases h : s = subgraph <;> simp [h]
    · rw [isOneOf, hid]
  · cases h

theorem admits_object (hS : S.Ok leaf) (id : Nat) (r : Bool) (l : List (Nat × Json)) (h1 : (l.map (·.1)).Nodup)
    (h2 : ∀ p ∈ l, p.1 ∈ known S subgraph id)
    (h3 : ∀ p ∈ l, Admits S leaf subgraph (S.input p.1).ty.definition (S.input p.1).ty.wrap p.2)
    (h4 : ∀ i ∈ known S subgraph id, (S.input i).default = none → (S.input i).ty.wrap.isNonNull = true → i ∈ l.map (·.1))
    (h5 : S.oneOf id = true → ∃ p, l = [p] ∧ p.2 ≠ .null) :
    Admits S leaf subgraph (.input id) (.named r) (.obj (l.map fun p => ((S.input p.1).name, p.2))) := by
  have hinj : ∀ i ∈ known S subgraph id, ∀ j ∈ known S subgraph id, (S.input i).name = (S.input j).name → i = j :=
    fun i hi j hj => hS.names id i (List.mem_filter.1 hi).1 j (List.mem_filter.1 hj).1
  let ids : String → Nat := fun s => ((known S subgraph id).find? (fun i => (S.input i).name == s)).getD 0
  have hids : ∀ i ∈ known S subgraph id, ids (S.input i).name = i := by
    intro i hi
    show ((known S subgraph id).find? _).getD 0 = i
    cases hf : (known S subgraph id).find? (fun k => (S.input k).name == (S.input i).name) with
    | none =>
      have := List.find?_eq_none.1 hf i hi
      simp at this
    | some k =>
      have hk := List.mem_of_find?_eq_some hf
      have := List.find?_some hf
      exact hinj k hk i hi (by simpa using this)
  refine .object id r _ ids ?_ ?_ ?_ ?_ ?_
  · rw [List.map_map]
    show (l.map (fun p => (S.input p.1).name)).Nodup
    have : l.map (fun p => (S.input p.1).name) = (l.map (·.1)).map (fun i => (S.input i).name) := by
      rw [List.map_map]; rfl
    rw [this, List.Nodup, List.pairwise_map]
    refine List.Pairwise.imp_of_mem ?_ h1
    intro a b ha hb hne heq
    obtain ⟨p, hp, rfl⟩ := List.mem_map.1 ha
    obtain ⟨q, hq, rfl⟩ := List.mem_map.1 hb
    exact hne (hinj _ (h2 p hp) _ (h2 q hq) heq)
  · intro e he
    obtain ⟨p, hp, rfl⟩ := List.mem_map.1 he
    simp only
    rw [hids _ (h2 p hp)]
    exact ⟨h2 p hp, rfl⟩
  · intro e he
    obtain ⟨p, hp, rfl⟩ := List.mem_map.1 he
    simp only
    rw [hids _ (h2 p hp)]
    exact h3 p hp
  · intro i hi hd hn
    rw [List.map_map]
    obtain ⟨p, hp, rfl⟩ := List.mem_map.1 (h4 i hi hd hn)
    exact List.mem_map.2 ⟨p, hp, rfl⟩
  · intro ho
    obtain ⟨p, rfl, hp⟩ := h5 ho
    exact ⟨_, rfl, hp⟩

theorem swapRemove_perm (l : List Nat) (i : Nat) (t : Nat) (h : l[i]? = some t) : (t :: swapRemove l i).Perm l := by
  rcases List.eq_nil_or_concat l with rfl | ⟨init, last, rfl⟩
  · simp at h
  · rw [swapRemove, List.concat_eq_append, List.getLast?_concat]
    simp only
    rw [List.concat_eq_append] at h
    by_cases hi : i < init.length
    · rw [List.set_append_left _ _ hi, List.dropLast_concat]
      rw [List.getElem?_append_left hi] at h
      have hti : init[i] = t := by
        rw [List.getElem?_eq_getElem hi] at h
        exact Option.some.inj h
      have h1 : init = init.take i ++ t :: init.drop (i + 1) := by
        rw [← hti]
        simp
      have h2 : init.set i last = init.take i ++ last :: init.drop (i + 1) := by
        rw [List.set_eq_take_append_cons_drop, if_pos hi]
      rw [h2]
      conv => rhs; rw [h1]
      rw [List.append_assoc, List.cons_append]
      refine List.Perm.trans ?_ List.perm_middle.symm
      refine List.Perm.cons _ ?_
      refine List.perm_middle.trans ?_
      refine (List.perm_append_comm (l₁ := [last])).trans ?_
      rw [← List.append_assoc]
      exact List.Perm.refl _
    · rw [List.getElem?_append_right (by omega)] at h
      have hlen : i = init.length := by
        rcases Nat.lt_or_ge (i - init.length) 1 with h' | h'
        · omega
        · rw [List.getElem?_eq_none (by simpa using h')] at h
          cases h
      subst hlen
      simp at h
      subst h
      rw [List.set_append_right _ _ (Nat.le_refl _)]
      simp only [Nat.sub_self, List.set_cons_zero, List.dropLast_concat]
      exact (List.perm_append_comm (l₁ := [last]))

theorem takeField_ok {targets : List Nat} {key : String} {t : Nat} {left : List Nat}
    (h : takeField S targets key = some (t, left)) : (S.input t).name = key ∧ (t :: left).Perm targets := by
  rw [takeField] at h
  split at h
  · cases h
  · rename_i ix hix
    split at h
    · cases h
    · rename_i t' ht'
      cases h
      refine ⟨?_, swapRemove_perm _ _ _ ht'⟩
      obtain ⟨hlt, hp, _⟩ := List.findIdx?_eq_some_iff_getElem.1 hix
      rw [List.getElem?_eq_getElem hlt] at ht'
      cases ht'
      simpa using hp

theorem missing_ok : ∀ {left present : List Nat} {added : List (Nat × Json)}, missing S present left = .ok added →
    left.Nodup → (∀ t ∈ left, t ∉ present) →
    (added.map (·.1)).Sublist left ∧ (∀ p ∈ added, (S.input p.1).default = some p.2) ∧
    (∀ t ∈ left, (S.input t).default = none → (S.input t).ty.wrap.isNonNull = false) ∧
    (∀ t ∈ left, t ∈ added.map (·.1) ∨ (S.input t).default = none)
  | [], present, added, h, _, _ => by
    cases h
    simp
  | t :: ts, present, added, h, hn, hp => by
    rw [missing] at h
    have htp := hp t List.mem_cons_self
    rw [if_neg (by simpa using htp)] at h
    have hn' := List.nodup_cons.1 hn
    split at h
    · rename_i j hj
      obtain ⟨rest, hr, rfl⟩ := Views.map_ok.1 h
      obtain ⟨h1, h2, h3, h4⟩ := missing_ok hr hn'.2 (by
        intro x hx hx'
        rcases List.mem_append.1 hx' with h' | h'
        · exact hp x (List.mem_cons_of_mem _ hx) h'
        · rw [List.mem_singleton.1 h'] at hx
          exact hn'.1 hx)
      refine ⟨by simpa using h1, ?_, ?_, ?_⟩
      · intro p hp'
        rcases List.mem_cons.1 hp' with rfl | hp'
        · exact hj
        · exact h2 p hp'
      · intro x hx hd
        rcases List.mem_cons.1 hx with rfl | hx
        · rw [hj] at hd; cases hd
        · exact h3 x hx hd
      · intro x hx
        rcases List.mem_cons.1 hx with rfl | hx
        · exact .inl (by simp)
        · rcases h4 x hx with h' | h'
          · exact .inl (by rw [List.map_cons]; exact List.mem_cons_of_mem _ h')
          · exact .inr h'
    · rename_i hj
      split at h
      · cases h
      · rename_i hnn
        obtain ⟨h1, h2, h3, h4⟩ := missing_ok h hn'.2 (fun x hx => hp x (List.mem_cons_of_mem _ hx))
        refine ⟨h1.cons _, h2, ?_, ?_⟩
        · intro x hx hd
          rcases List.mem_cons.1 hx with rfl | hx
          · simpa using hnn
          · exact h3 x hx hd
        · intro x hx
          rcases List.mem_cons.1 hx with rfl | hx
          · exact .inr hj
          · exact h4 x hx

/-- The entries of an object, from the entries of its fields. -/
theorem inOrder_pairs {α : Type} (name : α → String) {Q : α → Json → Prop} : ∀ {L : List (α × Out (List (String × Json)))}
    {es : List (String × Json)}, inOrder (L.map (·.2)) = .ok es →
    (∀ x ∈ L, ∀ e, x.2 = .ok e → ∃ j, e = [(name x.1, j)] ∧ Q x.1 j) →
    ∃ l : List (α × Json), es = l.map (fun p => (name p.1, p.2)) ∧ l.map (·.1) = L.map (·.1) ∧ ∀ p ∈ l, Q p.1 p.2
  | [], es, h, _ => by
    cases h
    exact ⟨[], rfl, rfl, by simp⟩
  | x :: L, es, h, hQ => by
    rw [List.map_cons, inOrder] at h
    obtain ⟨e, he, h⟩ := bind_ok.1 h
    obtain ⟨es', hes, rfl⟩ := Views.map_ok.1 h
    obtain ⟨j, rfl, hj⟩ := hQ x List.mem_cons_self e he
    obtain ⟨l, rfl, hl1, hl2⟩ := inOrder_pairs name hes (fun y hy => hQ y (List.mem_cons_of_mem _ hy))
    refine ⟨(x.1, j) :: l, rfl, by simp [hl1], ?_⟩
    intro p hp
    rcases List.mem_cons.1 hp with rfl | hp
    · exact hj
    · exact hl2 p hp

theorem entriesOf_eq_map (names : Nat → String) (reqs : List (Item Data)) (o : Obj) : ∀ fields : List (Nat × FieldSel),
    entriesOf names fields reqs o = fields.map (fun f => entryOf names f reqs o)
  | [] => rfl
  | f :: fs => by rw [entriesOf, entriesOf_eq_map names reqs o fs]; rfl

theorem entryOf_key (names : Nat → String) (reqs : List (Item Data)) (o : Obj) (f : Nat × FieldSel) :
    (entryOf names f reqs o).1.2 = f.1 := by
  obtain ⟨key, f⟩ := f
  cases f <;> rfl

theorem entryAt_there {name : String} {k : List (Item Data) → Obj → Out Json} {d : Def} {p : List Nat}
    {reqs : List (Item Data)} {o : Obj} (hp : First S d p) (ho : ObjOk S leaf d reqs o) :
    entryAt name k p reqs o = (readPath p k reqs o).map (fun j => [(name, j)]) := by
  cases p with
  | nil => rfl
  | cons f rest =>
    rw [entryAt, readPath]
    cases hi : reqs.find? (fun r => r.id == f) with
    | none => rfl
    | some i =>
      simp only
      cases hv : o.find i.data.key with
      | some v => rfl
      | none =>
        exfalso
        obtain ⟨t, ht, h1, _⟩ := ho
        obtain ⟨e, ids, he, hf, hsub⟩ := hp f rest rfl
        have hid : i.id = f := by simpa using List.find?_some hi
        have := h1 i (List.mem_of_find?_eq_some hi) e ids he (by rw [hid]; exact hf) (hsub t ht)
        rw [hv] at this
        cases this

mutual

theorem endOf_ne_null (names : Nat → String) : ∀ (s : Sel) (reqs : List (Item Data)) (o : Obj),
    endOf names s reqs o ≠ .ok .null
  | .identity, _, _, h => by rw [endOf] at h; cases h
  | .path _ _, _, _, h => by rw [endOf] at h; cases h
  | .object _ fields, reqs, o, h => by
    rw [endOf] at h
    obtain ⟨es, _, h⟩ := Views.map_ok.1 h
    cases h
  | .list _ item, reqs, o, h => by
    rw [endOf] at h
    exact endOf_ne_null names item reqs o h
  | .several, _, _, h => by rw [endOf] at h; cases h

end

theorem readPath_append (k : List (Item Data) → Obj → Out Json) (q : List Nat) : ∀ p : List Nat,
    readPath (p ++ q) k = readPath p (readPath q k)
  | [] => by
    funext reqs o
    rfl
  | f :: p => by
    funext reqs o
    rw [List.cons_append, readPath, readPath, readPath_append k q p]

end Verif.Injection
