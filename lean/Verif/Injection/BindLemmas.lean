import Verif.Injection.Lemmas

/-!
# Bound selections give values of the type of their target
-/

namespace Verif.Injection

open Verif.OpChecks (sortBy sortBy_perm)
open Verif.Views

variable {S : Schema} {leaf : Def → Json → Prop} {subgraph : Nat}

/-- The names of the input values. -/
def nameOf (S : Schema) (i : Nat) : String := (S.input i).name

theorem known_nodup (hS : S.Ok leaf) (id : Nat) : (known S subgraph id).Nodup :=
  List.Pairwise.filter _ (hS.ids id)

/-- An object made of the fields of a selection and the defaults of what it leaves. -/
theorem assemble (hS : S.Ok leaf) {id : Nat} (r : Bool) {B left : List Nat} {added l : List (Nat × Json)}
    (hm : missing S B left = .ok added) (hB : (B ++ left).Perm (known S subgraph id))
    (hl : (l.map (·.1)).Perm (B ++ added.map (·.1)))
    (hQ : ∀ p ∈ l, Admits S leaf subgraph (S.input p.1).ty.definition (S.input p.1).ty.wrap p.2 ∧
      (S.oneOf id = true → p.2 ≠ .null))
    (h1 : S.oneOf id = true → B.length = 1) :
    Admits S leaf subgraph (.input id) (.named r) (.obj (l.map fun p => ((S.input p.1).name, p.2))) := by
  have hnd : (B ++ left).Nodup := hB.nodup_iff.2 (known_nodup hS id)
  have hnd' := List.nodup_append.1 hnd
  obtain ⟨m1, m2, m3, m4⟩ := missing_ok hm hnd'.2.1 (fun t ht hb => hnd'.2.2 t hb t ht rfl)
  have hsub : (B ++ added.map (·.1)).Sublist (B ++ left) := List.Sublist.append (List.Sublist.refl _) m1
  have hmem : ∀ i ∈ l.map (·.1), i ∈ known S subgraph id := fun i hi => hB.mem_iff.1 (hsub.subset (hl.mem_iff.1 hi))
  refine admits_object hS id r l (hl.nodup_iff.2 (hsub.nodup hnd)) (fun p hp => hmem _ (List.mem_map.2 ⟨p, hp, rfl⟩))
    (fun p hp => (hQ p hp).1) ?_ ?_
  · intro i hi hd hn
    rcases List.mem_append.1 (hB.mem_iff.2 hi) with h | h
    · exact hl.mem_iff.2 (List.mem_append_left _ h)
    · rw [m3 i h hd] at hn
      cases hn
  · intro ho
    have hadd : added = [] := by
      cases hadd : added with
      | nil => rfl
      | cons p ps =>
        exfalso
        have hp : p ∈ added := by rw [hadd]; exact List.mem_cons_self
        have h' := m2 p hp
        have : p.1 ∈ known S subgraph id :=
          hB.mem_iff.1 (List.mem_append_right _ (m1.subset (List.mem_map.2 ⟨p, hp, rfl⟩)))
        rw [hS.oneOf id ho p.1 (List.mem_filter.1 this).1] at h'
        cases h'
    have hlen : l.length = 1 := by
      have := hl.length_eq
      rw [hadd] at this
      simp [h1 ho] at this
      exact this
    cases l with
    | nil => cases hlen
    | cons p ps =>
      cases ps with
      | nil => exact ⟨p, rfl, (hQ p List.mem_cons_self).2 ho⟩
      | cons => simp at hlen

/-- What is selected is of the type of the target. -/
def Good (S : Schema) (leaf : Def → Json → Prop) (subgraph : Nat) (source : Ty) (t : Nat) (w : Wrap) (s : Sel) : Prop :=
  ∀ reqs v j, ValOk S leaf source.definition source.wrap reqs v → forward (meaning (nameOf S) s reqs) v = .ok j →
    Admits S leaf subgraph (S.input t).ty.definition w j

def NeverNull (S : Schema) (leaf : Def → Json → Prop) (source : Ty) (s : Sel) : Prop :=
  ∀ reqs v j, ValOk S leaf source.definition source.wrap reqs v → forward (meaning (nameOf S) s reqs) v = .ok j →
    j ≠ .null

/-- What is selected for a field is there and of its type. -/
def FieldGood (S : Schema) (leaf : Def → Json → Prop) (subgraph : Nat) (d : Def) (oneOf : Bool) (b : Nat × FieldSel) : Prop :=
  ∀ reqs o, ObjOk S leaf d reqs o → ∀ e, (entryOf (nameOf S) b reqs o).2 = .ok e →
    ∃ j, e = [(nameOf S b.1, j)] ∧ Admits S leaf subgraph (S.input b.1).ty.definition (S.input b.1).ty.wrap j ∧
      (oneOf = true → j ≠ .null)

theorem shortField_good (hS : S.Ok leaf) {source : Ty} {t : Nat} {key : String} {f : FieldSel} {oneOf : Bool}
    (h : shortField S source t key = .ok f) (hc : CleanField S subgraph source oneOf (.short key)) :
    FieldGood S leaf subgraph source.definition oneOf (t, f) := by
  rw [shortField] at h
  split at h
  · cases h
  · split at h
    · cases h
    · rename_i ids hids
      split at h
      · cases h
      · rename_i g hg
        split at h
        · rename_i hcomp
          cases h
          obtain ⟨c1, c2, c3⟩ := compatible_ok hcomp
          intro reqs o ho e he
          rw [entryOf, entryAt_there (d := source.definition) ?_ ho] at he
          · obtain ⟨j, hj, rfl⟩ := Views.map_ok.1 he
            refine ⟨j, rfl, ?_⟩
            rw [readPath] at hj
            split at hj
            · cases hj
            · rename_i i hi
              split at hj
              · cases hj
              · rename_i v hv
                have hid : i.id = g := by simpa using List.find?_some hi
                obtain ⟨ty, _, _, typed⟩ := ho
                have hval := typed i (List.mem_of_find?_eq_some hi) v hv
                rw [hid] at hval
                simp only
                rw [c2]
                refine ⟨lenient_admits c3 c1 hval hj, fun hone => ?_⟩
                rw [CleanField] at hc
                exact nonNull_forward hS.leaf hval (hc hone ids g hids hg) hj
                  (fun _ hcomp' => by rw [leaf_not_composite c3] at hcomp'; cases hcomp')
          · intro f' rest hfr
            cases hfr
            exact ⟨source.definition, ids, hids, List.mem_of_find?_eq_some hg, fun _ h => h⟩
        · cases h

theorem value_good {source : Ty} {t : Nat} {s : Sel} {oneOf : Bool} (hl : source.wrap.isList = false)
    (hd : source.definition.isComposite = true) (hg : Good S leaf subgraph source t (S.input t).ty.wrap s)
    (hf : First S source.definition (spine s)) (hn : oneOf = true → NeverNull S leaf source s) :
    FieldGood S leaf subgraph source.definition oneOf (t, .value s) := by
  intro reqs o ho e he
  rw [entryOf, entryAt_there hf ho] at he
  obtain ⟨j, hj, rfl⟩ := Views.map_ok.1 he
  have hv : ValOk S leaf source.definition source.wrap reqs (.object o.definition o.fields) := by
    cases hw : source.wrap with
    | named r => exact ho.val hd r
    | list => rw [hw] at hl; cases hl
  have hfw : forward (meaning (nameOf S) s reqs) (.object o.definition o.fields) = .ok j := by
    rw [forward]
    exact hj
  exact ⟨j, rfl, hg reqs _ j hv hfw, fun ho' => hn ho' reqs _ j hv hfw⟩

theorem bindPathOpt_first {source : Ty} {p : Option Path} {fs : List Nat} {ty : Ty}
    (h : bindPathOpt S source p = .ok (fs, ty)) (hc : CleanPathOpt S source p) :
    (fs = [] ∧ ty = source) ∨ (fs ≠ [] ∧ First S source.definition fs) := by
  cases p with
  | none =>
    cases h
    exact .inl ⟨rfl, rfl⟩
  | some p => exact .inr (bindPath_first h hc)

theorem First.append {d : Def} {p q : List Nat} (h : First S d p) (hne : p ≠ []) : First S d (p ++ q) := by
  cases p with
  | nil => exact absurd rfl hne
  | cons f p =>
    intro g rest hg
    cases hg
    exact h f p rfl

mutual

theorem bindSelected_good (hS : S.Ok leaf) : ∀ (value : Value) (source : Ty) (t : Nat) (w : Wrap) (ss : List Sel),
    bindSelected S subgraph source t w value = .ok ss → CleanValue S subgraph source t w value →
    Good S leaf subgraph source t w (single ss) ∧ First S source.definition (spine (single ss)) ∧
      (NonNullValue S source value → NeverNull S leaf source (single ss))
  | .mk alternatives, source, t, w, ss, h, hc => by
    rw [bindSelected] at h
    rw [CleanValue] at hc
    obtain ⟨h1, h2, h3⟩ := bindAlternatives_good hS alternatives source t w ss h hc
    exact ⟨h1, h2, fun hn => h3 hn⟩

theorem bindAlternatives_good (hS : S.Ok leaf) : ∀ (es : List Entry) (source : Ty) (t : Nat) (w : Wrap) (ss : List Sel),
    bindAlternatives S subgraph source t w es = .ok ss → CleanSingle S subgraph source t w es →
    Good S leaf subgraph source t w (single ss) ∧ First S source.definition (spine (single ss)) ∧
      ((∀ e ∈ es, NonNullEntry S source e) → NeverNull S leaf source (single ss))
  | [], source, t, w, ss, h, hc => by
    rw [CleanSingle] at hc
    exact hc.elim
  | e :: es, source, t, w, ss, h, hc => by
    rw [CleanSingle] at hc
    obtain ⟨hc, rfl⟩ := hc
    rw [bindAlternatives] at h
    obtain ⟨s, hs, h⟩ := bind_ok.1 h
    rw [bindAlternatives] at h
    cases h
    obtain ⟨h1, h2, h3⟩ := bindEntry_good hS e source t w s hs hc
    exact ⟨h1, h2, fun hn => h3 (hn e List.mem_cons_self)⟩

theorem bindEntry_good (hS : S.Ok leaf) : ∀ (e : Entry) (source : Ty) (t : Nat) (w : Wrap) (s : Sel),
    bindEntry S subgraph source t w e = .ok s → CleanEntry S subgraph source t w e →
    Good S leaf subgraph source t w s ∧ First S source.definition (spine s) ∧
      (NonNullEntry S source e → NeverNull S leaf source s)
  | .identity, source, t, w, s, h, _ => by
    rw [bindEntry] at h
    split at h
    · rename_i hcomp
      cases h
      obtain ⟨c1, c2, c3⟩ := compatible_ok hcomp
      refine ⟨?_, fun f rest hf => (by cases hf), ?_⟩
      · intro reqs v j hv hj
        rw [c2]
        exact lenient_admits c3 c1 hv hj
      · intro hn reqs v j hv hj
        exact nonNull_forward hS.leaf hv hn hj (fun _ hc => by rw [leaf_not_composite c3] at hc; cases hc)
    · cases h
  | .path p, source, t, w, s, h, hc => by
    rw [bindEntry] at h
    rw [CleanEntry] at hc
    obtain ⟨hc1, hc2⟩ := hc
    obtain ⟨⟨fs, ty⟩, hp, h⟩ := bind_ok.1 h
    simp only at h
    split at h
    · rename_i first rest last hlast
      split at h
      · rename_i hcomp
        cases h
        obtain ⟨_, c2, c3⟩ := compatible_ok hcomp
        have hdef : ty.definition = (S.fieldTy last).definition := by
          obtain ⟨_, _, d, _, hs⟩ := bindPath_ok hp
          rcases bindSegments_last hs hlast with h' | h'
          · exact h'
          · rw [leaf_not_composite c3] at h'
            cases h'
        refine ⟨?_, (bindPath_first hp hc1).2, ?_⟩
        · intro reqs v j hv hj
          obtain ⟨reqs', v', hv', hj'⟩ := bindPath_val hp hc1 hv hj
          rw [hdef] at hv'
          rw [c2]
          exact lenient_admits c3 (hc2 _ _ hp) hv' hj'
        · intro hn reqs v j hv hj
          obtain ⟨reqs', v', hv', hj'⟩ := bindPath_val hp hc1 hv hj
          exact nonNull_forward hS.leaf hv' (hn _ _ hp) hj' (fun _ hc => by
            rw [hdef, leaf_not_composite c3] at hc; cases hc)
      · cases h
    · cases h
  | .object path fields, source, t, w, s, h, hc => by
    rw [bindEntry] at h
    rw [CleanEntry] at hc
    obtain ⟨hc1, hc2, hc3⟩ := hc
    obtain ⟨⟨fs, source'⟩, hp, h⟩ := bind_ok.1 h
    obtain ⟨hl, hd, hc3⟩ := hc3 fs source' hp
    simp only at h
    split at h
    · cases h
    rename_i hwl
    split at h
    · cases h
    rename_i hnn
    split at h
    · cases h
    rename_i oneOf targets hobj
    obtain ⟨id, hid, rfl, rfl, hone⟩ := asObject_ok hobj
    obtain ⟨⟨bound, left⟩, hb, h⟩ := bind_ok.1 h
    simp only at h
    split at h
    · cases h
    rename_i hmany
    obtain ⟨added, hadd, rfl⟩ := Views.map_ok.1 h
    rw [hone] at hc3 hc2
    obtain ⟨b1, b2, b3⟩ := bindFields_good hS fields source' _ bound left (S.oneOf id) hb hc3 hl hd
    refine ⟨?_, ?_, ?_⟩
    · intro reqs v j hv hj
      obtain ⟨reqs', v', hv', hj'⟩ := bindPathOpt_val hp hc1 hv hj
      have hwn : ∃ r, w = .named r := by
        cases w with
        | named r => exact ⟨r, rfl⟩
        | list => exact absurd rfl hwl
      obtain ⟨r, rfl⟩ := hwn
      rcases hv'.elim hj' with ⟨rfl, hn⟩ | ⟨r', w', vs, hw', _⟩ | ⟨_, _, hleaf, _⟩ | ⟨_, o, _, _, ho, hko⟩
      · refine .null _ _ ?_
        rw [hn] at hnn
        simpa using hnn
      · rw [hw'] at hl
        cases hl
      · rw [leaf_not_composite hleaf] at hd
        cases hd
      · rw [endOf] at hko
        obtain ⟨es, hes, rfl⟩ := Views.map_ok.1 hko
        have hperm := sortBy_perm (fun a b : (Option Nat × Nat) × Out (List (String × Json)) => keyLe a.1 b.1)
          (entriesOf (nameOf S) (bound ++ added.map fun (i, j) => (i, FieldSel.default j)) reqs' o)
        obtain ⟨l, rfl, hl1, hl2⟩ := inOrder_pairs (fun k => nameOf S k.2)
          (Q := fun k j => Admits S leaf subgraph (S.input k.2).ty.definition (S.input k.2).ty.wrap j ∧
            (S.oneOf id = true → j ≠ .null)) hes (by
          intro x hx e he
          rw [hperm.mem_iff, entriesOf_eq_map] at hx
          obtain ⟨f, hf, rfl⟩ := List.mem_map.1 hx
          rw [entryOf_key]
          rcases List.mem_append.1 hf with hf | hf
          · exact b3 f hf reqs' o ho e he
          · obtain ⟨⟨i, jd⟩, hi, rfl⟩ := List.mem_map.1 hf
            rw [entryOf] at he
            cases he
            have hnd : (bound.map (·.1) ++ left).Nodup := b1.nodup_iff.2 (known_nodup hS id)
            have hnd' := List.nodup_append.1 hnd
            obtain ⟨m1, m2, _, _⟩ := missing_ok hadd hnd'.2.1 (fun t ht hb => hnd'.2.2 t hb t ht rfl)
            have hdef := m2 _ hi
            refine ⟨jd, rfl, hS.defaults subgraph i jd hdef, fun ho' => ?_⟩
            have : i ∈ known S subgraph id :=
              b1.mem_iff.1 (List.mem_append_right _ (m1.subset (List.mem_map.2 ⟨(i, jd), hi, rfl⟩)))
            rw [hS.oneOf id ho' i (List.mem_filter.1 this).1] at hdef
            cases hdef)
        rw [hid]
        have := assemble hS (l := l.map fun p => (p.1.2, p.2)) r hadd b1 ?_ ?_ ?_
        · rw [List.map_map] at this
          exact this
        · have hk := (hperm.map (·.1)).map (·.2)
          rw [← hl1, List.map_map, entriesOf_eq_map, List.map_map, List.map_map] at hk
          rw [List.map_map]
          refine hk.trans ?_
          have hcongr : ∀ fields : List (Nat × FieldSel), fields.map
              (((fun x : Option Nat × Nat => x.2) ∘
                (fun x : (Option Nat × Nat) × Out (List (String × Json)) => x.1)) ∘
                fun f => entryOf (nameOf S) f reqs' o) = fields.map (·.1) := by
            intro fields
            apply List.map_congr_left
            intro f _
            exact entryOf_key _ _ _ f
          rw [hcongr, List.map_append, List.map_map]
          exact List.Perm.refl _
        · intro p hp'
          obtain ⟨q, hq, rfl⟩ := List.mem_map.1 hp'
          exact hl2 q hq
        · intro ho'
          have h1 := hc2 ho'
          rw [List.length_map]
          have h2 : ¬ 1 < bound.length := by simpa [ho'] using hmany
          have h3 : fields.length ≠ 0 := fun h => h1 (List.length_eq_zero_iff.1 h)
          omega
    · rcases bindPathOpt_first hp hc1 with ⟨rfl, _⟩ | ⟨_, hf⟩
      · intro f rest hf
        cases hf
      · exact hf
    · intro hn reqs v j hv hj
      obtain ⟨reqs', v', hv', hj'⟩ := bindPathOpt_val hp hc1 hv hj
      exact nonNull_forward hS.leaf hv' (hn _ _ hp) hj' (fun _ _ o _ => endOf_ne_null _ _ _ _)
  | .list path item, source, t, w, s, h, hc => by
    rw [bindEntry] at h
    rw [CleanEntry] at hc
    obtain ⟨hc1, hc2⟩ := hc
    obtain ⟨⟨fs, source'⟩, hp, h⟩ := bind_ok.1 h
    simp only at h
    split at h
    · cases h
    rename_i hnn
    split at h
    · rename_i w1 w2 hw1 hw2
      obtain ⟨ss, hss, rfl⟩ := Views.map_ok.1 h
      obtain ⟨g1, g2, _⟩ := bindSelected_good hS item _ t w1 ss hss (hc2 fs source' w1 w2 hp hw1 hw2)
      have hw : ∃ r, w = .list r w1 := by
        cases w with
        | named => cases hw1
        | list r w' => cases hw1; exact ⟨r, rfl⟩
      have hw' : ∃ r, source'.wrap = .list r w2 := by
        cases hsw : source'.wrap with
        | named => rw [hsw] at hw2; cases hw2
        | list r w' => rw [hsw] at hw2; cases hw2; exact ⟨r, rfl⟩
      obtain ⟨r, rfl⟩ := hw
      obtain ⟨r', hr'⟩ := hw'
      have hmean : meaning (nameOf S) (.list fs (single ss)) = readPath fs (meaning (nameOf S) (single ss)) := by
        rw [meaning, spine, readPath_append]
        have : endOf (nameOf S) (.list fs (single ss)) = endOf (nameOf S) (single ss) := by
          funext reqs o
          rw [endOf]
        rw [this]
        rfl
      refine ⟨?_, ?_, ?_⟩
      · intro reqs v j hv hj
        rw [hmean] at hj
        obtain ⟨reqs', v', hv', hj'⟩ := bindPathOpt_val hp hc1 hv hj
        rcases hv'.elim hj' with ⟨rfl, hn⟩ | ⟨r1, w3, vs, hw3, hvs, hlist⟩ | ⟨_, hw3, _⟩ | ⟨_, _, hw3, _⟩
        · refine .null _ _ ?_
          rw [hn] at hnn
          simpa using hnn
        · rw [hr'] at hw3
          cases hw3
          obtain ⟨js, rfl, hjs⟩ := forward_list_ok hlist
          refine .list _ _ _ _ fun x hx => ?_
          obtain ⟨vx, hvx, hfx⟩ := hjs x hx
          exact g1 reqs' vx x (hvs vx hvx) hfx
        · rw [hr'] at hw3; cases hw3
        · rw [hr'] at hw3; cases hw3
      · rcases bindPathOpt_first hp hc1 with ⟨rfl, rfl⟩ | ⟨hne, hf⟩
        · exact g2
        · exact hf.append hne
      · intro hn reqs v j hv hj
        rw [hmean] at hj
        obtain ⟨reqs', v', hv', hj'⟩ := bindPathOpt_val hp hc1 hv hj
        exact nonNull_forward hS.leaf hv' (hn _ _ hp) hj' (fun hl => by rw [hr'] at hl; cases hl)
    · cases h

theorem bindFields_good (hS : S.Ok leaf) : ∀ (fields : List SelField) (source : Ty) (targets : List Nat)
    (bound : List (Nat × FieldSel)) (left : List Nat) (oneOf : Bool),
    bindFields S subgraph source targets fields = .ok (bound, left) → CleanFields S subgraph source oneOf fields →
    source.wrap.isList = false → source.definition.isComposite = true →
    (bound.map (·.1) ++ left).Perm targets ∧ bound.length = fields.length ∧
      ∀ b ∈ bound, FieldGood S leaf subgraph source.definition oneOf b
  | [], source, targets, bound, left, oneOf, h, _, _, _ => by
    rw [bindFields] at h
    cases h
    exact ⟨List.Perm.refl _, rfl, by simp⟩
  | f :: fs, source, targets, bound, left, oneOf, h, hc, hl, hd => by
    rw [bindFields] at h
    rw [CleanFields] at hc
    obtain ⟨⟨b, targets'⟩, hb, h⟩ := bind_ok.1 h
    obtain ⟨⟨bs, left'⟩, hbs, heq⟩ := Views.map_ok.1 h
    cases heq
    obtain ⟨f1, f2⟩ := bindField_good hS f source targets b targets' oneOf hb hc.1 hl hd
    obtain ⟨g1, g2, g3⟩ := bindFields_good hS fs source targets' bs left oneOf hbs hc.2 hl hd
    refine ⟨?_, by simp [g2], ?_⟩
    · rw [List.map_cons, List.cons_append]
      exact (g1.cons _).trans f1
    · intro x hx
      rcases List.mem_cons.1 hx with rfl | hx
      · exact f2
      · exact g3 x hx

theorem bindField_good (hS : S.Ok leaf) : ∀ (f : SelField) (source : Ty) (targets : List Nat)
    (b : Nat × FieldSel) (left : List Nat) (oneOf : Bool),
    bindField S subgraph source targets f = .ok (b, left) → CleanField S subgraph source oneOf f →
    source.wrap.isList = false → source.definition.isComposite = true →
    (b.1 :: left).Perm targets ∧ FieldGood S leaf subgraph source.definition oneOf b
  | .short key, source, targets, b, left, oneOf, h, hc, hl, hd => by
    rw [bindField] at h
    split at h
    · cases h
    · rename_i t left' ht
      obtain ⟨f, hf, heq⟩ := Views.map_ok.1 h
      cases heq
      exact ⟨(takeField_ok ht).2, shortField_good hS hf hc⟩
  | .long key value, source, targets, b, left, oneOf, h, hc, hl, hd => by
    rw [bindField] at h
    split at h
    · cases h
    · rename_i t left' ht
      obtain ⟨ss, hss, heq⟩ := Views.map_ok.1 h
      cases heq
      rw [CleanField] at hc
      obtain ⟨t1, t2⟩ := takeField_ok ht
      obtain ⟨g1, g2, g3⟩ := bindSelected_good hS value source t _ ss hss (hc.2 t t1)
      exact ⟨t2, value_good hl hd g1 g2 (fun ho => g3 (hc.1 ho))⟩

end

end Verif.Injection
