import Verif.NullProp.StepLemmas
import Mathlib.Data.List.Perm.Subperm

/-!
# Objects and lists
-/
namespace Verif.NullProp

open Verif.DefaultMerge (Key Field)
open Verif.OpChecks (sortBy insertBy sortBy_perm)

theorem lookup_none {k : Nat} : ∀ {es : Entries}, es.lookup k = none ↔ k ∉ es.keys
  | .nil => by simp [Entries.lookup, Entries.keys]
  | .bad => by simp [Entries.lookup, Entries.keys]
  | .cons k' j es => by
    simp only [Entries.lookup, Entries.keys, List.mem_cons, not_or]
    split
    · next h => simp [h]
    · next h =>
      rw [lookup_none]
      exact ⟨fun h' => ⟨fun h2 => h h2.symm, h'⟩, fun h' => h'.2⟩

theorem lookup_mem {es : Entries} {k : Nat} {j : Json} (h : es.lookup k = some j) : k ∈ es.keys := by
  by_cases hk : k ∈ es.keys
  · exact hk
  · rw [lookup_none.2 hk] at h
    simp at h

theorem complete_none {hid : Nat → Bool} {ty : Ty} {sh : Shape} {j : Json} (h : complete hid ty sh j = none) :
    ty.required = true := by
  have ho : ∀ r, orNull r = none → r = true := by
    intro r
    cases r <;> simp [orNull]
  cases j with
  | null => exact ho _ h
  | bad => exact ho _ h
  | leaf l =>
    simp only [complete] at h
    split at h
    · split at h
      · simp at h
      · exact ho _ h
    · split at h
      · simp at h
      · exact ho _ h
    · exact ho _ h
  | list js =>
    simp only [complete] at h
    split at h
    · split at h
      · simp at h
      · exact ho _ h
    · exact ho _ h
  | map es =>
    simp only [complete] at h
    split at h
    · split at h
      · exact ho _ h
      · split at h
        · exact ho _ h
        · split at h
          · exact ho _ h
          · simp at h
    · exact ho _ h

theorem completeField_eq {hid : Nat → Bool} {f : FieldShape} : ∀ (es : Entries),
    completeField hid f es = if f.errors ≠ 0 then orNull f.ty.required else
      match es.lookup f.expected with
      | some j => complete hid f.ty f.shape j
      | none => orNull f.ty.required
  | .nil => by simp [completeField, Entries.lookup]
  | .bad => by simp [completeField, Entries.lookup]
  | .cons k j es => by
    rw [completeField]
    split
    · rfl
    · next he =>
      simp only [Entries.lookup]
      split
      · rfl
      · rw [completeField_eq es, if_neg he]

/-- What is known of the paths when the fields of the object `oid` are read. -/
structure Paths (st : Part) (par loc : List VId) (oid : Id) : Prop where
  old : ∀ id ∈ loc ++ par, OldId st id
  link : ∀ k, OldId st (.field oid k true)
  fresh : ∀ k, VId.field oid k true ∉ loc ++ par

theorem Paths.mono {a b : Part} {par loc : List VId} {oid : Id} (h : Ext a b) (hp : Paths a par loc oid) : Paths b par loc oid :=
  ⟨fun id hid => (hp.old id hid).mono h, fun k => (hp.link k).mono h, hp.fresh⟩

theorem Paths.esc_old {st : Part} {par loc : List VId} {oid : Id} (hp : Paths st par loc oid) :
    ∀ id, esc par loc = some id → OldId st id := fun id h => hp.old id (esc_mem h)

theorem Paths.esc_ne {st : Part} {par loc : List VId} {oid : Id} (hp : Paths st par loc oid) (k : Key) :
    esc par loc ≠ some (.field oid k true) := fun h => hp.fresh k (esc_mem h)

/-- What is known after the fields sent by the subgraph are read. -/
structure VisitOk (hid : Nat → Bool) (oid : Id) (es : Entries) (rest : List FieldShape) (e : Option VId) (st st' : Part)
    (own : List VId) (b : Bool) (new : List Fld) : Prop where
  marks : Marks (fun x => ∃ k ∈ new.map (·.key), x = .field oid k true) e st st' b own
  vals : ∀ x ∈ new, ∃ f ∈ rest, ∃ j, es.lookup f.expected = some j ∧ f.key = x.key ∧
    (f.vis = true → LinkOk st st' own b (.field oid f.key true) (complete hid f.ty f.shape j) x.value)
  cover : ∀ f ∈ rest, f.expected ∈ es.keys → f.key ∈ new.map (·.key)
  nodup : (new.map (·.key)).Nodup
  none : b = true → ∃ f ∈ rest, f.vis = true ∧ ∃ j, es.lookup f.expected = some j ∧ complete hid f.ty f.shape j = none

/-- What is known of all fields of the object. -/
structure FieldsOk (hid : Nat → Bool) (oid : Id) (es : Entries) (fs : List FieldShape) (e : Option VId) (st st' : Part)
    (own : List VId) (b : Bool) (F : List Fld) : Prop where
  marks : Marks (fun x => ∃ k ∈ F.map (·.key), x = .field oid k true) e st st' b own
  nodup : (F.map (·.key)).Nodup
  sub : ∀ x ∈ F, ∃ f ∈ fs, f.key = x.key
  vals : ∀ f ∈ fs, f.vis = true → (completeField hid f es = none ∧ b = true) ∨
    ∃ o v, completeField hid f es = some o ∧ ⟨f.key, v⟩ ∈ F ∧ LinkOk st st' own b (.field oid f.key true) (some o) v
  none : b = true → ∃ f ∈ fs, f.vis = true ∧ completeField hid f es = none

/-- Field shapes are told apart by their keys and by the keys expected. -/
structure Inj (fs : List FieldShape) : Prop where
  key : ∀ f ∈ fs, ∀ g ∈ fs, f.key = g.key → f = g
  expected : ∀ f ∈ fs, ∀ g ∈ fs, f.expected = g.expected → f = g

theorem inj_of_nodup_map {α β : Type} {h : α → β} {l : List α} (hn : (l.map h).Nodup) :
    ∀ a ∈ l, ∀ b ∈ l, h a = h b → a = b := by
  induction l with
  | nil => simp
  | cons x l ih =>
    rw [List.map_cons, List.nodup_cons] at hn
    intro a ha b hb hab
    rcases List.mem_cons.1 ha with rfl | ha'
    · rcases List.mem_cons.1 hb with rfl | hb'
      · rfl
      · exact absurd (List.mem_map.2 ⟨b, hb', hab.symm⟩) hn.1
    · rcases List.mem_cons.1 hb with rfl | hb'
      · exact absurd (List.mem_map.2 ⟨a, ha', hab⟩) hn.1
      · exact ih hn.2 a ha' b hb' hab

theorem WFFields.inj {tns : List Key} {fs : List FieldShape} (h : WFFields tns fs) : Inj fs :=
  ⟨fun f hf g hg hk => inj_of_nodup_map (List.nodup_append.1 h.names).1 f hf g hg (by rw [hk]),
    inj_of_nodup_map h.expected⟩

theorem WFFields.keys_nodup {tns : List Key} {fs : List FieldShape} (h : WFFields tns fs) :
    (fs.map (·.key) ++ tns).Nodup := by
  have h1 := h.names
  have : fs.map (·.key.key) ++ tns.map (·.key) = (fs.map (·.key) ++ tns).map (·.key) := by simp
  rw [this] at h1
  exact List.Pairwise.of_map _ (fun a b hab h => hab (by rw [h])) h1

theorem fields_ok {hid : Nat → Bool} {oid : Id} {es : Entries} {fs : List FieldShape} {tns : List Key} {par loc : List VId}
    {st st1 st2 st3 : Part} {own : List VId} {b : Bool} {new F1 F2 : List Fld} {done : Bool} (hw : WFFields tns fs)
    (hp : Paths st par loc oid) (hv : VisitOk hid oid es fs (esc par loc) st st1 own b new)
    (h1 : shapeErrors par loc fs false new st1 = (done, F1, st2)) (h2 : missingFields par loc fs done F1 st2 = (F2, st3)) :
    ∃ own' b', FieldsOk hid oid es fs (esc par loc) st st3 own' b' F2 := by
  obtain ⟨own1, b1, m1, hd, hb1, he1, hn1, hk1, hv1⟩ := shapeErrors_spec h1
  have hinj := hw.inj
  have hnew1 : (F1.map (·.key)).Nodup := hn1 hv.nodup
  have hsub1 : ∀ k ∈ F1.map (·.key), k ∈ fs.map (·.key) := by
    intro k hk
    rcases (hk1 k).1 hk with h | ⟨f, hf, _, rfl⟩
    · obtain ⟨x, hx, rfl⟩ := List.mem_map.1 h
      obtain ⟨f, hf, _, _, hfk, _⟩ := hv.vals x hx
      exact hfk ▸ List.mem_map.2 ⟨f, hf, rfl⟩
    · exact List.mem_map.2 ⟨f, hf, rfl⟩
  -- the fields missing
  have hmiss : ∃ own2 b2, Marks NoLink (esc par loc) st2 st3 b2 own2 ∧
      (b2 = true → ∃ f ∈ fs, f.absent = false ∧ f.ty.required = true ∧ f.vis = true ∧ f.key ∉ F1.map (·.key)) ∧
      (∀ f ∈ fs, f.absent = false → f.ty.required = true → f.vis = true → f.key ∉ F1.map (·.key) → (done || b2) = true) ∧
      (∀ f ∈ fs, f.absent = false → f.ty.required = false → f.key ∉ F1.map (·.key) → ⟨f.key, .null⟩ ∈ F2) ∧
      (∀ x ∈ F1, x ∈ F2) ∧ (∀ x ∈ F2, x ∈ F1 ∨ ∃ f ∈ fs, f.key = x.key) ∧ (F2.map (·.key)).Nodup := by
    unfold missingFields at h2
    split at h2
    · obtain ⟨own2, b2, m2, hb2, hr2, hF⟩ := missingLoop_spec h2
      refine ⟨own2, b2, m2, hb2, hr2, ?_, ?_, ?_, ?_⟩
      · intro f hf ha hr hk
        rw [hF]
        refine List.mem_append_right _ (List.mem_map.2 ⟨f, List.mem_filter.2 ⟨hf, ?_⟩, rfl⟩)
        have : F1.any (fun x => x.key = f.key) = false := by
          rw [← Bool.not_eq_true, any_key]
          exact hk
        rw [this, ha, hr]
        rfl
      · intro x hx
        rw [hF]
        exact List.mem_append_left _ hx
      · intro x hx
        rw [hF] at hx
        rcases List.mem_append.1 hx with hx | hx
        · exact .inl hx
        · obtain ⟨f, hf, rfl⟩ := List.mem_map.1 hx
          exact .inr ⟨f, (List.mem_filter.1 hf).1, rfl⟩
      · rw [hF, List.map_append, List.map_map]
        refine List.nodup_append.2 ⟨hnew1, ?_, ?_⟩
        · have : ((filled F1 fs).map (·.key)).Nodup :=
            ((List.nodup_append.1 hw.keys_nodup).1).sublist (List.filter_sublist.map _)
          exact this
        · intro a ha k hk hab
          obtain ⟨f, hf, rfl⟩ := List.mem_map.1 hk
          have hf' := (List.mem_filter.1 hf).2
          simp only [Bool.and_eq_true, Bool.not_eq_true'] at hf'
          have : F1.any (fun x => x.key = f.key) = true := any_key.2 (by
            have : a = f.key := hab
            rw [← this]; exact ha)
          rw [hf'.1.2] at this
          simp at this
    · next hlen =>
      simp only [Prod.mk.injEq] at h2
      obtain ⟨rfl, rfl⟩ := h2
      have hall : ∀ f ∈ fs, f.key ∈ F1.map (·.key) := by
        intro f hf
        by_cases hk : f.key ∈ F1.map (·.key)
        · exact hk
        · exfalso
          have hsp : (f.key :: F1.map (·.key)).Subperm (fs.map (·.key)) := by
            refine List.subperm_of_subset (List.nodup_cons.2 ⟨hk, hnew1⟩) ?_
            intro k hk'
            rcases List.mem_cons.1 hk' with rfl | hk'
            · exact List.mem_map.2 ⟨f, hf, rfl⟩
            · exact hsub1 k hk'
          have := hsp.length_le
          simp at this
          omega
      exact ⟨[], false, (Quiet.refl _).marks, by simp, fun f hf _ _ _ hk => absurd (hall f hf) hk,
        fun f hf _ _ hk => absurd (hall f hf) hk, fun x hx => hx, fun x hx => .inl hx, hnew1⟩
  obtain ⟨own2, b2, m2, hb2, hr2, hfill, hin, hout, hn2⟩ := hmiss
  have hkeys : ∀ k ∈ new.map (·.key), k ∈ F2.map (·.key) := by
    intro k hk
    obtain ⟨x, hx, hxk⟩ := List.mem_map.1 ((hk1 k).2 (.inl hk))
    exact List.mem_map.2 ⟨x, hin x hx, hxk⟩
  have hmk : Marks NoLink (esc par loc) st1 st3 (b1 || b2) (own1 ++ own2) := m1.trans m2
  have hm : Marks (fun x => ∃ k ∈ F2.map (·.key), x = .field oid k true) (esc par loc) st st3 (b || (b1 || b2))
      (own ++ (own1 ++ own2)) := by
    refine (hv.marks.mono ?_).trans (hmk.mono fun _ h => h.elim)
    rintro id ⟨k, hk, rfl⟩
    exact ⟨k, hkeys k hk, rfl⟩
  have hd' : done = b1 := by rw [hd]; simp
  refine ⟨own ++ (own1 ++ own2), b || (b1 || b2), hm, hn2, ?_, ?_, ?_⟩
  · intro x hx
    rcases hout x hx with hx | h
    · obtain ⟨f, hf, hk⟩ := List.mem_map.1 (hsub1 x.key (List.mem_map.2 ⟨x, hx, rfl⟩))
      exact ⟨f, hf, hk⟩
    · exact h
  · intro f hf hvis
    rw [completeField_eq]
    by_cases he : f.errors ≠ 0
    · rw [if_pos he]
      cases hr : f.ty.required with
      | true =>
        left
        have : b1 = true := hd' ▸ he1 f hf he hr
        exact ⟨rfl, by simp [this]⟩
      | false =>
        right
        obtain ⟨x, hx, hxk⟩ := List.mem_map.1 ((hk1 f.key).2 (.inr ⟨f, hf, he, rfl⟩))
        have hnull : IsNull x.value := by
          rcases hv1 x hx with ⟨g, hg, hge, hgk, hn⟩ | ⟨_, hne⟩
          · exact hn
          · exact absurd hxk.symm (hne f hf he)
        refine ⟨.null, x.value, rfl, ?_, fun _ => rfl, fun _ => showing_null ?_⟩
        · have := hin x hx
          rw [← hxk]
          exact this
        · rcases hnull with h | h
          · exact .inl h
          · exact .inr (.inr h)
    · rw [if_neg he]
      cases hl : es.lookup f.expected with
      | some j =>
        simp only
        have hk : f.key ∈ F1.map (·.key) := (hk1 _).2 (.inl (hv.cover f hf (lookup_mem hl)))
        obtain ⟨x, hx, hxk⟩ := List.mem_map.1 hk
        rcases hv1 x hx with ⟨g, hg, hge, hgk, hn⟩ | ⟨hxn, hne⟩
        · have : g = f := hinj.key g hg f hf (by rw [hgk, hxk])
          subst this
          exact absurd hge he
        · obtain ⟨g, hg, j', hj', hgk, hlink⟩ := hv.vals x hxn
          have : g = f := hinj.key g hg f hf (by rw [hgk, hxk])
          subst this
          rw [hl] at hj'
          have hjj : j = j' := Option.some.inj hj'
          subst hjj
          have hlk := (hlink hvis).right hv.marks.ext hmk (fun h => h) (hp.link _) (hp.esc_ne _) (fun _ h => h.elim) hp.esc_old
          cases hc : complete hid g.ty g.shape j with
          | none =>
            rw [hc] at hlk
            exact .inl ⟨rfl, hlk⟩
          | some o =>
            rw [hc] at hlk
            refine .inr ⟨o, x.value, rfl, ?_, hlk⟩
            rw [← hxk]
            exact hin x hx
      | none =>
        simp only
        have hk : f.key ∉ F1.map (·.key) := by
          intro hk
          rcases (hk1 _).1 hk with h | ⟨g, hg, hge, hgk⟩
          · obtain ⟨x, hx, hxk⟩ := List.mem_map.1 h
            obtain ⟨g, hg, j', hj', hgk, _⟩ := hv.vals x hx
            have : g = f := hinj.key g hg f hf (by rw [hgk, hxk])
            subst this
            rw [hl] at hj'
            simp at hj'
          · have : g = f := hinj.key g hg f hf hgk
            subst this
            exact he hge
        have ha : f.absent = false := by
          cases ha : f.absent with
          | false => rfl
          | true => exact absurd (hw.absent f hf ha hvis) he
        cases hr : f.ty.required with
        | true =>
          left
          have := hr2 f hf ha hr hvis hk
          rw [hd'] at this
          exact ⟨rfl, by simp [this]⟩
        | false =>
          right
          exact ⟨.null, .null, rfl, hfill f hf ha hr hk, fun _ => rfl, fun _ => showing_null (.inl rfl)⟩
  · intro hb
    cases hb0 : b with
    | true =>
      obtain ⟨f, hf, hvis, j, hl, hc⟩ := hv.none hb0
      refine ⟨f, hf, hvis, ?_⟩
      rw [completeField_eq, hl]
      have hr := complete_none hc
      split
      · rw [hr]; rfl
      · exact hc
    | false =>
      cases hb1' : b1 with
      | true =>
        obtain ⟨f, hf, he, hr⟩ := hb1 hb1'
        refine ⟨f, hf, hw.errors f hf he, ?_⟩
        rw [completeField_eq, if_pos he, hr]
        rfl
      | false =>
        have hb2' : b2 = true := by
          rw [hb0, hb1'] at hb
          simpa using hb
        obtain ⟨f, hf, ha, hr, hvis, hk⟩ := hb2 hb2'
        refine ⟨f, hf, hvis, ?_⟩
        rw [completeField_eq, hr]
        split
        · rfl
        · have : es.lookup f.expected = none := by
            rw [lookup_none]
            intro hmem
            exact hk ((hk1 _).2 (.inl (hv.cover f hf hmem)))
          rw [this]
          rfl

end Verif.NullProp
