import Verif.Injection.BindLemmas

/-!
# The arguments of a lookup are of their types
-/

namespace Verif.Injection

open Verif.Views

variable {S : Schema} {leaf : Def → Json → Prop} {subgraph : Nat}

theorem Parents.val {d : Def} {reqs : List (Item Data)} {batch : Bool} {v : Val} (h : Parents S leaf d reqs batch v) :
    ValOk S leaf (sourceOf d batch).definition (sourceOf d batch).wrap reqs v := by
  cases h with
  | one o h => exact h
  | all os h =>
    refine .list _ _ _ _ _ fun v hv => ?_
    obtain ⟨o, ho, rfl⟩ := List.mem_map.1 hv
    exact h o ho

/-- A field of an object that is taken under its own name. -/
theorem shortField_path (hS : S.Ok leaf) {source : Ty} {t : Nat} {key : String} {f : FieldSel}
    (h : shortField S source t key = .ok f) (hn : source.wrap.isNonNull = true) :
    ∃ g, f = .field g ∧ Good S leaf subgraph source t (S.input t).ty.wrap (.path g []) ∧
      (CleanField S subgraph source true (.short key) → NeverNull S leaf source (.path g [])) := by
  rw [shortField] at h
  split at h
  · cases h
  rename_i hl
  split at h
  · cases h
  rename_i ids hids
  split at h
  · cases h
  rename_i g hg
  split at h
  · rename_i hcomp
    cases h
    obtain ⟨c1, c2, c3⟩ := compatible_ok hcomp
    have key : ∀ reqs v j, ValOk S leaf source.definition source.wrap reqs v →
        forward (meaning (nameOf S) (.path g []) reqs) v = .ok j →
        ∃ reqs' v' k, ValOk S leaf (S.fieldTy g).definition (S.fieldTy g).wrap reqs' v' ∧ forward k v' = .ok j := by
      intro reqs v j hv hj
      rcases hv.elim hj with ⟨_, hn'⟩ | ⟨r, w', vs, hw', _⟩ | ⟨_, _, hleaf, _⟩ | ⟨_, o, _, _, ho, hko⟩
      · rw [hn] at hn'; cases hn'
      · rw [hw'] at hl; exact absurd rfl hl
      · have := leaf_not_composite hleaf
        rw [fieldsOf_composite hids] at this
        cases this
      · rw [meaning, spine, readPath] at hko
        split at hko
        · cases hko
        · rename_i i hi
          split at hko
          · cases hko
          · rename_i v1 hv1
            have hid : i.id = g := by simpa using List.find?_some hi
            obtain ⟨ty, _, _, typed⟩ := ho
            have hval := typed i (List.mem_of_find?_eq_some hi) v1 hv1
            rw [hid] at hval
            exact ⟨_, v1, _, hval, hko⟩
    refine ⟨g, rfl, ?_, ?_⟩
    · intro reqs v j hv hj
      obtain ⟨reqs', v', k, hv', hj'⟩ := key reqs v j hv hj
      rw [c2]
      exact lenient_admits c3 c1 hv' hj'
    · intro hc reqs v j hv hj
      obtain ⟨reqs', v', k, hv', hj'⟩ := key reqs v j hv hj
      rw [CleanField] at hc
      exact nonNull_forward hS.leaf hv' (hc rfl ids g hids hg) hj'
        (fun _ hcomp' => by rw [leaf_not_composite c3] at hcomp'; cases hcomp')
  · cases h

/-- The argument is of the type of the input value `t`. -/
def BoundGood (S : Schema) (leaf : Def → Json → Prop) (subgraph : Nat) (d : Def) (batch : Bool) (t : Nat) (b : Bound)
    (nonNull : Bool) : Prop :=
  ∀ fs arg, createArg b = .ok (fs, arg) → ∀ reqs parents, Strict reqs → (∀ p, HasPath p fs → HasPath p reqs) →
    Parents S leaf d reqs batch parents → ∀ j, argValue S reqs parents arg = .ok j →
      Admits S leaf subgraph (S.input t).ty.definition (S.input t).ty.wrap j ∧ (nonNull = true → j ≠ .null)

theorem forward_inject {s : Sel} {fs : List (Item Unit)} {inj : Inj} (h : create s = .ok (fs, inj))
    {reqs : List (Item Data)} (hs : Strict reqs) (hc : ∀ p, HasPath p fs → HasPath p reqs) (v : Val) :
    forward (inject (fun i => (S.input i).name) inj reqs) v = forward (meaning (nameOf S) s reqs) v := by
  have := (C72_injection_partial (nameOf S) s fs inj h).2 reqs hs hc
  have h2 : inject (fun i => (S.input i).name) inj reqs = meaning (nameOf S) s reqs := funext this
  rw [h2]

theorem boundGood_value {d : Def} {batch : Bool} {t : Nat} {s : Sel} {nonNull : Bool} (b : Bound)
    (hb : b = .value [s] ∨ b = .field (.value s) ∨ (∃ g, s = .path g [] ∧ b = .field (.field g)))
    (hg : Good S leaf subgraph (sourceOf d batch) t (S.input t).ty.wrap s)
    (hn : nonNull = true → NeverNull S leaf (sourceOf d batch) s) :
    BoundGood S leaf subgraph d batch t b nonNull := by
  intro fs arg h reqs parents hs hc hp j hj
  have : ∃ inj, create s = .ok (fs, inj) ∧ arg = .value inj := by
    rcases hb with rfl | rfl | ⟨g, rfl, rfl⟩
    · rw [createArg] at h
      obtain ⟨⟨fs', inj⟩, h1, h2⟩ := Views.map_ok.1 h
      cases h2
      exact ⟨inj, h1, rfl⟩
    · rw [createArg, createValue] at h
      obtain ⟨⟨fs', inj⟩, h1, h2⟩ := Views.map_ok.1 h
      cases h2
      exact ⟨inj, h1, rfl⟩
    · rw [createArg, createValue] at h
      obtain ⟨⟨fs', inj⟩, h1, h2⟩ := Views.map_ok.1 h
      cases h2
      cases h1
      exact ⟨_, rfl, rfl⟩
  obtain ⟨inj, h1, rfl⟩ := this
  rw [argValue, forward_inject h1 hs hc] at hj
  exact ⟨hg reqs parents j hp.val hj, fun hn' => hn hn' reqs parents j hp.val hj⟩

theorem createArgs_ok : ∀ {bs : List (Nat × Bound)} {fs0 fs : List (Item Unit)} {args : List (Nat × Arg)},
    createArgs fs0 bs = .ok (fs, args) →
    args.map (·.1) = bs.map (·.1) ∧ (∀ p, HasPath p fs0 → HasPath p fs) ∧
    ∀ a ∈ args, ∃ b ∈ bs, b.1 = a.1 ∧ ∃ r, createArg b.2 = .ok (r, a.2) ∧ ∀ p, HasPath p r → HasPath p fs
  | [], fs0, fs, args, h => by
    rw [createArgs] at h
    cases h
    exact ⟨rfl, fun _ h => h, by simp⟩
  | b :: bs, fs0, fs, args, h => by
    rw [createArgs] at h
    obtain ⟨⟨r, arg⟩, hp, h⟩ := bind_ok.1 h
    obtain ⟨⟨fs', args'⟩, hr, heq⟩ := Views.map_ok.1 h
    cases heq
    obtain ⟨t, b⟩ := b
    rw [createPair] at hp
    obtain ⟨⟨r', a⟩, ha, heq⟩ := Views.map_ok.1 hp
    cases heq
    obtain ⟨h1, h2, h3⟩ := createArgs_ok hr
    refine ⟨by simp [h1], fun p hp => h2 p ((hasPath_union _ _ p).2 (.inl hp)), ?_⟩
    intro x hx
    rcases List.mem_cons.1 hx with rfl | hx
    · exact ⟨(t, b), List.mem_cons_self, rfl, r, ha, fun p hp => h2 p ((hasPath_union _ _ p).2 (.inr hp))⟩
    · obtain ⟨b', hb', h'⟩ := h3 x hx
      exact ⟨b', List.mem_cons_of_mem _ hb', h'⟩

theorem argEntries_ok {reqs : List (Item Data)} {parents : Val} : ∀ {args : List (Nat × Arg)} {es : List (String × Json)},
    argEntries S reqs parents args = .ok es →
    ∃ l : List (Nat × Json), es = l.map (fun p => ((S.input p.1).name, p.2)) ∧ l.map (·.1) = args.map (·.1) ∧
      ∀ p ∈ l, ∃ a ∈ args, a.1 = p.1 ∧ argValue S reqs parents a.2 = .ok p.2
  | [], es, h => by
    rw [argEntries] at h
    cases h
    exact ⟨[], rfl, rfl, by simp⟩
  | (t, a) :: args, es, h => by
    rw [argEntries] at h
    obtain ⟨e, he, h⟩ := bind_ok.1 h
    obtain ⟨es', hes, rfl⟩ := Views.map_ok.1 h
    rw [argEntry] at he
    obtain ⟨j, hj, rfl⟩ := Views.map_ok.1 he
    obtain ⟨l, rfl, h1, h2⟩ := argEntries_ok hes
    refine ⟨(t, j) :: l, rfl, by simp [h1], ?_⟩
    intro p hp
    rcases List.mem_cons.1 hp with rfl | hp
    · exact ⟨(t, a), List.mem_cons_self, rfl, hj⟩
    · obtain ⟨a', ha', h'⟩ := h2 p hp
      exact ⟨a', List.mem_cons_of_mem _ ha', h'⟩

mutual

theorem bindValue_good (hS : S.Ok leaf) : ∀ (value : Value) (d : Def) (batch : Bool) (t : Nat) (b : Bound),
    bindValue S subgraph (sourceOf d batch) t value = .ok b → CleanTopValue S subgraph d batch t value →
    ∀ nonNull, (nonNull = true → NonNullValue S (sourceOf d batch) value) →
      BoundGood S leaf subgraph d batch t b.asField nonNull ∧ BoundGood S leaf subgraph d batch t b nonNull
  | .mk alternatives, d, batch, t, b, h, hc, nonNull, hn => by
    rw [bindValue] at h
    rw [CleanTopValue] at hc
    exact bindTops_good hS alternatives d batch t b h hc nonNull hn

theorem bindTops_good (hS : S.Ok leaf) : ∀ (es : List Entry) (d : Def) (batch : Bool) (t : Nat) (b : Bound),
    bindTops S subgraph (sourceOf d batch) t es = .ok b → CleanTops S subgraph d batch t es →
    ∀ nonNull, (nonNull = true → ∀ e ∈ es, NonNullEntry S (sourceOf d batch) e) →
      BoundGood S leaf subgraph d batch t b.asField nonNull ∧ BoundGood S leaf subgraph d batch t b nonNull
  | [], d, batch, t, b, h, hc, _, _ => by
    rw [CleanTops] at hc
    exact hc.elim
  | e :: es, d, batch, t, b, h, hc, nonNull, hn => by
    rw [CleanTops] at hc
    obtain ⟨hc, rfl⟩ := hc
    rw [bindTops] at h
    exact bindTop_good hS e d batch t b h hc nonNull (fun h => hn h e List.mem_cons_self)

theorem bindTop_good (hS : S.Ok leaf) : ∀ (e : Entry) (d : Def) (batch : Bool) (t : Nat) (b : Bound),
    bindTop S subgraph (sourceOf d batch) t e = .ok b → CleanTop S subgraph d batch t e →
    ∀ nonNull, (nonNull = true → NonNullEntry S (sourceOf d batch) e) →
      BoundGood S leaf subgraph d batch t b.asField nonNull ∧ BoundGood S leaf subgraph d batch t b nonNull
  | .object none fields, d, batch, t, b, h, hc, nonNull, hn => by
    rw [bindTop] at h
    rw [CleanTop] at hc
    obtain ⟨hc1, hc2, hc3, hc4⟩ := hc
    split at h
    · cases h
    rename_i oneOf targets hobj
    obtain ⟨id, hid, rfl, rfl, hone⟩ := asObject_ok hobj
    obtain ⟨⟨bound, left⟩, hb, h⟩ := bind_ok.1 h
    simp only at h
    split at h
    · cases h
    rename_i hmany
    obtain ⟨added, hadd, rfl⟩ := Views.map_ok.1 h
    rw [hone] at hc2 hc4
    obtain ⟨b1, b2, b3, b4⟩ := bindInputs_good hS fields d batch _ bound left (S.oneOf id) hb hc4
    suffices key : BoundGood S leaf subgraph d batch t (.object
        (bound ++ added.map fun (i, j) => (i, .field (.default j)))) nonNull from ⟨key, key⟩
    intro fs arg hcr reqs parents hs hcov hp j hj
    rw [createArg] at hcr
    obtain ⟨⟨fs', args⟩, hargs, heq⟩ := Views.map_ok.1 hcr
    cases heq
    rw [argValue] at hj
    obtain ⟨es, hes, rfl⟩ := Views.map_ok.1 hj
    refine ⟨?_, fun _ h => (by cases h)⟩
    obtain ⟨a1, _, a3⟩ := createArgs_ok hargs
    obtain ⟨l, rfl, l1, l2⟩ := argEntries_ok hes
    have hwn : ∃ r, (S.input t).ty.wrap = .named r := by
      cases hw : (S.input t).ty.wrap with
      | named r => exact ⟨r, rfl⟩
      | list => rw [hw] at hc1; cases hc1
    obtain ⟨r, hr⟩ := hwn
    rw [hr, hid]
    have hnd : (bound.map (·.1) ++ left).Nodup := b1.nodup_iff.2 (known_nodup hS id)
    have hnd' := List.nodup_append.1 hnd
    obtain ⟨m1, m2, _, _⟩ := missing_ok hadd hnd'.2.1 (fun t ht hb => hnd'.2.2 t hb t ht rfl)
    refine assemble hS r hadd b1 ?_ ?_ ?_
    · rw [l1, a1, List.map_append, List.map_map]
      exact List.Perm.refl _
    · intro p hp'
      obtain ⟨a, ha, ha1, haj⟩ := l2 p hp'
      obtain ⟨bd, hbd, hbd1, req, hreq, hcov'⟩ := a3 a ha
      rcases List.mem_append.1 hbd with hbd | hbd
      · have := b4 bd hbd req a.2 hreq reqs parents hs (fun q hq => hcov q (hcov' q hq)) hp p.2 haj
        rw [hbd1, ha1] at this
        exact this
      · obtain ⟨⟨i, jd⟩, hi, rfl⟩ := List.mem_map.1 hbd
        have hdef := m2 _ hi
        have hik : i ∈ known S subgraph id :=
          b1.mem_iff.1 (List.mem_append_right _ (m1.subset (List.mem_map.2 ⟨(i, jd), hi, rfl⟩)))
        rw [createArg, createValue] at hreq
        have harg : a.2 = .value (.default jd) := by
          have := Out.ok.inj hreq
          exact (Prod.mk.inj this).2.symm
        have hip : i = p.1 := hbd1.trans ha1
        rw [← hip]
        have hbatch : batch = false := by
          cases batch with
          | false => rfl
          | true =>
            exfalso
            have hk := hc3 rfl id hid i hik (by rw [hdef]; simp)
            rw [← b3] at hk
            obtain ⟨bd, hbd', hname⟩ := List.mem_map.1 hk
            have hbk : bd.1 ∈ known S subgraph id :=
              b1.mem_iff.1 (List.mem_append_left _ (List.mem_map.2 ⟨bd, hbd', rfl⟩))
            have := hS.names id bd.1 (List.mem_filter.1 hbk).1 i (List.mem_filter.1 hik).1 hname
            exact hnd'.2.2 i (List.mem_map.2 ⟨bd, hbd', this⟩) i
              (m1.subset (List.mem_map.2 ⟨(i, jd), hi, rfl⟩)) rfl
        subst hbatch
        cases hp with
        | one o ho =>
          have haj' : p.2 = jd := by
            rw [harg, argValue, forward, inject] at haj
            cases haj
            rfl
          rw [haj']
          refine ⟨hS.defaults subgraph i jd hdef, fun ho' => ?_⟩
          rw [hS.oneOf id ho' i (List.mem_filter.1 hik).1] at hdef
          cases hdef
    · intro ho'
      have h1 := hc2 ho'
      rw [List.length_map]
      have h2 : ¬ 1 < bound.length := by simpa [ho'] using hmany
      have h3 : fields.length ≠ 0 := fun h => h1 (List.length_eq_zero_iff.1 h)
      omega
  | .identity, d, batch, t, b, h, hc, nonNull, hn => by
    rw [bindTop] at h
    · rw [CleanTop] at hc
      · obtain ⟨s, hs, rfl⟩ := Views.map_ok.1 h
        obtain ⟨g1, _, g3⟩ := bindEntry_good hS _ _ t _ s hs hc
        exact ⟨boundGood_value _ (.inr (.inl rfl)) g1 (fun h => g3 (hn h)),
          boundGood_value _ (.inl rfl) g1 (fun h => g3 (hn h))⟩
      · intro f hf; cases hf
    · intro f hf; cases hf
  | .path p, d, batch, t, b, h, hc, nonNull, hn => by
    rw [bindTop] at h
    · rw [CleanTop] at hc
      · obtain ⟨s, hs, rfl⟩ := Views.map_ok.1 h
        obtain ⟨g1, _, g3⟩ := bindEntry_good hS _ _ t _ s hs hc
        exact ⟨boundGood_value _ (.inr (.inl rfl)) g1 (fun h => g3 (hn h)),
          boundGood_value _ (.inl rfl) g1 (fun h => g3 (hn h))⟩
      · intro f hf; cases hf
    · intro f hf; cases hf
  | .list p item, d, batch, t, b, h, hc, nonNull, hn => by
    rw [bindTop] at h
    · rw [CleanTop] at hc
      · obtain ⟨s, hs, rfl⟩ := Views.map_ok.1 h
        obtain ⟨g1, _, g3⟩ := bindEntry_good hS _ _ t _ s hs hc
        exact ⟨boundGood_value _ (.inr (.inl rfl)) g1 (fun h => g3 (hn h)),
          boundGood_value _ (.inl rfl) g1 (fun h => g3 (hn h))⟩
      · intro f hf; cases hf
    · intro f hf; cases hf
  | .object (some p) fields, d, batch, t, b, h, hc, nonNull, hn => by
    rw [bindTop] at h
    · rw [CleanTop] at hc
      · obtain ⟨s, hs, rfl⟩ := Views.map_ok.1 h
        obtain ⟨g1, _, g3⟩ := bindEntry_good hS _ _ t _ s hs hc
        exact ⟨boundGood_value _ (.inr (.inl rfl)) g1 (fun h => g3 (hn h)),
          boundGood_value _ (.inl rfl) g1 (fun h => g3 (hn h))⟩
      · intro f hf; cases hf
    · intro f hf; cases hf

theorem bindInputs_good (hS : S.Ok leaf) : ∀ (fields : List SelField) (d : Def) (batch : Bool) (targets : List Nat)
    (bound : List (Nat × Bound)) (left : List Nat) (oneOf : Bool),
    bindInputs S subgraph (sourceOf d batch) targets fields = .ok (bound, left) →
    CleanInputs S subgraph d batch oneOf fields →
    (bound.map (·.1) ++ left).Perm targets ∧ bound.length = fields.length ∧
      bound.map (fun b => (S.input b.1).name) = fields.map SelField.key ∧
      ∀ b ∈ bound, BoundGood S leaf subgraph d batch b.1 b.2 oneOf
  | [], d, batch, targets, bound, left, oneOf, h, _ => by
    rw [bindInputs] at h
    cases h
    exact ⟨List.Perm.refl _, rfl, rfl, by simp⟩
  | f :: fs, d, batch, targets, bound, left, oneOf, h, hc => by
    rw [bindInputs] at h
    rw [CleanInputs] at hc
    obtain ⟨⟨b, targets'⟩, hb, h⟩ := bind_ok.1 h
    obtain ⟨⟨bs, left'⟩, hbs, heq⟩ := Views.map_ok.1 h
    cases heq
    obtain ⟨f1, f2, f3⟩ := bindInput_good hS f d batch targets b targets' oneOf hb hc.1
    obtain ⟨g1, g2, g3, g4⟩ := bindInputs_good hS fs d batch targets' bs left oneOf hbs hc.2
    refine ⟨?_, by simp [g2], by simp [g3, f2], ?_⟩
    · rw [List.map_cons, List.cons_append]
      exact (g1.cons _).trans f1
    · intro x hx
      rcases List.mem_cons.1 hx with rfl | hx
      · exact f3
      · exact g4 x hx

theorem bindInput_good (hS : S.Ok leaf) : ∀ (f : SelField) (d : Def) (batch : Bool) (targets : List Nat)
    (b : Nat × Bound) (left : List Nat) (oneOf : Bool),
    bindInput S subgraph (sourceOf d batch) targets f = .ok (b, left) → CleanInput S subgraph d batch oneOf f →
    (b.1 :: left).Perm targets ∧ (S.input b.1).name = f.key ∧ BoundGood S leaf subgraph d batch b.1 b.2 oneOf
  | .short key, d, batch, targets, b, left, oneOf, h, hc => by
    rw [bindInput] at h
    rw [CleanInput] at hc
    split at h
    · cases h
    · rename_i t left' ht
      obtain ⟨f, hf, heq⟩ := Views.map_ok.1 h
      cases heq
      obtain ⟨t1, t2⟩ := takeField_ok ht
      obtain ⟨g, rfl, g1, g2⟩ := shortField_path (subgraph := subgraph) hS hf (by
        cases batch <;> rfl)
      refine ⟨t2, t1, boundGood_value _ (.inr (.inr ⟨g, rfl, rfl⟩)) g1 (fun ho => ?_)⟩
      rw [ho] at hc
      exact g2 hc
  | .long key value, d, batch, targets, b, left, oneOf, h, hc => by
    rw [bindInput] at h
    rw [CleanInput] at hc
    split at h
    · cases h
    · rename_i t left' ht
      obtain ⟨bv, hbv, heq⟩ := Views.map_ok.1 h
      cases heq
      obtain ⟨t1, t2⟩ := takeField_ok ht
      exact ⟨t2, t1, (bindValue_good hS value d batch t bv hbv (hc.2 t t1) oneOf hc.1).1⟩

end

/-! ## The arguments of the field -/

theorem arguments_ok {reqs : List (Item Data)} {parents : Val} : ∀ {args : List (Nat × Arg)} {es : List (String × Json)},
    arguments S reqs parents args = .ok es →
    ∃ l : List (Nat × Json), es = l.map (fun p => ((S.input p.1).name, p.2)) ∧ l.map (·.1) = args.map (·.1) ∧
      ∀ p ∈ l, ∃ a ∈ args, a.1 = p.1 ∧ topValue S reqs parents a.2 = .ok p.2
  | [], es, h => by
    rw [arguments] at h
    cases h
    exact ⟨[], rfl, rfl, by simp⟩
  | (t, a) :: args, es, h => by
    rw [arguments] at h
    obtain ⟨j, hj, h⟩ := bind_ok.1 h
    obtain ⟨es', hes, rfl⟩ := Views.map_ok.1 h
    obtain ⟨l, rfl, h1, h2⟩ := arguments_ok hes
    refine ⟨(t, j) :: l, rfl, by simp [h1], ?_⟩
    intro p hp
    rcases List.mem_cons.1 hp with rfl | hp
    · exact ⟨(t, a), List.mem_cons_self, rfl, hj⟩
    · obtain ⟨a', ha', h'⟩ := h2 p hp
      exact ⟨a', List.mem_cons_of_mem _ ha', h'⟩

theorem otherArguments_ok {present : List Nat} : ∀ {args : List Nat} {others : List (Nat × Arg)},
    otherArguments S present args = .ok others →
    (others.map (·.1)).Sublist args ∧ (∀ o ∈ others, o.1 ∉ present) ∧
    (∀ o ∈ others, ∃ j, (S.input o.1).default = some j ∧ o.2 = .value (.default j)) ∧
    ∀ i ∈ args, i ∉ present → (S.input i).default = none → (S.input i).ty.wrap.isNonNull = false
  | [], others, h => by
    rw [otherArguments] at h
    cases h
    simp
  | t :: ts, others, h => by
    rw [otherArguments] at h
    split at h
    · rename_i hp
      have hp : t ∈ present := by simpa using hp
      obtain ⟨h1, h2, h3, h4⟩ := otherArguments_ok h
      refine ⟨h1.cons _, h2, h3, ?_⟩
      intro i hi hn
      rcases List.mem_cons.1 hi with rfl | hi
      · exact absurd hp hn
      · exact h4 i hi hn
    · rename_i hp
      have hp : t ∉ present := by simpa using hp
      split at h
      · rename_i j hj
        obtain ⟨others', ho, rfl⟩ := Views.map_ok.1 h
        obtain ⟨h1, h2, h3, h4⟩ := otherArguments_ok ho
        refine ⟨by simpa using h1, ?_, ?_, ?_⟩
        · intro o ho'
          rcases List.mem_cons.1 ho' with rfl | ho'
          · exact hp
          · exact h2 o ho'
        · intro o ho'
          rcases List.mem_cons.1 ho' with rfl | ho'
          · exact ⟨j, hj, rfl⟩
          · exact h3 o ho'
        · intro i hi hn hd
          rcases List.mem_cons.1 hi with rfl | hi
          · rw [hj] at hd; cases hd
          · exact h4 i hi hn hd
      · rename_i hj
        split at h
        · cases h
        · rename_i hnn
          obtain ⟨h1, h2, h3, h4⟩ := otherArguments_ok h
          refine ⟨h1.cons _, h2, h3, ?_⟩
          intro i hi hn hd
          rcases List.mem_cons.1 hi with rfl | hi
          · simpa using hnn
          · exact h4 i hi hn hd

theorem bindAll_ok {source : Ty} {is : Nat → Option Value} : ∀ {args : List Nat} {bs : List (Nat × Bound)},
    bindAll S subgraph source is args = .ok bs →
    (bs.map (·.1)).Sublist args ∧ (∀ t ∈ args, (is t).isSome = true → t ∈ bs.map (·.1)) ∧
    ∀ b ∈ bs, ∃ v, is b.1 = some v ∧ bindValue S subgraph source b.1 v = .ok b.2
  | [], bs, h => by
    rw [bindAll] at h
    cases h
    simp
  | t :: ts, bs, h => by
    rw [bindAll] at h
    split at h
    · rename_i hi
      obtain ⟨h1, h2, h3⟩ := bindAll_ok h
      refine ⟨h1.cons _, ?_, h3⟩
      intro x hx hs
      rcases List.mem_cons.1 hx with rfl | hx
      · rw [hi] at hs; cases hs
      · exact h2 x hx hs
    · rename_i v hi
      obtain ⟨b, hb, h⟩ := bind_ok.1 h
      obtain ⟨bs', hbs, rfl⟩ := Views.map_ok.1 h
      obtain ⟨h1, h2, h3⟩ := bindAll_ok hbs
      refine ⟨by simpa using h1, ?_, ?_⟩
      · intro x hx hs
        rcases List.mem_cons.1 hx with rfl | hx
        · exact List.mem_cons_self
        · exact List.mem_cons_of_mem _ (h2 x hx hs)
      · intro x hx
        rcases List.mem_cons.1 hx with rfl | hx
        · exact ⟨v, hi, hb⟩
        · exact h3 x hx

/-- Arguments made of injected ones and the defaults of the others. -/
theorem argumentsOk (hS : S.Ok leaf) {reqs : List (Item Data)} {parents : Val} {args : List Nat} (hn : args.Nodup)
    {injected others : List (Nat × Arg)} (hi : (injected.map (·.1)).Sublist args)
    (ho : otherArguments S (injected.map (·.1)) args = .ok others)
    (hg : ∀ a ∈ injected, ∀ j, topValue S reqs parents a.2 = .ok j →
      Admits S leaf subgraph (S.input a.1).ty.definition (S.input a.1).ty.wrap j)
    {es : List (String × Json)} (h : arguments S reqs parents (injected ++ others) = .ok es) :
    ArgumentsOk S leaf subgraph args es := by
  obtain ⟨o1, o2, o3, o4⟩ := otherArguments_ok ho
  obtain ⟨l, rfl, l1, l2⟩ := arguments_ok h
  refine ⟨l, rfl, ?_, ?_, ?_⟩
  · rw [l1, List.map_append]
    refine List.nodup_append.2 ⟨hi.nodup hn, o1.nodup hn, ?_⟩
    rintro a ha b hb rfl
    obtain ⟨o, ho', rfl⟩ := List.mem_map.1 hb
    exact o2 o ho' ha
  · intro p hp
    obtain ⟨a, ha, ha1, haj⟩ := l2 p hp
    rw [← ha1]
    rcases List.mem_append.1 ha with ha | ha
    · exact ⟨hi.subset (List.mem_map.2 ⟨a, ha, rfl⟩), hg a ha p.2 haj⟩
    · refine ⟨o1.subset (List.mem_map.2 ⟨a, ha, rfl⟩), ?_⟩
      obtain ⟨j, hj, hv⟩ := o3 a ha
      rw [hv, topValue] at haj
      cases haj
      exact hS.defaults subgraph a.1 _ hj
  · intro i hi' hd hnn
    rw [l1, List.map_append]
    by_cases hmem : i ∈ injected.map (·.1)
    · exact List.mem_append_left _ hmem
    · rw [o4 i hi' hmem hd] at hnn
      cases hnn

theorem bindAlternatives_length {source : Ty} {t : Nat} {w : Wrap} : ∀ {es : List Entry} {ss : List Sel},
    bindAlternatives S subgraph source t w es = .ok ss → ss.length = es.length ∧
      ∀ s ∈ ss, ∃ e ∈ es, bindEntry S subgraph source t w e = .ok s
  | [], ss, h => by
    rw [bindAlternatives] at h
    cases h
    simp
  | e :: es, ss, h => by
    rw [bindAlternatives] at h
    obtain ⟨s, hs, h⟩ := bind_ok.1 h
    obtain ⟨ss', hss, rfl⟩ := Views.map_ok.1 h
    obtain ⟨h1, h2⟩ := bindAlternatives_length hss
    refine ⟨by simp [h1], ?_⟩
    intro x hx
    rcases List.mem_cons.1 hx with rfl | hx
    · exact ⟨e, List.mem_cons_self, hs⟩
    · obtain ⟨e', he', h'⟩ := h2 x hx
      exact ⟨e', List.mem_cons_of_mem _ he', h'⟩

theorem bindTop_single {source : Ty} {t : Nat} {e : Entry} {b : Bound} (h : bindTop S subgraph source t e = .ok b) :
    (∃ fields, b = .object fields) ∨ ∃ s, b = .value [s] := by
  rw [bindTop.eq_def] at h
  split at h
  · split at h
    · cases h
    · obtain ⟨⟨bound, left⟩, _, h⟩ := bind_ok.1 h
      simp only at h
      split at h
      · cases h
      · obtain ⟨added, _, rfl⟩ := Views.map_ok.1 h
        exact .inl ⟨_, rfl⟩
  · obtain ⟨s, _, rfl⟩ := Views.map_ok.1 h
    exact .inr ⟨s, rfl⟩

/-- The value of an alternative for a `@oneOf` argument. -/
theorem alternative_good (hS : S.Ok leaf) {d : Def} {batch : Bool} {t : Nat} {e : Entry} {path : List Nat} {i : Nat}
    {f : FieldSel} (h : bindEntry S subgraph (sourceOf d batch) t (S.input t).ty.wrap e = .ok (.object path [(i, f)]))
    (hc : CleanAlternative S subgraph (sourceOf d batch) e) (ho : isOneOf S t = true)
    {fs : List (Item Unit)} {inj : Inj} (hf : createValue f = .ok (fs, inj)) (hnd : ∀ j, f ≠ .default j)
    {reqs : List (Item Data)} {parents : Val} (hs : Strict reqs)
    (hcov : ∀ p, HasPath p (prepend path (fs, inj)).1 → HasPath p reqs) (hp : Parents S leaf d reqs batch parents)
    {j : Json} (hj : argValue S reqs parents (.object [(i, .value (prepend path (fs, inj)).2)]) = .ok j) :
    Admits S leaf subgraph (S.input t).ty.definition (S.input t).ty.wrap j := by
  rw [CleanAlternative.eq_def] at hc
  split at hc
  · rename_i p g
    obtain ⟨hc1, hc2⟩ := hc
    rw [bindEntry] at h
    obtain ⟨⟨fs', source'⟩, hpath, h⟩ := bind_ok.1 h
    obtain ⟨hn', hcf⟩ := hc2 fs' source' hpath
    simp only at h
    split at h
    · cases h
    rename_i hwl
    split at h
    · cases h
    split at h
    · cases h
    rename_i oneOf targets hobj
    obtain ⟨id, hid, rfl, rfl, hone⟩ := asObject_ok hobj
    rw [hone] at ho
    obtain ⟨⟨bound, left⟩, hb, h⟩ := bind_ok.1 h
    simp only at h
    split at h
    · cases h
    obtain ⟨added, hadd, heq⟩ := Views.map_ok.1 h
    rw [bindFields] at hb
    obtain ⟨⟨b, targets'⟩, hb1, hb2⟩ := bind_ok.1 hb
    obtain ⟨⟨bs, left'⟩, hb3, heq'⟩ := Views.map_ok.1 hb2
    simp only [bindFields] at hb3
    cases hb3
    cases heq'
    have hsel : fs' = path ∧ b = (i, f) ∧ added = [] := by
      simpa using heq
    obtain ⟨rfl, rfl, rfl⟩ := hsel
    have hsel : ∃ s, createValue f = create s ∧ Good S leaf subgraph source' i (S.input i).ty.wrap s ∧
        NeverNull S leaf source' s ∧ (i :: left).Perm (known S subgraph id) := by
      cases g with
      | short key =>
        rw [bindField] at hb1
        split at hb1
        · cases hb1
        · rename_i t' left' ht
          obtain ⟨f', hf', heq'⟩ := Views.map_ok.1 hb1
          cases heq'
          obtain ⟨g, rfl, g1, g2⟩ := shortField_path (subgraph := subgraph) hS hf' hn'
          exact ⟨.path g [], rfl, g1, g2 hcf, (takeField_ok ht).2⟩
      | long key value =>
        rw [bindField] at hb1
        split at hb1
        · cases hb1
        · rename_i t' left' ht
          obtain ⟨ss, hss, heq'⟩ := Views.map_ok.1 hb1
          cases heq'
          rw [CleanField] at hcf
          obtain ⟨t1, t2⟩ := takeField_ok ht
          obtain ⟨g1, _, g3⟩ := bindSelected_good hS value source' i _ ss hss (hcf.2 i t1)
          exact ⟨single ss, rfl, g1, g3 (hcf.1 rfl), t2⟩
    obtain ⟨s, hcs, sg, sn, hperm⟩ := hsel
    rw [hcs] at hf
    have hcl : create (.list fs' s) = .ok (prepend fs' (fs, inj)) := by rw [create, hf]; rfl
    rw [argValue, argEntries, argEntry, argEntries, argValue] at hj
    rw [show prepend fs' (fs, inj) = ((prepend fs' (fs, inj)).1, (prepend fs' (fs, inj)).2) from rfl] at hcl
    rw [forward_inject hcl hs hcov] at hj
    obtain ⟨es, hes, rfl⟩ := Views.map_ok.1 hj
    obtain ⟨e1, he1, hes⟩ := bind_ok.1 hes
    obtain ⟨x, hx, rfl⟩ := Views.map_ok.1 he1
    cases hes
    have hmean : meaning (nameOf S) (.list fs' s) = readPath fs' (meaning (nameOf S) s) := by
      rw [meaning, spine, readPath_append]
      have : endOf (nameOf S) (.list fs' s) = endOf (nameOf S) s := by
        funext reqs o
        rw [endOf]
      rw [this]
      rfl
    rw [hmean] at hx
    obtain ⟨reqs', v', hv', hx'⟩ := bindPathOpt_val hpath hc1 hp.val hx
    have hwn : ∃ r, (S.input t).ty.wrap = .named r := by
      cases hw : (S.input t).ty.wrap with
      | named r => exact ⟨r, rfl⟩
      | list => rw [hw] at hwl; exact absurd rfl hwl
    obtain ⟨r, hr⟩ := hwn
    rw [hr, hid]
    have := assemble (l := [(i, x)]) hS r hadd hperm (by simp) (by
      intro p hp'
      rw [List.mem_singleton.1 hp']
      exact ⟨sg reqs' v' x hv' hx', fun _ => sn reqs' v' x hv' hx'⟩) (fun _ => rfl)
    exact this
  · exact hc.elim

theorem oneOfAlternatives_mem {args : List Nat} {t : Nat} : ∀ {ss : List Sel} {alts : List (List (Item Unit) × List (Nat × Arg))},
    oneOfAlternatives S args t ss = .ok alts → ∀ a ∈ alts, ∃ s ∈ ss, oneOfAlternative S args t s = .ok a
  | [], alts, h, a, ha => by
    rw [oneOfAlternatives] at h
    cases h
    cases ha
  | s :: ss, alts, h, a, ha => by
    rw [oneOfAlternatives] at h
    obtain ⟨x, hx, h⟩ := bind_ok.1 h
    obtain ⟨xs, hxs, rfl⟩ := Views.map_ok.1 h
    rcases List.mem_cons.1 ha with rfl | ha
    · exact ⟨s, List.mem_cons_self, hx⟩
    · obtain ⟨s', hs', h'⟩ := oneOfAlternatives_mem hxs a ha
      exact ⟨s', List.mem_cons_of_mem _ hs', h'⟩

end Verif.Injection
