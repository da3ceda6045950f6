import Verif.Collect.Shape
namespace Verif.Collect

variable {poss : Nat → List Nat} {env : Nat → Bool}

def setsOf (es : List Entry) (group : List Nat) : List (Nat × Sels) :=
  (es.filter fun e => group.contains e.parent).map fun e => (e.ty, e.sels)

def selsOf (poss : Nat → List Nat) (env : Nat → Bool) (obj : Nat) (sets : List (Nat × Sels)) :
    List Sel := sets.flatMap fun s => selections poss env obj s.2 true

def nextSets (l : List Sel) (key : Nat) : List (Nat × Sels) :=
  l.filterMap fun f => if f.key = key then f.out.map fun t => (t, f.sub) else none

theorem applicable_eq (poss : Nat → List Nat) (group : List Nat) (obj : Nat) (n : Node) :
    applicable poss group obj n = (group.contains n.parent && condsOk poss obj n.conds) := rfl

theorem flat_scoped (pty : Nat) (s : Sels) : ∀ (scope : Nat) (conds : List Nat) (dirs : List Dir),
    Scoped scope s → ∀ o ∈ flat poss pty s conds dirs, ∀ t, o.info.out = some t → Scoped t o.sub := by
  induction s with
  | nil => simp [flat]
  | field key info ds sub rest _ ih =>
    intro scope conds dirs hs o ho t ht
    obtain ⟨_, h2, h3⟩ := hs
    simp only [flat] at ho
    split at ho
    · split at ho
      · rcases List.mem_cons.1 ho with h | h
        · subst h; exact h2 t ht
        · exact ih scope _ _ h3 _ h t ht
      · exact ih scope _ _ h3 _ ho t ht
    · rcases List.mem_cons.1 ho with h | h
      · subst h; exact h2 t ht
      · exact ih scope _ _ h3 _ h t ht
  | frag c0 ds sub rest ih1 ih2 =>
    intro scope conds dirs hs o ho t ht
    cases c0 with
    | none =>
      simp only [flat] at ho
      rcases List.mem_append.1 ho with h | h
      · exact ih1 _ _ _ hs.1 _ h t ht
      · exact ih2 _ _ _ hs.2 _ h t ht
    | some ty =>
      simp only [flat] at ho
      split at ho
      · split at ho
        · rcases List.mem_append.1 ho with h | h
          · exact ih1 _ _ _ hs.1 _ h t ht
          · exact ih2 _ _ _ hs.2 _ h t ht
        · rcases List.mem_append.1 ho with h | h
          · exact ih1 _ _ _ hs.1 _ h t ht
          · exact ih2 _ _ _ hs.2 _ h t ht
      · exact ih2 _ _ _ hs.2 _ ho t ht

/-- What is known of a level. -/
theorem level_tr {es : List Entry} {st : St} (h : level poss es = .ok st)
    (hsc : ∀ e ∈ es, Scoped e.ty e.sels) :
    ∃ tr, Inv st tr ∧ (∀ t ∈ tr, ∀ ty, t.o.info.out = some ty → Scoped ty t.o.sub) ∧
      ∀ (env : Nat → Bool) (group : List Nat) (obj : Nat),
        (∀ s ∈ setsOf es group, obj ∈ poss s.1) →
        (tr.filter fun t => group.contains t.p && condsOk poss obj t.o.conds).map
            (fun t => toSel env t.o) = selsOf poss env obj (setsOf es group) := by
  obtain ⟨tr, hi, hm⟩ := inv_level h
  refine ⟨tr, hi, ?_, ?_⟩
  · intro t ht
    have : (t.p, t.o) ∈ tr.map (fun t => (t.p, t.o)) := List.mem_map.2 ⟨t, ht, rfl⟩
    rw [hm] at this
    obtain ⟨e, he, h2⟩ := List.mem_flatMap.1 this
    obtain ⟨o, ho, h3⟩ := List.mem_map.1 h2
    have h4 : o = t.o := (Prod.mk.inj h3).2
    rw [← h4]
    exact flat_scoped _ _ _ _ _ (hsc e he) _ ho
  · intro env group obj hty
    have h1 : (tr.filter fun t => group.contains t.p && condsOk poss obj t.o.conds).map
        (fun t => toSel env t.o) =
        ((tr.map fun t => (t.p, t.o)).filter fun x : Nat × Occ =>
          group.contains x.1 && condsOk poss obj x.2.conds).map fun x => toSel env x.2 := by
      rw [List.filter_map, List.map_map]; rfl
    rw [h1, hm]
    clear h1 hm hi tr h
    induction es with
    | nil => rfl
    | cons e es ih =>
      have ih := ih (fun e he => hsc e (List.mem_cons_of_mem _ he))
      simp only [List.flatMap_cons, List.filter_append, List.map_append]
      simp only [setsOf, List.filter_cons] at hty ⊢
      cases hg : group.contains e.parent with
      | true =>
        simp only [hg, if_true, List.map_cons, List.forall_mem_cons] at hty ⊢
        rw [ih hty.2]
        simp only [selsOf, List.flatMap_cons, setsOf]
        congr 1
        rw [List.filter_map, List.map_map]
        have := flat_eq (env := env) hty.1 e.sels e.ty [] [] (hsc e (List.mem_cons_self ..)) hty.1
          (by simp [condsOk])
        simp only [dirsOk, List.all_nil] at this
        rw [← this]
        congr 1
        apply List.filter_congr
        intro o _
        simp only [Function.comp, hg, Bool.true_and]
      | false =>
        simp only [hg, Bool.false_eq_true, if_false] at hty ⊢
        rw [ih hty]
        have : (((flat poss e.ty e.sels [] []).map fun o => (e.parent, o)).filter
            fun x : Nat × Occ => group.contains x.1 && condsOk poss obj x.2.conds) = [] := by
          refine List.filter_eq_nil_iff.2 fun x hx => ?_
          obtain ⟨o, _, rfl⟩ := List.mem_map.1 hx
          simp only [hg, Bool.false_and, Bool.false_eq_true, not_false_eq_true]
        rw [this]; rfl

theorem inv_pos_pairwise {st : St} {tr : List Tr} (h : Inv st tr) :
    st.nodes.Pairwise fun a b => a.pos < b.pos := by
  rw [List.pairwise_iff_getElem]
  intro i j hi hj hij
  rw [h.pos i _ (List.getElem?_eq_getElem hi), h.pos j _ (List.getElem?_eq_getElem hj)]
  omega

theorem inv_pos_pos {st : St} {tr : List Tr} (h : Inv st tr) : ∀ n ∈ st.nodes, 0 < n.pos := by
  intro n hn
  obtain ⟨i, hi⟩ := List.getElem?_of_mem hn
  rw [h.pos i n hi]; omega

theorem included_eq (n : Node) : included env n = dirsOk env n.dirs := by
  simp only [included, dirsOk]
  rw [List.not_any_eq_all_not]
  congr 1
  funext d
  cases d.skip <;> cases env d.cond <;> rfl

theorem dirsOk_perm {a b : List Dir} (h : a.Perm b) : dirsOk env a = dirsOk env b := h.all_eq

theorem inv_keys {st : St} {tr : List Tr} (h : Inv st tr) (env : Nat → Bool) (group : List Nat)
    (obj : Nat) :
    ((firstOfKey Node.key (fieldsOf poss st.nodes group obj)).filter (included env)).map Node.key =
      ((firstOfKey Sel.key ((tr.filter fun t => group.contains t.p && condsOk poss obj t.o.conds).map
            (fun t => toSel env t.o))).filter Sel.inc).map Sel.key := by
  rw [firstOfKey_filter_keys, firstOfKey_filter_keys, List.map_map]
  have ho := h.order fun p c => group.contains p && condsOk poss obj c
  have e1 : fieldsOf poss st.nodes group obj =
      st.nodes.filter fun n => group.contains n.parent && condsOk poss obj n.conds := rfl
  have e2 : (Sel.key ∘ fun t : Tr => toSel env t.o) = fun t => t.o.key := rfl
  rw [e1, ho, e2]
  apply List.filter_congr
  intro k _
  have hf := find_append_match (q := fun p c => group.contains p && condsOk poss obj c) (h.first (fun p c => group.contains p && condsOk poss obj c) k)
  rw [List.find?_filter, List.find?_map, Option.any_map, List.find?_filter]
  have e3 : ((fun x => x.key == k) ∘ fun t : Tr => toSel env t.o) = fun t => t.o.key == k := rfl
  rw [e3]
  have e4 : (fun t : Tr => (toSel env t.o).inc) = fun t => dirsOk env t.o.dirs := rfl
  rw [e4]
  rcases hf with ⟨h1, h2⟩ | ⟨n, t, h1, h2, h3⟩
  · simp only [Bool.decide_and, Bool.decide_eq_true] at *
    rw [h1, h2]; rfl
  · simp only [Bool.decide_and, Bool.decide_eq_true] at *
    rw [h1, h2]
    simp only [Option.any_some, included_eq, dirsOk_perm h3]

theorem inv_next {st : St} {tr : List Tr} (h : Inv st tr) (env : Nat → Bool) (group : List Nat)
    (obj key : Nat) :
    setsOf st.queue (groupOf poss st.nodes group obj key) =
      nextSets ((tr.filter fun t => group.contains t.p && condsOk poss obj t.o.conds).map
            (fun t => toSel env t.o)) key := by
  have hmem : ∀ t ∈ tr, (groupOf poss st.nodes group obj key).contains t.i =
      (decide (t.o.key = key) && (group.contains t.p && condsOk poss obj t.o.conds)) := by
    intro t ht
    obtain ⟨n, hn, hm⟩ := h.node t ht
    rw [Bool.eq_iff_iff]
    simp only [groupOf, List.contains_iff_mem, List.mem_map, List.mem_filter,
      List.mem_zipIdx_iff_getElem?, Bool.and_eq_true, applicable_eq]
    constructor
    · rintro ⟨⟨m, i⟩, ⟨h1, h2, h3⟩, rfl⟩
      simp only at h1 h2 h3
      rw [hn] at h1
      cases h1
      rw [hm.parent, hm.conds] at h3
      rw [hm.key] at h2
      exact ⟨decide_eq_true (beq_iff_eq.1 h2), by simpa using h3⟩
    · rintro ⟨h1, h2⟩
      refine ⟨(n, t.i), ⟨hn, ?_, ?_⟩, rfl⟩
      · rw [hm.key]; simpa using h1
      · rw [hm.parent, hm.conds]; simpa using h2
  rw [setsOf, h.queue, nextSets]
  clear h
  induction tr with
  | nil => rfl
  | cons t tr ih =>
    have ih := ih fun t ht => hmem t (List.mem_cons_of_mem _ ht)
    have ht := hmem t (List.mem_cons_self ..)
    simp only [List.filterMap_cons, List.filter_cons, Tr.entry]
    cases ho : t.o.info.out with
    | none =>
      simp only [Option.map_none]
      rw [ih]
      split
      · simp only [List.map_cons, List.filterMap_cons, toSel, ho, Option.map_none, ite_self]
      · rfl
    | some ty =>
      simp only [Option.map_some, List.filter_cons, ht]
      cases hq : (group.contains t.p && condsOk poss obj t.o.conds) with
      | true =>
        by_cases hk : t.o.key = key
        · simp only [hk, decide_true, Bool.and_true, if_true, List.map_cons, List.filterMap_cons, toSel, ho,
            Option.map_some, ih]
        · simp only [hk, decide_false, Bool.false_and, Bool.false_eq_true, if_false, if_true, List.map_cons,
            List.filterMap_cons, toSel, ih]
      | false =>
        simp only [Bool.and_false, Bool.false_eq_true, if_false, ih]

theorem inv_scoped {st : St} {tr : List Tr} (h : Inv st tr)
    (hs : ∀ t ∈ tr, ∀ ty, t.o.info.out = some ty → Scoped ty t.o.sub) :
    ∀ e ∈ st.queue, Scoped e.ty e.sels := by
  intro e he
  rw [h.queue] at he
  obtain ⟨t, ht, h2⟩ := List.mem_filterMap.1 he
  simp only [Tr.entry] at h2
  cases ho : t.o.info.out with
  | none => simp [ho] at h2
  | some ty =>
    simp only [ho, Option.map_some, Option.some.injEq] at h2
    subst h2
    exact hs t ht ty ho

theorem mem_firsts_uniform {l : List Sel} {k : Nat} (hu : Uniform l)
    (hk : k ∈ ((firstOfKey Sel.key l).filter Sel.inc).map Sel.key) :
    ∀ a ∈ l, a.key = k → a.inc = true := by
  obtain ⟨x, hx, rfl⟩ := List.mem_map.1 hk
  obtain ⟨h1, h2⟩ := List.mem_filter.1 hx
  intro a ha h
  rw [hu a ha x (mem_of_mem_firstOfKey h1) h, h2]

theorem nextSets_uniform (sets : List (Nat × Sels)) (obj key : Nat)
    (h : ∀ a ∈ selsOf poss env obj sets, a.key = key → a.inc = true) :
    nextSets (selsOf poss env obj sets) key =
      (sets.flatMap fun s => collectFields poss env obj s.2).filterMap fun f =>
        if f.1 = key then f.2.1.map fun t => (t, f.2.2) else none := by
  have e : (sets.flatMap fun s => collectFields poss env obj s.2) =
      ((selsOf poss env obj sets).filter Sel.inc).map fun x => (x.key, x.out, x.sub) := by
    clear h
    induction sets with
    | nil => rfl
    | cons s sets ih =>
      rw [List.flatMap_cons, ih, collect_eq]
      simp only [selsOf, List.flatMap_cons, List.filter_append, List.map_append]
  rw [e]
  generalize selsOf poss env obj sets = l at h
  clear e
  simp only [nextSets]
  induction l with
  | nil => rfl
  | cons a l ih =>
    obtain ⟨h1, h2⟩ := List.forall_mem_cons.1 h
    simp only [List.filterMap_cons, List.filter_cons, ih h2]
    by_cases hk : a.key = key
    · simp only [hk, h1 hk, if_true, List.map_cons, List.filterMap_cons]
    · simp only [hk, if_false]
      split
      · simp only [List.map_cons, List.filterMap_cons, hk, if_false]
      · rfl

/-- The state reached at the end of a path. -/
theorem reach_sets {rank : Nat → Nat} (hr : ∀ a b, rank a = rank b → a = b)
    {lvls lvls' : List (List Node)} {group group' : List Nat} {path : List (Nat × Nat)}
    (h : Reach poss env rank lvls group path lvls' group') :
    ∀ {fuel : Nat} {es : List Entry}, run poss fuel es = .ok lvls →
      (∀ e ∈ es, Scoped e.ty e.sels) → TypedPath poss env (setsOf es group) path →
      ∃ fuel' es', run poss fuel' es' = .ok lvls' ∧ (∀ e ∈ es', Scoped e.ty e.sels) ∧
        setsOf es' group' = allSets poss env (setsOf es group) path ∧
        (UniformPath poss env (setsOf es group) path →
          setsOf es' group' = specSets poss env (setsOf es group) path) := by
  induction h with
  | here lvls group =>
    intro fuel es hrun hs _
    exact ⟨fuel, es, hrun, hs, rfl, fun _ => rfl⟩
  | @step ns rest group obj key path lvls' group' sorted n hsort hn hk hi next ih =>
    intro fuel es hrun hs ht
    cases es with
    | nil => simp [run] at hrun
    | cons e es =>
      cases fuel with
      | zero => simp [run] at hrun
      | succ fuel =>
        simp only [run] at hrun
        split at hrun
        · simp at hrun
        · rename_i st hst
          split at hrun
          · simp at hrun
          · rename_i rest' hrest
            simp only [Except.ok.injEq, List.cons.injEq] at hrun
            obtain ⟨h1, h2⟩ := hrun
            subst h1 h2
            obtain ⟨tr, hi', hsc, hsel⟩ := level_tr hst hs
            have hS := hsel env group obj ht.1
            have hnext := inv_next hi' env group obj key (poss := poss)
            rw [hS] at hnext
            obtain ⟨f', es', hr1, hr2, hr3, hr4⟩ := ih hrest (inv_scoped hi' hsc)
              (by rw [hnext]; exact ht.2)
            refine ⟨f', es', hr1, hr2, ?_, ?_⟩
            · rw [hr3, hnext]; rfl
            · intro hu
              rw [hr4 (by rw [hnext]; exact hu.2), hnext]
              have hkey := inv_keys hi' env group obj (poss := poss)
              rw [hS] at hkey
              have hmem : key ∈ ((firstOfKey Sel.key
                  (selsOf poss env obj (setsOf (e :: es) group))).filter Sel.inc).map Sel.key := by
                rw [← hkey, ← hk]
                refine List.mem_map.2 ⟨n, List.mem_filter.2 ⟨?_, hi⟩, rfl⟩
                exact (shape_perm hr ((inv_pos_pairwise hi').filter _) hsort).mem_iff.1 hn
              rw [nextSets_uniform _ _ _ (mem_firsts_uniform hu.1 hmem)]
              rfl

end Verif.Collect
