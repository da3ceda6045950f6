import Verif.Collect.Path
import Verif.DefaultMerge.Props
import Verif.Collect.Arrival
namespace Verif.Collect

variable {poss : Nat → List Nat} {env : Nat → Bool}

/-- What is common to the theorems: an operation was ingested, an object of type `obj` lies at the
end of a path, its shape is built by sorting and grouping and its keys are written. -/
structure Shown (poss : Nat → List Nat) (env : Nat → Bool) (rank : Nat → Nat) (rootTy : Nat)
    (sels : Sels) (path : List (Nat × Nat)) (obj : Nat) (keys : List Nat) : Prop where
  steps : ∃ fuel lvls ns below group sorted,
    run poss fuel [⟨0, rootTy, sels⟩] = .ok lvls ∧
    Reach poss env rank lvls [0] path (ns :: below) group ∧
    SortedByKey rank sorted (fieldsOf poss ns group obj) ∧
    Written env (groupFirsts none sorted) keys

theorem shown_aux {rank : Nat → Nat} (hr : ∀ a b, rank a = rank b → a = b) {rootTy obj : Nat}
    {sels : Sels} {path : List (Nat × Nat)} {keys : List Nat} (hs : Scoped rootTy sels)
    (ht : TypedPath poss env [(rootTy, sels)] path)
    (ho : ∀ s ∈ allSets poss env [(rootTy, sels)] path, obj ∈ poss s.1)
    (h : Shown poss env rank rootTy sels path obj keys) :
    ∃ sets, sets = allSets poss env [(rootTy, sels)] path ∧
      (UniformPath poss env [(rootTy, sels)] path →
        sets = specSets poss env [(rootTy, sels)] path) ∧
      keys = ((firstOfKey Sel.key (selsOf poss env obj sets)).filter Sel.inc).map Sel.key := by
  obtain ⟨fuel, lvls, ns, below, group, sorted, h1, h2, h3, h4⟩ := h.steps
  obtain ⟨fuel', es', hr1, hr2, hr3, hr4⟩ := reach_sets hr h2 h1 (by simpa using hs) ht
  refine ⟨setsOf es' group, hr3, hr4, ?_⟩
  cases es' with
  | nil => simp [run] at hr1
  | cons e es =>
    cases fuel' with
    | zero => simp [run] at hr1
    | succ fuel' =>
      simp only [run] at hr1
      split at hr1
      · simp at hr1
      · rename_i st hst
        split at hr1
        · simp at hr1
        · simp only [Except.ok.injEq, List.cons.injEq] at hr1
          obtain ⟨rfl, _⟩ := hr1
          obtain ⟨tr, hi, _, hsel⟩ := level_tr hst hr2
          have hS := hsel env group obj (by rw [hr3]; exact ho)
          have hk := inv_keys hi env group obj (poss := poss)
          rw [hS] at hk
          rw [← hk]
          refine written_eq hr ((inv_pos_pairwise hi).filter _) ?_ h3 h4
          intro n hn
          exact inv_pos_pos hi n (List.mem_filter.1 hn).1

/-- **C14** (what the code does): the keys of an object are, in document order, those whose *first*
applicable selection is kept by `@skip` and `@include`.  For every operation, variable assignment and
object of the response. -/
theorem C14_first_selection_decides {rank : Nat → Nat} (hr : ∀ a b, rank a = rank b → a = b)
    {rootTy obj : Nat} {sels : Sels} {path : List (Nat × Nat)} {keys : List Nat}
    (hs : Scoped rootTy sels) (ht : TypedPath poss env [(rootTy, sels)] path)
    (ho : ∀ s ∈ allSets poss env [(rootTy, sels)] path, obj ∈ poss s.1)
    (h : Shown poss env rank rootTy sels path obj keys) :
    keys = ((firstOfKey Sel.key ((allSets poss env [(rootTy, sels)] path).flatMap fun s =>
      selections poss env obj s.2 true)).filter Sel.inc).map Sel.key := by
  obtain ⟨sets, h1, _, h3⟩ := shown_aux hr hs ht ho h
  rw [h3, h1]; rfl

/-- **C14** (part): the keys of an object are those of `CollectFields`, in the same order, when all
the selections of a response key that meet in one object agree on whether they are kept. -/
theorem C14_collected_partial {rank : Nat → Nat} (hr : ∀ a b, rank a = rank b → a = b)
    {rootTy obj : Nat} {sels : Sels} {path : List (Nat × Nat)} {keys : List Nat}
    (hs : Scoped rootTy sels) (ht : TypedPath poss env [(rootTy, sels)] path)
    (ho : ∀ s ∈ allSets poss env [(rootTy, sels)] path, obj ∈ poss s.1)
    (hu : UniformPath poss env [(rootTy, sels)] path)
    (hu' : Uniform ((allSets poss env [(rootTy, sels)] path).flatMap fun s =>
      selections poss env obj s.2 true))
    (h : Shown poss env rank rootTy sels path obj keys) :
    keys = specKeys poss env (specSets poss env [(rootTy, sels)] path) obj := by
  obtain ⟨sets, h1, h2, h3⟩ := shown_aux hr hs ht ho h
  rw [h3, ← h2 hu, specKeys]
  rw [← h1] at hu'
  have e : (sets.flatMap fun s => collectFields poss env obj s.2) =
      ((selsOf poss env obj sets).filter Sel.inc).map fun x => (x.key, x.out, x.sub) := by
    clear h1 h2 h3 hu'
    induction sets with
    | nil => rfl
    | cons s sets ih =>
      rw [List.flatMap_cons, ih, collect_eq]
      simp only [selsOf, List.flatMap_cons, List.filter_append, List.map_append]
  rw [e, List.map_map]
  have hu : Uniform (selsOf poss env obj sets) := hu'
  generalize selsOf poss env obj sets = l at hu
  have e2 : (Prod.fst ∘ fun x : Sel => (x.key, x.out, x.sub)) = Sel.key := rfl
  rw [e2, ← firstOfKey_keys]
  congr 1
  -- the first selections that are kept are the first kept selections
  clear e e2 h1 h2 h3 hu'
  induction l with
  | nil => rfl
  | cons a l ih =>
    have ih := ih fun x hx y hy => hu x (List.mem_cons_of_mem _ hx) y (List.mem_cons_of_mem _ hy)
    simp only [firstOfKey, List.filter_cons]
    have hcomm : ((firstOfKey Sel.key l).filter fun t => decide (t.key ≠ a.key)).filter Sel.inc =
        ((firstOfKey Sel.key l).filter Sel.inc).filter fun t => decide (t.key ≠ a.key) := by
      simp only [List.filter_filter]
      exact List.filter_congr fun x _ => Bool.and_comm ..
    cases ha : a.inc with
    | true => simp only [if_true, firstOfKey, hcomm, ih]
    | false =>
      simp only [Bool.false_eq_true, if_false, hcomm, ih]
      refine List.filter_eq_self.2 fun x hx => ?_
      have hx' := mem_of_mem_firstOfKey hx
      obtain ⟨h1, h2⟩ := List.mem_filter.1 hx'
      simp only [ne_eq, decide_eq_true_eq]
      intro hk
      have := hu x (List.mem_cons_of_mem _ h1) a (List.mem_cons_self ..) hk
      rw [ha, h2] at this
      cases this

/-- **C38**: whatever `@skip` and `@include` do, the keys of an object are written in the order in
which they first occur in the operation, each at most once. -/
theorem C38_document_order {rank : Nat → Nat} (hr : ∀ a b, rank a = rank b → a = b)
    {rootTy obj : Nat} {sels : Sels} {path : List (Nat × Nat)} {keys : List Nat}
    (hs : Scoped rootTy sels) (ht : TypedPath poss env [(rootTy, sels)] path)
    (ho : ∀ s ∈ allSets poss env [(rootTy, sels)] path, obj ∈ poss s.1)
    (h : Shown poss env rank rootTy sels path obj keys) :
    keys.Sublist (((allSets poss env [(rootTy, sels)] path).flatMap fun s =>
      selections poss env obj s.2 true).map Sel.key).eraseDups := by
  rw [C14_first_selection_decides hr hs ht ho h, ← firstOfKey_keys]
  exact List.filter_sublist.map _

/-- Two nodes of a level differ in their parent, response key, type conditions or directives. -/
def Distinct (a b : Node) : Prop :=
  ¬ (a.parent = b.parent ∧ a.key = b.key ∧ a.conds = b.conds ∧ a.dirs.Perm b.dirs)

theorem addField_distinct {st st' : St} {tr : List Tr} (hi : Inv st tr) {p : Nat} {o : Occ}
    (hd : st.nodes.Pairwise Distinct) (h : addField p st o = .ok st') :
    st'.nodes.Pairwise Distinct := by
  simp only [addField] at h
  split at h
  · simp at h
  · rename_i ix hf
    cases ix with
    | some i =>
      simp only [Except.ok.injEq] at h
      subst h; exact hd
    | none =>
      simp only at h
      split at h
      · simp at h
      · simp only [Except.ok.injEq] at h
        subst h
        refine List.pairwise_append.2 ⟨hd, List.pairwise_singleton .., ?_⟩
        intro n hn m hm
        rw [List.mem_singleton.1 hm]
        rintro ⟨h1, h2, h3, h4⟩
        simp only at h1 h2 h3 h4
        split at hf
        · obtain ⟨i, hi'⟩ := List.getElem?_of_mem hn
          refine search_none hf (n, i) ?_ ⟨h1, h2, h3, h4⟩
          rw [List.mem_reverse, List.mem_zipIdx_iff_getElem?]
          exact hi'
        · rename_i hb
          exact hb (mask_and (by rw [← h1, ← h2]; exact hi.bloom n hn))

/-- The bloom filter only skips searches that would not find anything: within a level no two query
fields have the same parent, response key, type conditions and directives. -/
theorem C38_fields_merged (es : List Entry) (st : St) (h : level poss es = .ok st) :
    st.nodes.Pairwise Distinct := by
  have step : ∀ (os : List Occ) (p : Nat) {st st' : St} {tr : List Tr}, Inv st tr →
      st.nodes.length < 65536 → st.nodes.Pairwise Distinct → os.foldlM (addField p) st = .ok st' →
      st'.nodes.Pairwise Distinct := by
    intro os p
    induction os with
    | nil =>
      intro st st' tr _ _ hd hf
      simp only [List.foldlM_nil, pure, Except.pure, Except.ok.injEq] at hf
      subst hf; exact hd
    | cons o os ih =>
      intro st st' tr hi hl hd hf
      simp only [List.foldlM_cons, bind, Except.bind] at hf
      split at hf
      · simp at hf
      · rename_i st1 h1
        obtain ⟨i, hi1, hl1⟩ := inv_addField hi hl h1
        exact ih hi1 hl1 (addField_distinct hi hd h1) hf
  have all : ∀ (es : List Entry) {st st' : St} {tr : List Tr}, Inv st tr →
      st.nodes.length < 65536 → st.nodes.Pairwise Distinct →
      es.foldlM (addEntry poss) st = .ok st' → st'.nodes.Pairwise Distinct := by
    intro es
    induction es with
    | nil =>
      intro st st' tr _ _ hd hf
      simp only [List.foldlM_nil, pure, Except.pure, Except.ok.injEq] at hf
      subst hf; exact hd
    | cons e es ih =>
      intro st st' tr hi hl hd hf
      simp only [List.foldlM_cons, bind, Except.bind] at hf
      split at hf
      · simp at hf
      · rename_i st1 h1
        obtain ⟨tr1, hi1, _, hl1⟩ := inv_foldl _ hi hl h1
        exact ih hi1 hl1 (step _ _ hi hl hd h1) hf
  exact all es inv_init (by simp) (by simp) h

/-- Within a level positions are 1, 2, 3, … in the order in which query fields are created, all of
them below 2^16: the counter never wraps around. -/
theorem C38_positions (es : List Entry) (st : St) (h : level poss es = .ok st) :
    st.nodes.map Node.pos = List.range' 1 st.nodes.length ∧ st.nodes.length < 65536 := by
  obtain ⟨tr, hi, _, hl⟩ := inv_entries es inv_init (by simp) h
  refine ⟨?_, hl⟩
  apply List.ext_getElem?
  intro i
  rw [List.getElem?_map]
  by_cases hlt : i < st.nodes.length
  · rw [List.getElem?_eq_getElem hlt, List.getElem?_range' hlt, Option.map_some,
      hi.pos i _ (List.getElem?_eq_getElem hlt)]
    congr 1; omega
  · rw [List.getElem?_eq_none (by omega), List.getElem?_eq_none (by simp; omega)]; rfl

/-- How deep fields are nested. -/
def height : Sels → Nat
  | .nil => 0
  | .field _ _ _ sub rest => max (height sub + 1) (height rest)
  | .frag _ _ sub rest => max (height sub) (height rest)

theorem flat_height (pty : Nat) (s : Sels) : ∀ (conds : List Nat) (dirs : List Dir),
    ∀ o ∈ flat poss pty s conds dirs, height o.sub < height s := by
  induction s with
  | nil => simp [flat]
  | field key info ds sub rest _ ih =>
    intro conds dirs o ho
    simp only [flat] at ho
    simp only [height]
    split at ho
    · split at ho
      · rcases List.mem_cons.1 ho with h | h
        · subst h; simp only; omega
        · have := ih _ _ _ h; omega
      · have := ih _ _ _ ho; omega
    · rcases List.mem_cons.1 ho with h | h
      · subst h; simp only; omega
      · have := ih _ _ _ h; omega
  | frag c0 ds sub rest ih1 ih2 =>
    intro conds dirs o ho
    simp only [height]
    cases c0 with
    | none =>
      simp only [flat] at ho
      rcases List.mem_append.1 ho with h | h
      · have := ih1 _ _ _ h; omega
      · have := ih2 _ _ _ h; omega
    | some ty =>
      simp only [flat] at ho
      split at ho
      · split at ho
        · rcases List.mem_append.1 ho with h | h
          · have := ih1 _ _ _ h; omega
          · have := ih2 _ _ _ h; omega
        · rcases List.mem_append.1 ho with h | h
          · have := ih1 _ _ _ h; omega
          · have := ih2 _ _ _ h; omega
      · have := ih2 _ _ _ ho; omega

theorem addField_not_fuel {p : Nat} {st : St} {o : Occ} : addField p st o ≠ .error .fuel := by
  have hs : ∀ l : List (Node × Nat), search p o l ≠ .error .fuel := by
    intro l
    induction l with
    | nil => simp [search]
    | cons x xs ih =>
      obtain ⟨n, i⟩ := x
      simp only [search]
      split
      · exact ih
      · split
        · exact ih
        · split
          · simp
          · split
            · simp
            · exact ih
  intro h
  simp only [addField] at h
  split at h
  · rename_i e he
    simp only [Except.error.injEq] at h
    subst h
    split at he
    · exact hs _ he
    · simp at he
  · split at h
    · simp at h
    · split at h
      · rename_i e he
        simp only [Except.error.injEq] at h
        subst h
        simp only [nextPosition] at he
        split at he <;> simp at he
      · simp at h

theorem foldlM_not_fuel {α : Type} {f : St → α → Except Err St}
    (hf : ∀ st a, f st a ≠ .error .fuel) : ∀ (l : List α) (st : St), l.foldlM f st ≠ .error .fuel := by
  intro l
  induction l with
  | nil => intro st; simp [pure, Except.pure]
  | cons a l ih =>
    intro st
    simp only [List.foldlM_cons, bind, Except.bind]
    split
    · rename_i e he
      intro h
      simp only [Except.error.injEq] at h
      subst h
      exact hf _ _ he
    · exact ih _

/-- The number of levels given to `run` does not matter as long as it exceeds the depth of the
operation. -/
theorem C38_fuel (fuel : Nat) (es : List Entry) (h : ∀ e ∈ es, height e.sels < fuel) :
    run poss fuel es ≠ .error .fuel := by
  induction fuel generalizing es with
  | zero =>
    cases es with
    | nil => simp [run]
    | cons e es => have := h e (List.mem_cons_self ..); omega
  | succ fuel ih =>
    cases es with
    | nil => simp [run]
    | cons e es =>
      simp only [run]
      split
      · rename_i err herr
        intro h
        simp only [Except.error.injEq] at h
        subst h
        exact foldlM_not_fuel
          (fun st e => foldlM_not_fuel (fun st a => addField_not_fuel) _ _) _ _ herr
      · rename_i st hst
        obtain ⟨tr, hi, hm⟩ := inv_level hst
        have hq : ∀ e' ∈ st.queue, height e'.sels < fuel := by
          intro e' he'
          rw [hi.queue] at he'
          obtain ⟨t, ht, h2⟩ := List.mem_filterMap.1 he'
          have hmem : (t.p, t.o) ∈ tr.map (fun t => (t.p, t.o)) := List.mem_map.2 ⟨t, ht, rfl⟩
          rw [hm] at hmem
          obtain ⟨e1, he1, h3⟩ := List.mem_flatMap.1 hmem
          obtain ⟨o, ho, h4⟩ := List.mem_map.1 h3
          have h5 : o = t.o := (Prod.mk.inj h4).2
          have h6 := flat_height _ _ _ _ o ho
          have h7 := h e1 he1
          have h8 : e'.sels = t.o.sub := by
            simp only [Tr.entry] at h2
            cases hout : t.o.info.out with
            | none => simp [hout] at h2
            | some ty => simp only [hout, Option.map_some, Option.some.injEq] at h2; rw [← h2]
          rw [h8, ← h5]; omega
        have := ih st.queue hq
        split
        · rename_i err herr
          intro h
          simp only [Except.error.injEq] at h
          subst h
          exact this herr
        · simp

/-! ## Conflicting fields -/

theorem search_args {p : Nat} {o : Occ} {args : Nat} {l : List (Node × Nat)} {r : Option Nat}
    (h : search p o l = .ok r)
    (hd : ∀ x ∈ l, x.1.parent = p → x.1.key = o.key → x.1.defn = o.info.defn ∧ x.1.args = args)
    (hex : ∃ x ∈ l, x.1.parent = p ∧ x.1.key = o.key) : args = o.info.args := by
  induction l with
  | nil => simp at hex
  | cons x xs ih =>
    obtain ⟨n, i⟩ := x
    simp only [search] at h
    have hd' := fun x hx => hd x (List.mem_cons_of_mem _ hx)
    by_cases h1 : n.parent = p
    · by_cases h2 : n.key = o.key
      · obtain ⟨h3, h4⟩ := hd _ (List.mem_cons_self ..) h1 h2
        rw [if_neg (by simp [h1]), if_neg (by simp [h2])] at h
        split at h
        · simp at h
        · rename_i hne
          simp only at h3 h4
          rw [h3, h4] at hne
          exact Classical.byContradiction fun hc => hne ⟨rfl, hc⟩
      · rw [if_neg (by simp [h1]), if_pos h2] at h
        refine ih h hd' ?_
        obtain ⟨y, hy, hy1, hy2⟩ := hex
        rcases List.mem_cons.1 hy with rfl | hy
        · exact absurd hy2 h2
        · exact ⟨y, hy, hy1, hy2⟩
    · rw [if_pos h1] at h
      refine ih h hd' ?_
      obtain ⟨y, hy, hy1, hy2⟩ := hex
      rcases List.mem_cons.1 hy with rfl | hy
      · exact absurd hy1 h1
      · exact ⟨y, hy, hy1, hy2⟩

/-- Every node agrees with every occurrence of its parent and response key. -/
structure Agree (st : St) (tr : List Tr) : Prop where
  node : ∀ n ∈ st.nodes, ∃ t ∈ tr, n.parent = t.p ∧ n.key = t.o.key
  agree : ∀ t ∈ tr, ∀ n ∈ st.nodes, n.parent = t.p → n.key = t.o.key →
    n.defn = t.o.info.defn ∧ n.args = t.o.info.args

theorem agree_addField {st st' : St} {tr : List Tr} {p : Nat} {o : Occ} (hi : Inv st tr)
    (hg : Agree st tr) (hdef : ∀ t ∈ tr, t.p = p → t.o.key = o.key → t.o.info.defn = o.info.defn)
    (h : addField p st o = .ok st') (i : Nat) : Agree st' (tr ++ [⟨p, o, i⟩]) := by
  -- every existing node of this parent and key has the arguments of the new occurrence
  have key : ∀ n ∈ st.nodes, n.parent = p → n.key = o.key →
      n.defn = o.info.defn ∧ n.args = o.info.args := by
    intro n hn h1 h2
    obtain ⟨t, ht, h3, h4⟩ := hg.node n hn
    have h5 := hg.agree t ht n hn h3 h4
    have h6 := hdef t ht (h3.symm.trans h1) (h4.symm.trans h2)
    refine ⟨h5.1.trans h6, ?_⟩
    simp only [addField] at h
    split at h
    · simp at h
    · rename_i ix hf
      rw [if_pos (mask_and (by rw [← h1, ← h2]; exact hi.bloom n hn))] at hf
      refine search_args hf (args := n.args) ?_ ?_
      · intro x hx hx1 hx2
        rw [List.mem_reverse, List.mem_zipIdx_iff_getElem?] at hx
        have hxm := List.mem_of_getElem? hx
        have := hg.agree t ht x.1 hxm (hx1.trans (h1.symm.trans h3)) (hx2.trans (h2.symm.trans h4))
        exact ⟨this.1.trans h6, this.2.trans h5.2.symm⟩
      · obtain ⟨j, hj⟩ := List.getElem?_of_mem hn
        exact ⟨(n, j), by rw [List.mem_reverse, List.mem_zipIdx_iff_getElem?]; exact hj, h1, h2⟩
  have old : ∀ n ∈ st.nodes, ∀ t ∈ tr ++ [(⟨p, o, i⟩ : Tr)], n.parent = t.p → n.key = t.o.key →
      n.defn = t.o.info.defn ∧ n.args = t.o.info.args := by
    intro n hn t ht h1 h2
    rcases List.mem_append.1 ht with ht | ht
    · exact hg.agree t ht n hn h1 h2
    · rw [List.mem_singleton.1 ht] at h1 h2 ⊢; exact key n hn h1 h2
  have oldNode : ∀ n ∈ st.nodes, ∃ t ∈ tr ++ [(⟨p, o, i⟩ : Tr)], n.parent = t.p ∧ n.key = t.o.key := by
    intro n hn
    obtain ⟨t, ht, hx⟩ := hg.node n hn
    exact ⟨t, List.mem_append_left _ ht, hx⟩
  simp only [addField] at h
  split at h
  · simp at h
  · rename_i ix hf
    cases ix with
    | some j =>
      simp only [Except.ok.injEq] at h
      subst h
      exact ⟨oldNode, fun t ht n hn => old n hn t ht⟩
    | none =>
      simp only at h
      split at h
      · simp at h
      · simp only [Except.ok.injEq] at h
        subst h
        refine ⟨?_, ?_⟩
        · intro n hn
          rcases List.mem_append.1 hn with hn | hn
          · exact oldNode n hn
          · rw [List.mem_singleton.1 hn]
            exact ⟨⟨p, o, i⟩, by simp, rfl, rfl⟩
        · intro t ht n hn h1 h2
          rcases List.mem_append.1 hn with hn | hn
          · exact old n hn t ht h1 h2
          · rw [List.mem_singleton.1 hn] at h1 h2 ⊢
            simp only at h1 h2 ⊢
            rcases List.mem_append.1 ht with ht | ht
            · -- an earlier occurrence has a node
              obtain ⟨m, hm, hmm⟩ := hi.node t ht
              have hm := List.mem_of_getElem? hm
              have e1 := key m hm (hmm.parent.trans h1.symm) (hmm.key.trans h2.symm)
              have e2 := hg.agree t ht m hm hmm.parent hmm.key
              exact ⟨e1.1.symm.trans e2.1, e1.2.symm.trans e2.2⟩
            · rw [List.mem_singleton.1 ht]; exact ⟨rfl, rfl⟩

theorem agree_foldl (p : Nat) : ∀ (os : List Occ) {st st' : St} {tr : List Tr}, Inv st tr →
    st.nodes.length < 65536 → Agree st tr →
    (∀ a ∈ tr.map (fun t => (t.p, t.o)) ++ os.map (fun o => (p, o)),
      ∀ b ∈ tr.map (fun t => (t.p, t.o)) ++ os.map (fun o => (p, o)),
      a.1 = b.1 → a.2.key = b.2.key → a.2.info.defn = b.2.info.defn) →
    os.foldlM (addField p) st = .ok st' →
    ∃ tr', Inv st' (tr ++ tr') ∧ tr'.map (fun t => (t.p, t.o)) = os.map (fun o => (p, o)) ∧
      st'.nodes.length < 65536 ∧ Agree st' (tr ++ tr') := by
  intro os
  induction os with
  | nil =>
    intro st st' tr h hl hg _ hf
    simp only [List.foldlM_nil, pure, Except.pure, Except.ok.injEq] at hf
    subst hf
    exact ⟨[], by simpa using h, rfl, hl, by simpa using hg⟩
  | cons o os ih =>
    intro st st' tr h hl hg hd hf
    simp only [List.foldlM_cons, bind, Except.bind] at hf
    split at hf
    · simp at hf
    · rename_i st1 h1
      obtain ⟨i, hi, hl1⟩ := inv_addField h hl h1
      have hg1 := agree_addField h hg (fun t ht h2 h3 =>
        hd (t.p, t.o) (List.mem_append_left _ (List.mem_map.2 ⟨t, ht, rfl⟩)) (p, o)
          (List.mem_append_right _ (by simp)) h2 h3) h1 i
      obtain ⟨tr', h', hm, hl2, hg2⟩ := ih hi hl1 hg1 (by simpa using hd) hf
      exact ⟨⟨p, o, i⟩ :: tr', by simpa using h', by simp [hm], hl2, by simpa using hg2⟩

/-- **C51** (part): within the selection sets of one query field, if selections with the same
response key select the same field of the schema, an accepted operation gives them the same
arguments. -/
theorem C51_arguments_partial (es : List Entry) (st : St) (h : level poss es = .ok st)
    (hd : ∀ e ∈ es, ∀ a ∈ flat poss e.ty e.sels [] [], ∀ e' ∈ es, ∀ b ∈ flat poss e'.ty e'.sels [] [],
      e.parent = e'.parent → a.key = b.key → a.info.defn = b.info.defn) :
    ∀ e ∈ es, ∀ a ∈ flat poss e.ty e.sels [] [], ∀ e' ∈ es, ∀ b ∈ flat poss e'.ty e'.sels [] [],
      e.parent = e'.parent → a.key = b.key → a.info.args = b.info.args := by
  have all : ∀ (es : List Entry) {st st' : St} {tr : List Tr}, Inv st tr →
      st.nodes.length < 65536 → Agree st tr →
      (∀ a ∈ tr.map (fun t => (t.p, t.o)) ++
          es.flatMap (fun e => (flat poss e.ty e.sels [] []).map fun o => (e.parent, o)),
        ∀ b ∈ tr.map (fun t => (t.p, t.o)) ++
          es.flatMap (fun e => (flat poss e.ty e.sels [] []).map fun o => (e.parent, o)),
        a.1 = b.1 → a.2.key = b.2.key → a.2.info.defn = b.2.info.defn) →
      es.foldlM (addEntry poss) st = .ok st' →
      ∃ tr', Inv st' (tr ++ tr') ∧ tr'.map (fun t => (t.p, t.o)) =
        es.flatMap (fun e => (flat poss e.ty e.sels [] []).map fun o => (e.parent, o)) ∧
        Agree st' (tr ++ tr') := by
    intro es
    induction es with
    | nil =>
      intro st st' tr h _ hg _ hf
      simp only [List.foldlM_nil, pure, Except.pure, Except.ok.injEq] at hf
      subst hf
      exact ⟨[], by simpa using h, rfl, by simpa using hg⟩
    | cons e es ih =>
      intro st st' tr h hl hg hd hf
      simp only [List.foldlM_cons, bind, Except.bind] at hf
      split at hf
      · simp at hf
      · rename_i st1 h1
        obtain ⟨tr1, hi, hm1, hl1, hg1⟩ := agree_foldl e.parent _ h hl hg (by
          intro a ha b hb
          refine hd a ?_ b ?_
          · rcases List.mem_append.1 ha with ha | ha
            · exact List.mem_append_left _ ha
            · exact List.mem_append_right _ (by simp only [List.flatMap_cons]; exact List.mem_append_left _ ha)
          · rcases List.mem_append.1 hb with hb | hb
            · exact List.mem_append_left _ hb
            · exact List.mem_append_right _ (by simp only [List.flatMap_cons]; exact List.mem_append_left _ hb)) h1
        obtain ⟨tr', h', hm, hg2⟩ := ih hi hl1 hg1 (by
          simpa only [List.map_append, hm1, List.append_assoc, List.flatMap_cons] using hd) hf
        exact ⟨tr1 ++ tr', by simpa using h', by simp [hm, hm1], by simpa using hg2⟩
  obtain ⟨tr, hi, hm, hg⟩ := all es inv_init (by simp) ⟨by simp, by simp⟩ (by
    intro a ha b hb h1 h2
    simp only [List.map_nil, List.nil_append] at ha hb
    obtain ⟨e, he, hx⟩ := List.mem_flatMap.1 ha
    obtain ⟨o, ho, rfl⟩ := List.mem_map.1 hx
    obtain ⟨e', he', hx'⟩ := List.mem_flatMap.1 hb
    obtain ⟨o', ho', rfl⟩ := List.mem_map.1 hx'
    exact hd e he o ho e' he' o' ho' h1 h2) h
  intro e he a ha e' he' b hb h1 h2
  have find : ∀ e ∈ es, ∀ a ∈ flat poss e.ty e.sels [] [], ∃ t ∈ tr, t.p = e.parent ∧ t.o = a := by
    intro e he a ha
    have : (e.parent, a) ∈ tr.map (fun t => (t.p, t.o)) := by
      rw [hm]; exact List.mem_flatMap.2 ⟨e, he, List.mem_map.2 ⟨a, ha, rfl⟩⟩
    obtain ⟨t, ht, hx⟩ := List.mem_map.1 this
    exact ⟨t, ht, (Prod.mk.inj hx).1, (Prod.mk.inj hx).2⟩
  obtain ⟨t, ht, e1, e2⟩ := find e he a ha
  obtain ⟨t', ht', e1', e2'⟩ := find e' he' b hb
  simp only [List.nil_append] at hi hg
  obtain ⟨n, hn, hmn⟩ := hi.node t ht
  have hn := List.mem_of_getElem? hn
  have g1 := hg.agree t ht n hn hmn.parent hmn.key
  have g2 := hg.agree t' ht' n hn (by rw [hmn.parent, e1, e1', h1]) (by rw [hmn.key, e2, e2', h2])
  rw [← e2, ← e2', ← g1.2, ← g2.2]

/-! ## Order of arrival -/

section Arrival
open Verif.DefaultMerge

theorem valuesAt_ne_nil {V : Type} {l : List (Field V)} {k : Key} :
    valuesAt l k ≠ [] ↔ k ∈ l.map Field.key := by
  simp only [valuesAt, ne_eq, List.map_eq_nil_iff, List.filter_eq_nil_iff, List.mem_map]
  constructor
  · intro h
    refine Classical.byContradiction fun hc => h fun f hf => ?_
    simp only [decide_eq_true_eq]
    exact fun hk => hc ⟨f, hf, hk⟩
  · rintro ⟨f, hf, rfl⟩ h
    exact h f hf (by simp)

theorem merged_keys {V : Type} {mergeV : V → V → Option V} {e n out : List (Field V)}
    (h : Merged mergeV e n out) (k : Key) :
    k ∈ out.map Field.key ↔ k ∈ e.map Field.key ∨ k ∈ n.map Field.key := by
  have hk := h k
  simp only [← valuesAt_ne_nil]
  split at hk
  · rename_i h1; rw [hk, h1]; simp
  · rename_i h1 _; rw [hk, h1]; simp
  · rename_i h1 h2
    obtain ⟨v, _, hv⟩ := hk
    rw [hv, h1, h2]; simp

theorem ingest_keys {V : Type} {mergeV : V → V → Option V} {start out : List (Field V)}
    {us : List (List (Field V))} (h : Ingest mergeV start us out) (hs : Ordered start)
    (hu : ∀ u ∈ us, Ordered u) :
    Ordered out ∧
      ∀ k, k ∈ out.map Field.key ↔ k ∈ start.map Field.key ∨ ∃ u ∈ us, k ∈ u.map Field.key := by
  induction h with
  | done fields => exact ⟨hs, by simp⟩
  | @update fields u merged fields' rest out hm hsort next ih =>
    obtain ⟨h1, h2⟩ := C11_merge_fields mergeV _ _ _ _ hs (hu u (List.mem_cons_self ..)) hm hsort
    obtain ⟨h3, h4⟩ := ih h2 fun u hu' => hu u (List.mem_cons_of_mem _ hu')
    refine ⟨h3, fun k => ?_⟩
    rw [h4, merged_keys h1, List.exists_mem_cons_iff, or_assoc]

/-- **C38**: the keys of an object do not depend on the order in which its updates arrive. -/
theorem C38_arrival_order {V : Type} {mergeV : V → V → Option V} {start out out' : List (Field V)}
    {us us' : List (List (Field V))} (hp : us.Perm us') (hs : Ordered start)
    (hu : ∀ u ∈ us, Ordered u) (h : Ingest mergeV start us out) (h' : Ingest mergeV start us' out') :
    out.map Field.key = out'.map Field.key := by
  obtain ⟨h1, h2⟩ := ingest_keys h hs hu
  obtain ⟨h1', h2'⟩ := ingest_keys h' hs fun u hx => hu u (hp.mem_iff.2 hx)
  have irr : ∀ a : Key, ¬ a.Before a := by
    intro a h; rcases h with h | h <;> omega
  have asym : ∀ a b : Key, a.Before b → b.Before a → a = b := by
    intro a b h1 h2
    rcases h1 with h1 | h1 <;> rcases h2 with h2 | h2 <;> omega
  have e1 : (out.map Field.key).Pairwise Key.Before := List.pairwise_map.2 h1
  have e2 : (out'.map Field.key).Pairwise Key.Before := List.pairwise_map.2 h1'
  refine List.Perm.eq_of_pairwise (le := Key.Before) (fun a b _ _ => asym a b) e1 e2 ?_
  refine (List.perm_ext_iff_of_nodup (e1.imp fun h e => ?_) (e2.imp fun h e => ?_)).2 fun k => ?_
  · subst e; exact irr _ h
  · subst e; exact irr _ h
  · rw [h2, h2']
    constructor
    · rintro (h | ⟨u, hu, h⟩)
      · exact Or.inl h
      · exact Or.inr ⟨u, hp.mem_iff.1 hu, h⟩
    · rintro (h | ⟨u, hu, h⟩)
      · exact Or.inl h
      · exact Or.inr ⟨u, hp.mem_iff.2 hu, h⟩

/-- **C38**: after any updates, in any order, the keys written are exactly those with a position, in
the order of their positions. -/
theorem C38_written {V : Type} {mergeV : V → V → Option V} {start out : List (Field V)}
    {us : List (List (Field V))} (hs : Ordered start) (hu : ∀ u ∈ us, Ordered u)
    (h : Ingest mergeV start us out) :
    ((serialise out).Pairwise fun a b => a.pos < b.pos ∨ (a.pos = b.pos ∧ a.key < b.key)) ∧
      ∀ k, k ∈ serialise out ↔
        k.pos ≠ 0 ∧ (k ∈ start.map Field.key ∨ ∃ u ∈ us, k ∈ u.map Field.key) := by
  obtain ⟨h1, h2⟩ := ingest_keys h hs hu
  have key : serialise out = (out.map Field.key).filter fun k => k.pos ≠ 0 := by
    clear h2 h
    induction out with
    | nil => rfl
    | cons f out ih =>
      obtain ⟨ha, hb⟩ := List.pairwise_cons.1 h1
      simp only [serialise, List.map_cons, List.filter_cons, decide_eq_true_eq]
      split
      · rename_i h0
        congr 1
        symm
        refine List.filter_eq_self.2 fun k hk => ?_
        obtain ⟨g, hg, rfl⟩ := List.mem_map.1 hk
        have := ha g hg
        simp only [decide_eq_true_eq]
        rcases this with h | h <;> omega
      · exact ih hb
  rw [key]
  refine ⟨(List.pairwise_map.2 h1 : (out.map Field.key).Pairwise _).filter _, fun k => ?_⟩
  rw [List.mem_filter, h2]
  simp only [decide_eq_true_eq]
  exact And.comm

/-- The mask of `with_query_position_if`, `response_key.rs:32-41`, on 16 bits: the position is kept or
becomes `None`. -/
theorem C38_position_mask (p : BitVec 16) (included : Bool) :
    p &&& (~~~ (if included then 1#16 else 0#16) + 1#16) = if included then p else 0#16 := by
  cases included
  · simp
  · have : (~~~ (1#16) + 1#16) = BitVec.allOnes 16 := by decide
    simp only [if_true, this, BitVec.and_allOnes]

/-- The comparison of `cmp_with_none_last`, `response_key.rs:11-21`: `None` (0) comes after every
position, positions are in their order. -/
theorem C38_none_last (a b : BitVec 16) :
    (a - 1#16 < b - 1#16) ↔ (a ≠ 0#16 ∧ (b = 0#16 ∨ a < b)) := by
  have ha := a.isLt
  have hb := b.isLt
  simp only [BitVec.lt_def, BitVec.toNat_sub, ne_eq, ← BitVec.toNat_inj, BitVec.toNat_ofNat]
  omega

/-- Three updates with interleaved keys and one hidden field: both orders exist and write 1, 2, 3. -/
example : ∃ out, Ingest (V := Nat) (fun _ _ => none) []
      [[⟨⟨2, 9⟩, 0⟩], [⟨⟨0, 4⟩, 1⟩, ⟨⟨1, 7⟩, 1⟩], [⟨⟨3, 1⟩, 2⟩]] out ∧
      serialise out = [⟨1, 7⟩, ⟨2, 9⟩, ⟨3, 1⟩] := by
  refine ⟨[⟨⟨0, 4⟩, 1⟩, ⟨⟨1, 7⟩, 1⟩, ⟨⟨2, 9⟩, 0⟩, ⟨⟨3, 1⟩, 2⟩],
    .update (fields' := [⟨⟨2, 9⟩, 0⟩]) (merged := [⟨⟨2, 9⟩, 0⟩]) (by simp only [mergeObject, mergeLoop]; rfl)
      ⟨List.Perm.refl _, by unfold Sorted; decide⟩
    (.update (fields' := [⟨⟨0, 4⟩, 1⟩, ⟨⟨1, 7⟩, 1⟩, ⟨⟨2, 9⟩, 0⟩])
      (merged := [⟨⟨2, 9⟩, 0⟩, ⟨⟨0, 4⟩, 1⟩, ⟨⟨1, 7⟩, 1⟩]) ?_ ⟨by decide, by unfold Sorted; decide⟩
    (.update (merged := [⟨⟨0, 4⟩, 1⟩, ⟨⟨1, 7⟩, 1⟩, ⟨⟨2, 9⟩, 0⟩, ⟨⟨3, 1⟩, 2⟩]) ?_
      ⟨List.Perm.refl _, by unfold Sorted; decide⟩ (.done _))), by decide⟩
  · simp only [mergeObject, mergeLoop, Key.cmp]; rfl
  · simp only [mergeObject, mergeLoop, Key.cmp]; rfl

end Arrival

/-! ## Concrete cases -/

/-- Type 0 is `Query`, an object type; type 1 is an interface implemented by the objects 1 and 2;
type 2 and 3 are those objects. -/
def possEx : Nat → List Nat
  | 0 => [0]
  | 1 => [1, 2]
  | 2 => [1]
  | 3 => [2]
  | _ => []

def leaf (ty key : Nat) (dirs : List Dir) (rest : Sels) : Sels :=
  .field key ⟨some ty, key, 0, none⟩ dirs .nil rest

/-- `{ a { x ... on T2 { y } } b a { z x } }` with `a` (key 10) of the interface type 1. -/
def opEx : Sels :=
  .field 10 ⟨some 0, 10, 0, some 1⟩ [] (leaf 1 20 [] (.frag (some 2) [] (leaf 2 21 [] .nil) .nil))
    (leaf 0 11 [] (.field 10 ⟨some 0, 10, 0, some 1⟩ [] (leaf 1 22 [] (leaf 1 20 [] .nil)) .nil))

/-- Its nodes: `a` and `b`, then `x`, `y` (under a type condition) and `z`. -/
example : run possEx 3 [⟨0, 0, opEx⟩] =
    .ok [[⟨0, 10, 10, 0, [], [], 1⟩, ⟨0, 11, 11, 0, [], [], 2⟩],
      [⟨0, 20, 20, 0, [], [], 1⟩, ⟨0, 21, 21, 0, [2], [], 2⟩, ⟨0, 22, 22, 0, [], [], 3⟩]] := by
  rfl

/-- The hypotheses of the theorems above are met by the object at `a` of type 1, and its keys are
`x`, `y`, `z`. -/
example : Shown possEx (fun _ => true) id 0 opEx [(0, 10)] 1 [20, 21, 22] ∧ Scoped 0 opEx ∧
    TypedPath possEx (fun _ => true) [(0, opEx)] [(0, 10)] ∧
    (∀ s ∈ allSets possEx (fun _ => true) [(0, opEx)] [(0, 10)], 1 ∈ possEx s.1) ∧
    UniformPath possEx (fun _ => true) [(0, opEx)] [(0, 10)] := by
  refine ⟨⟨3, _, [⟨0, 20, 20, 0, [], [], 1⟩, ⟨0, 21, 21, 0, [2], [], 2⟩, ⟨0, 22, 22, 0, [], [], 3⟩], [],
      [0], _, rfl, ?_, ⟨List.Perm.refl _, by decide⟩, ⟨_, List.Perm.refl _, by decide, by decide⟩⟩,
      ?_, ?_, ?_, ?_⟩
  · refine .step _ ⟨0, 10, 10, 0, [], [], 1⟩ ⟨List.Perm.refl _, by decide⟩ (by decide) rfl rfl ?_
    exact .here _ _
  · simp [Scoped, opEx, leaf]
  · simp [TypedPath, possEx]
  · decide
  · simp only [UniformPath, Uniform]; decide

/-- `{ a @skip(if: true) a }`. -/
def opSkipFirst : Sels := leaf 0 10 [⟨true, 0⟩] (leaf 0 10 [] .nil)

/-- **C14 is false of the code**: of `{ a @skip(if: true) a }` the code shows nothing, although the
second selection of `a` is not skipped.  The shape has a single field for both selections and takes
the condition of the first. -/
theorem C14_false :
    Scoped 0 opSkipFirst ∧ Shown possEx (fun _ => true) id 0 opSkipFirst [] 0 [] ∧
      specKeys possEx (fun _ => true) (specSets possEx (fun _ => true) [(0, opSkipFirst)] []) 0 =
        [10] := by
  refine ⟨by simp [Scoped, opSkipFirst, leaf], ⟨2, _,
    [⟨0, 10, 10, 0, [], [⟨true, 0⟩], 1⟩, ⟨0, 10, 10, 0, [], [], 2⟩], [], [0], _, rfl,
    .here _ _, ⟨List.Perm.refl _, by decide⟩, ⟨_, List.Perm.refl _, by decide, by decide⟩⟩, by decide⟩

/-- `{ a { x } a @skip(if: true) { y } }` with `a` of the object type 2. -/
def opSkipSecond : Sels :=
  .field 10 ⟨some 0, 10, 0, some 2⟩ [] (leaf 2 20 [] .nil)
    (.field 10 ⟨some 0, 10, 0, some 2⟩ [⟨true, 0⟩] (leaf 2 21 [] .nil) .nil)

/-- **C14 is false of the code**, the other way round: of `{ a { x } a @skip(if: true) { y } }` the
code shows `y` in `a` although the only selection that asks for it is skipped. -/
theorem C14_false_shown :
    Scoped 0 opSkipSecond ∧ Shown possEx (fun _ => true) id 0 opSkipSecond [(0, 10)] 1 [20, 21] ∧
      specKeys possEx (fun _ => true)
        (specSets possEx (fun _ => true) [(0, opSkipSecond)] [(0, 10)]) 1 = [20] := by
  refine ⟨by simp [Scoped, opSkipSecond, leaf], ⟨3, _,
    [⟨0, 20, 20, 0, [], [], 1⟩, ⟨1, 21, 21, 0, [], [], 2⟩], [], [0, 1], _, rfl,
    ?_, ⟨List.Perm.refl _, by decide⟩, ⟨_, List.Perm.refl _, by decide, by decide⟩⟩, by decide⟩
  refine .step _ ⟨0, 10, 10, 0, [], [], 1⟩ ⟨List.Perm.refl _, by decide⟩ (by decide) rfl rfl ?_
  exact .here _ _

/-- The hypothesis of `C51_arguments_partial` is met by a level with a repeated field, and with other
arguments the level is rejected. -/
example :
    (level possEx [⟨0, 0, .field 10 ⟨some 0, 1, 5, none⟩ [] .nil
      (.field 10 ⟨some 0, 1, 5, none⟩ [⟨true, 0⟩] .nil .nil)⟩]).map (fun st => st.nodes.length) = .ok 2 ∧
    (level possEx [⟨0, 0, .field 10 ⟨some 0, 1, 5, none⟩ [] .nil
      (.field 10 ⟨some 0, 1, 6, none⟩ [⟨true, 0⟩] .nil .nil)⟩]).map (fun st => st.nodes.length) =
      .error .arguments := ⟨rfl, rfl⟩

/-- **C51 is false of the code**: two fields with the same response key but different definitions,
`{ a: x a: y }`, are not rejected: the second one is merged in the first and never requested. -/
theorem C51_false_definitions :
    run possEx 2 [⟨0, 0, .field 10 ⟨some 0, 1, 0, none⟩ [] .nil
      (.field 10 ⟨some 0, 2, 0, none⟩ [] .nil .nil)⟩] = .ok [[⟨0, 10, 1, 0, [], [], 1⟩]] := rfl

/-- **C51 is false of the code**: `{ a { x(n: 1) } ... @include(if: true) { a { x(n: 2) } } }` is not
rejected, because the two `a` are different nodes; the object at `a` shows a single `x`. -/
theorem C51_false_arguments :
    Shown possEx (fun _ => true) id 0
      (.field 10 ⟨some 0, 10, 0, some 2⟩ [] (.field 20 ⟨some 2, 20, 1, none⟩ [] .nil .nil)
        (.frag none [⟨false, 0⟩]
          (.field 10 ⟨some 0, 10, 0, some 2⟩ [] (.field 20 ⟨some 2, 20, 2, none⟩ [] .nil .nil) .nil) .nil))
      [(0, 10)] 1 [20] := by
  refine ⟨3, _, [⟨0, 20, 20, 1, [], [], 1⟩, ⟨1, 20, 20, 2, [], [], 2⟩], [], [0, 1], _, rfl,
    ?_, ⟨List.Perm.refl _, by decide⟩, ⟨_, List.Perm.refl _, by decide, by decide⟩⟩
  refine .step _ ⟨0, 10, 10, 0, [], [], 1⟩ ⟨List.Perm.refl _, by decide⟩ (by decide) rfl rfl ?_
  exact .here _ _

end Verif.Collect
