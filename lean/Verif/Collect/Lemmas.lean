import Verif.Collect.Spec
namespace Verif.Collect

variable {poss : Nat → List Nat} {env : Nat → Bool}

def toSel (env : Nat → Bool) (o : Occ) : Sel := ⟨o.key, dirsOk env o.dirs, o.info.out, o.sub⟩

def condsOk (poss : Nat → List Nat) (obj : Nat) (cs : List Nat) : Bool :=
  cs.all fun c => (poss c).contains obj

theorem dirsOk_append (a b : List Dir) : dirsOk env (a ++ b) = (dirsOk env a && dirsOk env b) := by
  simp [dirsOk]

theorem canBePresent_of {pty ty obj : Nat} (h1 : obj ∈ poss pty) (h2 : obj ∈ poss ty) :
    canBePresent poss pty ty = true := by
  simp [canBePresent]; exact Or.inr ⟨obj, h1, h2⟩

theorem flat_conds (pty : Nat) (s : Sels) : ∀ (conds : List Nat) (dirs : List Dir),
    ∀ o ∈ flat poss pty s conds dirs, ∀ c ∈ conds, c ∈ o.conds := by
  induction s with
  | nil => simp [flat]
  | field key info ds sub rest _ ih =>
    intro conds dirs o ho c hc
    simp only [flat] at ho
    split at ho
    · split at ho
      · rcases List.mem_cons.1 ho with h | h
        · subst h; exact hc
        · exact ih _ _ _ h _ hc
      · exact ih _ _ _ ho _ hc
    · rcases List.mem_cons.1 ho with h | h
      · subst h; exact hc
      · exact ih _ _ _ h _ hc
  | frag c0 ds sub rest ih1 ih2 =>
    intro conds dirs o ho c hc
    cases c0 with
    | none =>
      simp only [flat] at ho
      rcases List.mem_append.1 ho with h | h
      · exact ih1 _ _ _ h _ hc
      · exact ih2 _ _ _ h _ hc
    | some ty =>
      simp only [flat] at ho
      split at ho
      · split at ho
        · rcases List.mem_append.1 ho with h | h
          · exact ih1 _ _ _ h _ hc
          · exact ih2 _ _ _ h _ hc
        · rcases List.mem_append.1 ho with h | h
          · exact ih1 _ _ _ h _ (List.mem_append_left _ hc)
          · exact ih2 _ _ _ h _ hc
      · exact ih2 _ _ _ ho _ hc

theorem flat_not_ok {obj pty : Nat} (s : Sels) (conds : List Nat) (dirs : List Dir)
    (h : condsOk poss obj conds = false) :
    (flat poss pty s conds dirs).filter (fun o => condsOk poss obj o.conds) = [] := by
  refine List.filter_eq_nil_iff.2 fun o ho => ?_
  simp only [condsOk, List.all_eq_false] at h ⊢
  obtain ⟨c, hc, hn⟩ := h
  have := flat_conds pty s conds dirs o ho c hc
  simp only [List.all_eq_true, Classical.not_forall]
  exact ⟨c, this, hn⟩

/-- The occurrences kept for an object type are the selections of the specification. -/
theorem flat_eq {obj pty : Nat} (hp : obj ∈ poss pty) (s : Sels) :
    ∀ (scope : Nat) (conds : List Nat) (dirs : List Dir), Scoped scope s → obj ∈ poss scope →
      condsOk poss obj conds = true →
      ((flat poss pty s conds dirs).filter fun o => condsOk poss obj o.conds).map (toSel env) =
        selections poss env obj s (dirsOk env dirs) := by
  induction s with
  | nil => simp [flat, selections]
  | field key info ds sub rest _ ih =>
    intro scope conds dirs hs hsc hc
    obtain ⟨h1, _, h3⟩ := hs
    have hr := ih scope conds dirs h3 hsc hc
    have : flat poss pty (.field key info ds sub rest) conds dirs =
        ⟨key, info, conds, dirs ++ ds, sub⟩ :: flat poss pty rest conds dirs := by
      simp only [flat]
      split
      · rename_i ty hty
        have := h1 ty hty
        subst this
        rw [canBePresent_of hp hsc, if_pos rfl]
      · rfl
    rw [this, List.filter_cons]
    simp only [hc, if_true, List.map_cons, hr, selections]
    simp only [toSel, dirsOk_append]
  | frag c0 ds sub rest ih1 ih2 =>
    intro scope conds dirs hs hsc hc
    cases c0 with
    | none =>
      obtain ⟨h1, h2⟩ := hs
      simp only [flat, selections, applies, if_true, List.filter_append, List.map_append,
        ih1 scope conds (dirs ++ ds) h1 hsc hc, ih2 scope conds dirs h2 hsc hc, dirsOk_append]
    | some ty =>
      obtain ⟨h1, h2⟩ := hs
      have hr := ih2 scope conds dirs h2 hsc hc
      simp only [flat, selections]
      by_cases ht : obj ∈ poss ty
      · have hct : applies poss obj (some ty) = true := by simpa [applies] using ht
        rw [canBePresent_of hp ht, if_pos rfl, if_pos hct]
        split
        · simp only [List.filter_append, List.map_append, hr,
            ih1 ty conds (dirs ++ ds) h1 ht hc, dirsOk_append]
        · have hc' : condsOk poss obj (conds ++ [ty]) = true := by
            simp [condsOk] at hc ⊢; exact ⟨hc, ht⟩
          simp only [List.filter_append, List.map_append, hr,
            ih1 ty (conds ++ [ty]) (dirs ++ ds) h1 ht hc', dirsOk_append]
      · have hct : ¬ applies poss obj (some ty) = true := by simpa [applies] using ht
        rw [if_neg hct]
        split
        · split
          · rename_i h; exact absurd hp (by rw [beq_iff_eq.1 h]; exact ht)
          · have hc' : condsOk poss obj (conds ++ [ty]) = false := by
              simp only [condsOk, List.all_append, List.all_cons, List.all_nil, Bool.and_true]
              simp [ht]
            rw [List.filter_append, flat_not_ok _ _ _ hc', List.nil_append, hr]; rfl
        · rw [hr]; rfl

/-- `collectFields` keeps the selections with `inc = true`. -/
theorem selections_false (obj : Nat) (s : Sels) :
    ∀ x ∈ selections poss env obj s false, x.inc = false := by
  induction s with
  | nil => simp [selections]
  | field key info ds sub rest _ ih =>
    intro x hx
    rcases List.mem_cons.1 hx with h | h
    · subst h; rfl
    · exact ih x h
  | frag c ds sub rest ih1 ih2 =>
    intro x hx
    simp only [selections, Bool.false_and] at hx
    rcases List.mem_append.1 hx with h | h
    · split at h
      · exact ih1 x h
      · simp at h
    · exact ih2 x h

theorem collect_eq (obj : Nat) (s : Sels) :
    collectFields poss env obj s =
      ((selections poss env obj s true).filter Sel.inc).map fun x => (x.key, x.out, x.sub) := by
  induction s with
  | nil => rfl
  | field key info ds sub rest _ ih =>
    simp only [collectFields, selections, Bool.true_and, List.filter_cons, ih]
    split <;> simp [*]
  | frag c ds sub rest ih1 ih2 =>
    simp only [collectFields, selections, Bool.true_and, List.filter_append, List.map_append]
    cases hd : dirsOk env ds with
    | true =>
      simp only [Bool.true_and]
      split
      · rw [ih1, ih2]
      · simp [ih2]
    | false =>
      simp only [Bool.false_and, Bool.false_eq_true, if_false, ih2]
      split
      · have : (selections poss env obj sub false).filter Sel.inc = [] :=
          List.filter_eq_nil_iff.2 fun x hx => by simp [selections_false obj sub x hx]
        simp [this]
      · simp

/-! ## One level -/

/-- What a node keeps of the occurrences merged in it. -/
structure Matches (n : Node) (p : Nat) (o : Occ) : Prop where
  parent : n.parent = p
  key : n.key = o.key
  conds : n.conds = o.conds
  dirs : n.dirs.Perm o.dirs

/-- An occurrence with its parent and the index of its node. -/
structure Tr where
  p : Nat
  o : Occ
  i : Nat

def Tr.entry (t : Tr) : Option Entry := t.o.info.out.map fun ty => ⟨t.i, ty, t.o.sub⟩

structure Inv (st : St) (tr : List Tr) : Prop where
  queue : st.queue = tr.filterMap Tr.entry
  node : ∀ t ∈ tr, ∃ n, st.nodes[t.i]? = some n ∧ Matches n t.p t.o
  next : st.next = st.nodes.length
  pos : ∀ i n, st.nodes[i]? = some n → n.pos = i + 1
  order : ∀ q : Nat → List Nat → Bool,
    ((st.nodes.filter fun n => q n.parent n.conds).map Node.key).eraseDups =
      ((tr.filter fun t => q t.p t.o.conds).map fun t => t.o.key).eraseDups
  first : ∀ (q : Nat → List Nat → Bool) (k : Nat),
    match st.nodes.find? fun n => q n.parent n.conds && n.key == k,
          tr.find? fun t => q t.p t.o.conds && t.o.key == k with
    | none, none => True
    | some n, some t => n.dirs.Perm t.o.dirs
    | _, _ => False
  bloom : ∀ n ∈ st.nodes, (st.bloom n.parent).testBit (n.key % 63) = true

theorem search_some {p : Nat} {o : Occ} {l : List (Node × Nat)} {i : Nat}
    (h : search p o l = .ok (some i)) : ∃ n, (n, i) ∈ l ∧ Matches n p o := by
  induction l with
  | nil => simp [search] at h
  | cons x xs ih =>
    obtain ⟨n, j⟩ := x
    simp only [search] at h
    split at h
    · obtain ⟨m, hm, hx⟩ := ih h; exact ⟨m, List.mem_cons_of_mem _ hm, hx⟩
    · split at h
      · obtain ⟨m, hm, hx⟩ := ih h; exact ⟨m, List.mem_cons_of_mem _ hm, hx⟩
      · split at h
        · simp at h
        · split at h
          · rename_i h1 h2 h3 h4
            simp only [Except.ok.injEq, Option.some.injEq] at h
            subst h
            exact ⟨n, List.mem_cons_self .., ⟨by simpa using h1, by simpa using h2, h4.1,
              List.isPerm_iff.1 h4.2⟩⟩
          · obtain ⟨m, hm, hx⟩ := ih h; exact ⟨m, List.mem_cons_of_mem _ hm, hx⟩

theorem search_none {p : Nat} {o : Occ} {l : List (Node × Nat)}
    (h : search p o l = .ok none) : ∀ x ∈ l, ¬ Matches x.1 p o := by
  induction l with
  | nil => simp
  | cons x xs ih =>
    obtain ⟨n, j⟩ := x
    simp only [search] at h
    intro y hy hm
    rcases List.mem_cons.1 hy with rfl | hy
    · have e1 : n.parent = p := hm.parent
      have e2 : n.key = o.key := hm.key
      rw [if_neg (by simp [e1]), if_neg (by simp [e2])] at h
      split at h
      · simp at h
      · rw [if_pos ⟨hm.conds, List.isPerm_iff.2 hm.dirs⟩] at h; simp at h
    · split at h
      · exact ih h y hy hm
      · split at h
        · exact ih h y hy hm
        · split at h
          · simp at h
          · split at h
            · simp at h
            · exact ih h y hy hm

theorem eraseDups_append_singleton (l : List Nat) (a : Nat) :
    (l ++ [a]).eraseDups = if a ∈ l then l.eraseDups else l.eraseDups ++ [a] := by
  rw [List.eraseDups_append]
  split
  · rename_i h
    simp [List.removeAll, h]
  · rename_i h
    simp [List.removeAll, h, List.eraseDups_cons]

theorem testBit_mask (k j : Nat) : (mask k).testBit j = decide (k % 63 = j) := by
  simp [mask, Nat.one_shiftLeft, Nat.testBit_two_pow]

theorem mask_and {b k : Nat} (h : b.testBit (k % 63) = true) : b &&& mask k ≠ 0 := by
  intro h0
  have := congrArg (fun n => n.testBit (k % 63)) h0
  simp [Nat.testBit_and, testBit_mask, h] at this


theorem find_append_match {q : Nat → List Nat → Bool} {k : Nat} {ns : List Node} {tr : List Tr}
    (h : match ns.find? fun n => q n.parent n.conds && n.key == k,
          tr.find? fun t => q t.p t.o.conds && t.o.key == k with
      | none, none => True
      | some n, some t => n.dirs.Perm t.o.dirs
      | _, _ => False) :
    (ns.find? (fun n => q n.parent n.conds && n.key == k) = none ∧
      tr.find? (fun t => q t.p t.o.conds && t.o.key == k) = none) ∨
    ∃ n t, ns.find? (fun n => q n.parent n.conds && n.key == k) = some n ∧
      tr.find? (fun t => q t.p t.o.conds && t.o.key == k) = some t ∧ n.dirs.Perm t.o.dirs := by
  split at h
  · rename_i h1 h2; exact Or.inl ⟨h1, h2⟩
  · rename_i n t h1 h2; exact Or.inr ⟨n, t, h1, h2, h⟩
  · exact h.elim

/-- An occurrence merged in an existing node. -/
theorem inv_merge {st : St} {tr : List Tr} (h : Inv st tr) {p i : Nat} {o : Occ} {n : Node}
    (hn : st.nodes[i]? = some n) (hm : Matches n p o) (queue : List Entry) (bloom : Nat → Nat)
    (hq : queue = (tr ++ [(⟨p, o, i⟩ : Tr)]).filterMap Tr.entry)
    (hb : ∀ n ∈ st.nodes, (bloom n.parent).testBit (n.key % 63) = true) :
    Inv { st with bloom, queue } (tr ++ [⟨p, o, i⟩]) := by
  have hmem := List.mem_of_getElem? hn
  refine ⟨hq, ?_, h.next, h.pos, ?_, ?_, hb⟩
  · intro t ht
    rcases List.mem_append.1 ht with ht | ht
    · exact h.node t ht
    · rw [List.mem_singleton.1 ht]; exact ⟨n, hn, hm⟩
  · intro q
    rw [List.filter_append, List.map_append, h.order q]
    by_cases hqn : q p o.conds
    · simp only [List.filter_cons, hqn, if_true, List.filter_nil, List.map_cons, List.map_nil]
      rw [eraseDups_append_singleton, if_pos]
      rw [← List.mem_eraseDups, ← h.order q, List.mem_eraseDups]
      exact List.mem_map.2 ⟨n, List.mem_filter.2 ⟨hmem, by rw [hm.parent, hm.conds]; exact hqn⟩, hm.key⟩
    · simp [hqn]
  · intro q k
    rcases find_append_match (h.first q k) with ⟨h1, h2⟩ | ⟨m, t, h1, h2, h3⟩
    · have : (q p o.conds && o.key == k) = false := by
        have := List.find?_eq_none.1 h1 n hmem
        rw [hm.parent, hm.conds, hm.key] at this
        simpa using this
      simp only [List.find?_append, h1, h2, Option.none_or, List.find?_cons, this, List.find?_nil]
    · simp only [List.find?_append, h1, h2, Option.some_or]; exact h3

/-- An occurrence that gets a new node. -/
theorem inv_new {st : St} {tr : List Tr} (h : Inv st tr) {p : Nat} {o : Occ}
    (queue : List Entry) (bloom : Nat → Nat)
    (hq : queue = (tr ++ [(⟨p, o, st.nodes.length⟩ : Tr)]).filterMap Tr.entry)
    (hb : ∀ n ∈ st.nodes ++ [⟨p, o.key, o.info.defn, o.info.args, o.conds, o.dirs, st.next + 1⟩],
      (bloom n.parent).testBit (n.key % 63) = true) :
    Inv ⟨st.nodes ++ [⟨p, o.key, o.info.defn, o.info.args, o.conds, o.dirs, st.next + 1⟩],
      st.next + 1, bloom, queue⟩ (tr ++ [⟨p, o, st.nodes.length⟩]) := by
  refine ⟨hq, ?_, ?_, ?_, ?_, ?_, hb⟩
  · intro t ht
    rcases List.mem_append.1 ht with ht | ht
    · obtain ⟨n, hn, hm⟩ := h.node t ht
      refine ⟨n, ?_, hm⟩
      obtain ⟨hlt, _⟩ := List.getElem?_eq_some_iff.1 hn
      simp only [List.getElem?_append_left hlt, hn]
    · rw [List.mem_singleton.1 ht]
      exact ⟨_, List.getElem?_concat_length, ⟨rfl, rfl, rfl, List.Perm.refl _⟩⟩
  · simp [h.next]
  · intro i n hn
    simp only [List.getElem?_append] at hn
    split at hn
    · exact h.pos i n hn
    · rename_i hlt
      have : i - st.nodes.length = 0 := by
        rcases Nat.eq_zero_or_pos (i - st.nodes.length) with h | h
        · exact h
        · rw [List.getElem?_eq_none (by simp; omega)] at hn; simp at hn
      rw [this] at hn
      simp only [List.getElem?_cons_zero, Option.some.injEq] at hn
      subst hn
      simp only [h.next]; omega
  · intro q
    rw [List.filter_append, List.map_append, List.filter_append, List.map_append]
    by_cases hqn : q p o.conds
    · simp only [List.filter_cons, hqn, if_true, List.filter_nil, List.map_cons, List.map_nil]
      rw [eraseDups_append_singleton, eraseDups_append_singleton]
      have := h.order q
      by_cases hin : o.key ∈ (st.nodes.filter fun n => q n.parent n.conds).map Node.key
      · have hin' := hin
        rw [← List.mem_eraseDups, this, List.mem_eraseDups] at hin'
        rw [if_pos hin, if_pos hin', this]
      · have hin' := hin
        rw [← List.mem_eraseDups, this, List.mem_eraseDups] at hin'
        rw [if_neg hin, if_neg hin', this]
    · simpa [hqn] using h.order q
  · intro q k
    rcases find_append_match (h.first q k) with ⟨h1, h2⟩ | ⟨m, t, h1, h2, h3⟩
    · simp only [List.find?_append, h1, h2, Option.none_or, List.find?_cons, List.find?_nil]
      cases (q p o.conds && o.key == k)
      · trivial
      · exact List.Perm.refl _
    · simp only [List.find?_append, h1, h2, Option.some_or]; exact h3

theorem bloom_mono {b : Nat → Nat} {ns : List Node} (p k : Nat)
    (h : ∀ n ∈ ns, (b n.parent).testBit (n.key % 63) = true) :
    ∀ n ∈ ns, ((if n.parent = p then b n.parent ||| mask k else b n.parent)).testBit (n.key % 63) =
      true := by
  intro n hn
  split
  · rw [Nat.testBit_or, h n hn]; rfl
  · exact h n hn

theorem inv_addField {st st' : St} {tr : List Tr} (h : Inv st tr) (hlt : st.nodes.length < 65536)
    {p : Nat} {o : Occ}
    (ha : addField p st o = .ok st') :
    ∃ i, Inv st' (tr ++ [⟨p, o, i⟩]) ∧ st'.nodes.length < 65536 := by
  simp only [addField] at ha
  split at ha
  · simp at ha
  · rename_i ix hf
    cases ix with
    | some i =>
      simp only [Except.ok.injEq] at ha
      subst ha
      split at hf
      · obtain ⟨n, hn, hm⟩ := search_some hf
        rw [List.mem_reverse, List.mem_zipIdx_iff_getElem?] at hn
        refine ⟨i, inv_merge h (by simpa using hn) hm _ _ ?_ (bloom_mono p o.key h.bloom), hlt⟩
        rw [List.filterMap_append, ← h.queue]
        simp only [Tr.entry, List.filterMap_cons, List.filterMap_nil]
        cases o.info.out <;> simp
      · simp at hf
    | none =>
      simp only [nextPosition] at ha
      split at ha
      · simp at ha
      · rename_i pos next hnp
        split at hnp
        · simp at hnp
        · rename_i hne
          simp only [Except.ok.injEq, Prod.mk.injEq] at hnp ha
          obtain ⟨hp1, hp2⟩ := hnp
          have hnx : (st.next + 1) % 65536 = st.next + 1 := by
            rw [h.next] at hne ⊢; omega
          rw [hnx] at hp2
          subst hp1 hp2 ha
          refine ⟨st.nodes.length, inv_new h _ _ ?_ ?_, ?_⟩
          · rw [List.filterMap_append, ← h.queue]
            simp only [Tr.entry, List.filterMap_cons, List.filterMap_nil]
            cases o.info.out <;> simp
          · intro n hn
            rcases List.mem_append.1 hn with hn | hn
            · exact bloom_mono p o.key h.bloom n hn
            · rw [List.mem_singleton.1 hn]
              simp [Nat.testBit_or, testBit_mask]
          · simp only [List.length_append, List.length_cons, List.length_nil]
            rw [h.next] at hne; omega

theorem inv_foldl {p : Nat} : ∀ (os : List Occ) {st st' : St} {tr : List Tr}, Inv st tr →
    st.nodes.length < 65536 → os.foldlM (addField p) st = .ok st' →
    ∃ tr', Inv st' (tr ++ tr') ∧ tr'.map (fun t => (t.p, t.o)) = os.map (fun o => (p, o)) ∧
      st'.nodes.length < 65536 := by
  intro os
  induction os with
  | nil =>
    intro st st' tr h hl hf
    simp only [List.foldlM_nil, pure, Except.pure, Except.ok.injEq] at hf
    subst hf
    exact ⟨[], by simpa using h, rfl, hl⟩
  | cons o os ih =>
    intro st st' tr h hl hf
    simp only [List.foldlM_cons, bind, Except.bind] at hf
    split at hf
    · simp at hf
    · rename_i st1 h1
      obtain ⟨i, hi, hl1⟩ := inv_addField h hl h1
      obtain ⟨tr', h', hm, hl2⟩ := ih hi hl1 hf
      exact ⟨⟨p, o, i⟩ :: tr', by simpa using h', by simp [hm], hl2⟩

theorem inv_entries : ∀ (es : List Entry) {st st' : St} {tr : List Tr}, Inv st tr →
    st.nodes.length < 65536 → es.foldlM (addEntry poss) st = .ok st' →
    ∃ tr', Inv st' (tr ++ tr') ∧ tr'.map (fun t => (t.p, t.o)) =
      es.flatMap (fun e => (flat poss e.ty e.sels [] []).map fun o => (e.parent, o)) ∧
      st'.nodes.length < 65536 := by
  intro es
  induction es with
  | nil =>
    intro st st' tr h hl hf
    simp only [List.foldlM_nil, pure, Except.pure, Except.ok.injEq] at hf
    subst hf
    exact ⟨[], by simpa using h, rfl, hl⟩
  | cons e es ih =>
    intro st st' tr h hl hf
    simp only [List.foldlM_cons, bind, Except.bind] at hf
    split at hf
    · simp at hf
    · rename_i st1 h1
      obtain ⟨tr1, hi, hm1, hl1⟩ := inv_foldl _ h hl h1
      obtain ⟨tr', h', hm, hl2⟩ := ih hi hl1 hf
      exact ⟨tr1 ++ tr', by simpa using h', by simp [hm, hm1], hl2⟩

theorem inv_init : Inv ⟨[], 0, fun _ => 0, []⟩ [] :=
  ⟨rfl, by simp, rfl, by simp, by simp, by simp, by simp⟩

theorem inv_level {es : List Entry} {st : St} (h : level poss es = .ok st) :
    ∃ tr, Inv st tr ∧ tr.map (fun t => (t.p, t.o)) =
      es.flatMap (fun e => (flat poss e.ty e.sels [] []).map fun o => (e.parent, o)) := by
  obtain ⟨tr, h1, h2, _⟩ := inv_entries es inv_init (by simp) h
  exact ⟨tr, by simpa using h1, h2⟩

end Verif.Collect
