import Verif.OpChecks.TableLemmas
/-!
# Operation checks: lemmas about the table of selections
-/
namespace Verif.OpChecks
open Verif.PatchPaths

/-! ## A run of equal keys in a sorted table -/

theorem takeWhile_eq_filter {α : Type} {g : α → Nat} {l : List α} (k : Nat)
    (hs : l.Pairwise fun a b => g a ≤ g b) (hge : ∀ a ∈ l, k ≤ g a) :
    l.takeWhile (fun a => decide (g a = k)) = l.filter fun a => decide (g a = k) := by
  induction l with
  | nil => rfl
  | cons x t ih =>
    obtain ⟨h1, h2⟩ := List.pairwise_cons.1 hs
    rw [List.takeWhile_cons, List.filter_cons]
    by_cases hx : g x = k
    · simp only [hx, decide_true, if_true]
      rw [ih h2 fun a ha => hge a (List.mem_cons_of_mem _ ha)]
    · simp only [hx, decide_false, if_false]
      symm
      simp only [Bool.false_eq_true, if_false]
      rw [List.filter_eq_nil_iff]
      intro a ha
      have := h1 a ha
      have := hge x List.mem_cons_self
      simp only [decide_eq_true_eq]
      omega

/-- The elements from the partition point on are those that are not smaller. -/
theorem run_eq_filter {α : Type} {g : α → Nat} {l : List α} (k : Nat) (hs : l.Pairwise fun a b => g a ≤ g b) :
    (l.drop (partitionPoint (fun a => decide (g a < k)) l)).takeWhile (fun a => decide (g a = k)) =
      l.filter fun a => decide (g a = k) := by
  have hpp := pp_spec (p := fun a => decide (g a < k)) (l := l) (hs.imp fun {a b} h => by
    simp only [decide_eq_true_eq]; omega)
  generalize partitionPoint (fun a => decide (g a < k)) l = n at hpp
  obtain ⟨h1, h2⟩ := hpp
  rw [takeWhile_eq_filter k (hs.sublist (List.drop_sublist _ _))
    (fun a ha => by have := h2 a ha; simp only [decide_eq_false_iff_not] at this; omega)]
  conv => rhs; rw [← List.take_append_drop n l]
  rw [List.filter_append]
  have : (l.take n).filter (fun a => decide (g a = k)) = [] := by
    rw [List.filter_eq_nil_iff]
    intro a ha
    have := h1 a ha
    simp only [decide_eq_true_eq] at this ⊢
    omega
  rw [this, List.nil_append]

/-- A stable sort keeps the order of the elements of one key. -/
theorem filter_sortBy {α : Type} (g : α → Nat) (k : Nat) (l : List α) :
    (sortBy (fun a b => decide (g a ≤ g b)) l).filter (fun a => decide (g a = k)) =
      l.filter fun a => decide (g a = k) := by
  have hins : ∀ (x : α) (l : List α), (insertBy (fun a b => decide (g a ≤ g b)) x l).filter (fun a => decide (g a = k)) =
      (x :: l).filter fun a => decide (g a = k) := by
    intro x l
    induction l with
    | nil => rfl
    | cons y t ih =>
      unfold insertBy
      split
      · rfl
      · rename_i hle
        rw [List.filter_cons, ih]
        simp only [decide_eq_true_eq] at hle
        simp only [List.filter_cons]
        by_cases hx : g x = k
        · have hy : ¬ g y = k := by omega
          simp [hx, hy]
        · simp [hx]
  induction l with
  | nil => rfl
  | cons x t ih =>
    have : sortBy (fun a b => decide (g a ≤ g b)) (x :: t) =
      insertBy (fun a b => decide (g a ≤ g b)) x (sortBy (fun a b => decide (g a ≤ g b)) t) := rfl
    rw [this, hins, List.filter_cons, ih, List.filter_cons]

theorem selectionSet_eq (fragments : List (Name × Name × Nat)) (opType : OpType) (root : Nat)
    (out : List (Nat × Selection)) (enumDefaults : List (Name × Name)) (id : Nat) :
    Operation.selectionSet ⟨fragments, opType, root, sortBy (fun a b => decide (a.1 ≤ b.1)) out, enumDefaults⟩ id =
      (out.filter fun e => decide (e.1 = id)).map (·.2) := by
  unfold Operation.selectionSet
  simp only
  have hs : (sortBy (fun a b => decide (a.1 ≤ b.1)) out).Pairwise fun a b => a.1 ≤ b.1 := by
    refine (sortBy_sorted (le := fun a b : Nat × Selection => decide (a.1 ≤ b.1)) ?_ ?_ out).imp ?_
    · intro a b c h1 h2
      simp only [decide_eq_true_eq] at *
      omega
    · intro a b
      simp only [Bool.or_eq_true, decide_eq_true_eq]
      omega
    · intro a b h
      simpa using h
  rw [run_eq_filter (g := fun e : Nat × Selection => e.1) id hs, filter_sortBy (fun e : Nat × Selection => e.1)]

/-! ## What is pushed for a selection set -/

/-- `set` holds, under the ids of the nested selection sets, what `items` says. -/
def Rep (set : Nat → List Selection) : Items → List Selection → Prop
  | .nil, l => l = []
  | .field name args .nil rest, l => ∃ l', l = .field name (args.map ingestArg) none :: l' ∧ Rep set rest l'
  | .field name args sub rest, l => ∃ sid l', l = .field name (args.map ingestArg) (some sid) :: l' ∧
      Rep set sub (set sid) ∧ Rep set rest l'
  | .spread f rest, l => ∃ l', l = .spread f :: l' ∧ Rep set rest l'
  | .inline on sub rest, l => ∃ sid l', l = .inline on sid :: l' ∧ Rep set sub (set sid) ∧ Rep set rest l'

/-- The entries of one key. -/
def sel (l : List (Nat × Selection)) (k : Nat) : List Selection := (l.filter fun e => decide (e.1 = k)).map (·.2)

theorem sel_append (a b : List (Nat × Selection)) (k : Nat) : sel (a ++ b) k = sel a k ++ sel b k := by
  simp [sel]

theorem sel_none {l : List (Nat × Selection)} {k : Nat} (h : ∀ e ∈ l, e.1 ≠ k) : sel l k = [] := by
  unfold sel
  rw [List.map_eq_nil_iff, List.filter_eq_nil_iff]
  intro a ha
  simpa using h a ha

theorem sel_single (k : Nat) (x : Selection) : sel [(k, x)] k = [x] := by simp [sel]

theorem sel_single_ne {j k : Nat} (h : j ≠ k) (x : Selection) : sel [(j, x)] k = [] := by simp [sel, h]

structure Emitted (id : Nat) (items : Items) (st st' : Ingest) (new : List (Nat × Selection)) : Prop where
  out : st'.out = st.out ++ new
  mono : st.counter ≤ st'.counter
  keys : ∀ e ∈ new, e.1 = id ∨ (st.counter ≤ e.1 ∧ e.1 < st'.counter)
  rep : ∀ set : Nat → List Selection,
    (∀ k, st.counter ≤ k → k < st'.counter → set k = sel new k) → Rep set items (sel new id)

/-- Entries outside a range of keys. -/
theorem sel_out {new : List (Nat × Selection)} {id a b k : Nat}
    (h : ∀ e ∈ new, e.1 = id ∨ (a ≤ e.1 ∧ e.1 < b)) (hk : k ≠ id) (hr : k < a ∨ b ≤ k) : sel new k = [] := by
  apply sel_none
  intro e he
  rcases h e he with h | h <;> omega

theorem emit_sub {id : Nat} {items rest : Items} {item : Selection} {st st1 st2 : Ingest}
    {new1 new2 : List (Nat × Selection)} (hid : id < st.counter)
    (h1 : Emitted st.counter items { st with counter := st.counter + 1 } st1 new1)
    (h2 : Emitted id rest { st1 with out := st1.out ++ [(id, item)] } st2 new2) :
    st2.out = st.out ++ (new1 ++ [(id, item)] ++ new2) ∧ st.counter ≤ st2.counter ∧
    (∀ e ∈ new1 ++ [(id, item)] ++ new2, e.1 = id ∨ (st.counter ≤ e.1 ∧ e.1 < st2.counter)) ∧
    sel (new1 ++ [(id, item)] ++ new2) id = item :: sel new2 id ∧
    ∀ set : Nat → List Selection,
      (∀ k, st.counter ≤ k → k < st2.counter → set k = sel (new1 ++ [(id, item)] ++ new2) k) →
      Rep set items (set st.counter) ∧ Rep set rest (sel new2 id) := by
  have m1 := h1.mono
  have m2 := h2.mono
  simp only at m1 m2
  have k1 := h1.keys
  have k2 := h2.keys
  simp only at k1 k2
  refine ⟨?_, by omega, ?_, ?_, ?_⟩
  · rw [h2.out]
    simp only
    rw [h1.out]
    simp
  · intro e he
    simp only [List.mem_append, List.mem_singleton] at he
    rcases he with (he | rfl) | he
    · rcases k1 e he with h | h <;> omega
    · exact Or.inl rfl
    · rcases k2 e he with h | h <;> omega
  · rw [sel_append, sel_append, sel_single, sel_none]
    · rfl
    · intro e he
      rcases k1 e he with h | h <;> omega
  · intro set hset
    have hsel : ∀ k, k ≠ id → sel (new1 ++ [(id, item)] ++ new2) k = sel new1 k ++ sel new2 k := by
      intro k hk
      rw [sel_append, sel_append, sel_single_ne (Ne.symm hk), List.append_nil]
    constructor
    · have hc : set st.counter = sel new1 st.counter := by
        rw [hset _ (Nat.le_refl _) (by omega), hsel _ (by omega),
          sel_out k2 (by omega) (Or.inl (by omega)), List.append_nil]
      rw [hc]
      apply h1.rep
      simp only
      intro k hk1 hk2
      rw [hset k (by omega) (by omega), hsel _ (by omega), sel_out k2 (by omega) (Or.inl (by omega)),
        List.append_nil]
    · apply h2.rep
      simp only
      intro k hk1 hk2
      rw [hset k (by omega) (by omega), hsel _ (by omega), sel_out k1 (by omega) (Or.inr (by omega)),
        List.nil_append]

theorem emit_leaf {id : Nat} {rest : Items} {item : Selection} {st st2 : Ingest}
    {new2 : List (Nat × Selection)} (hid : id < st.counter)
    (h2 : Emitted id rest { st with out := st.out ++ [(id, item)] } st2 new2) :
    st2.out = st.out ++ ([(id, item)] ++ new2) ∧ st.counter ≤ st2.counter ∧
    (∀ e ∈ [(id, item)] ++ new2, e.1 = id ∨ (st.counter ≤ e.1 ∧ e.1 < st2.counter)) ∧
    sel ([(id, item)] ++ new2) id = item :: sel new2 id ∧
    ∀ set : Nat → List Selection,
      (∀ k, st.counter ≤ k → k < st2.counter → set k = sel ([(id, item)] ++ new2) k) →
      Rep set rest (sel new2 id) := by
  have m2 := h2.mono
  have k2 := h2.keys
  simp only at m2 k2
  refine ⟨?_, m2, ?_, ?_, ?_⟩
  · rw [h2.out]; simp
  · intro e he
    simp only [List.mem_append, List.mem_singleton] at he
    rcases he with rfl | he
    · exact Or.inl rfl
    · exact k2 e he
  · rw [sel_append, sel_single]; rfl
  · intro set hset
    apply h2.rep
    simp only
    intro k hk1 hk2
    rw [hset k hk1 hk2, sel_append, sel_single_ne (by omega), List.nil_append]

theorem ingestItems_emits (items : Items) : ∀ (id : Nat) (st : Ingest), id < st.counter →
    ∃ new, Emitted id items st (ingestItems id items st) new := by
  intro id st
  fun_induction ingestItems id items st with
  | case1 id st =>
    intro _
    exact ⟨[], by simp, Nat.le_refl _, by simp, fun set _ => rfl⟩
  | case2 id name args rest st ih =>
    intro hid
    obtain ⟨new, h⟩ := ih hid
    obtain ⟨a, b, c, e, f⟩ := emit_leaf hid h
    refine ⟨_, a, b, c, fun set hset => ?_⟩
    rw [e]
    exact ⟨_, rfl, f set hset⟩
  | case3 id name args sub rest st hne sid st1 ih2 ih1 =>
    intro hid
    obtain ⟨new1, h1⟩ := ih2 (by simp [sid])
    obtain ⟨new2, h2⟩ := ih1 (by
      have : st.counter + 1 ≤ st1.counter := h1.mono
      show id < st1.counter
      omega)
    obtain ⟨a, b, c, e, f⟩ := emit_sub hid h1 h2
    refine ⟨_, a, b, c, fun set hset => ?_⟩
    rw [e]
    obtain ⟨g1, g2⟩ := f set hset
    cases sub with
    | nil => exact absurd rfl hne
    | field _ _ _ _ => exact ⟨sid, _, rfl, g1, g2⟩
    | spread _ _ => exact ⟨sid, _, rfl, g1, g2⟩
    | inline _ _ _ => exact ⟨sid, _, rfl, g1, g2⟩
  | case4 id fragment rest st ih =>
    intro hid
    obtain ⟨new, h⟩ := ih hid
    obtain ⟨a, b, c, e, f⟩ := emit_leaf hid h
    refine ⟨_, a, b, c, fun set hset => ?_⟩
    rw [e]
    exact ⟨_, rfl, f set hset⟩
  | case5 id on sub rest st sid st1 ih2 ih1 =>
    intro hid
    obtain ⟨new1, h1⟩ := ih2 (by simp [sid])
    obtain ⟨new2, h2⟩ := ih1 (by
      have : st.counter + 1 ≤ st1.counter := h1.mono
      show id < st1.counter
      omega)
    obtain ⟨a, b, c, e, f⟩ := emit_sub hid h1 h2
    refine ⟨_, a, b, c, fun set hset => ?_⟩
    rw [e]
    obtain ⟨g1, g2⟩ := f set hset
    exact ⟨sid, _, rfl, g1, g2⟩

/-- The table of fragments agrees with the document. -/
def FragRep (set : Nat → List Selection) : List (Name × Name × Items) → List (Name × Name × Nat) → Prop
  | [], fs => fs = []
  | (name, cond, items) :: rest, fs => ∃ sid fs', fs = (name, cond, sid) :: fs' ∧
      Rep set items (set sid) ∧ FragRep set rest fs'

theorem ingestFragments_emits (frags : List (Name × Name × Items)) : ∀ st : Ingest,
    ∃ new, (ingestFragments frags st).1.out = st.out ++ new ∧
      st.counter ≤ (ingestFragments frags st).1.counter ∧
      (∀ e ∈ new, st.counter ≤ e.1 ∧ e.1 < (ingestFragments frags st).1.counter) ∧
      ∀ set : Nat → List Selection,
        (∀ k, st.counter ≤ k → k < (ingestFragments frags st).1.counter → set k = sel new k) →
        FragRep set frags (ingestFragments frags st).2 := by
  induction frags with
  | nil => intro st; exact ⟨[], by simp [ingestFragments], Nat.le_refl _, by simp, fun _ _ => rfl⟩
  | cons f rest ih =>
    obtain ⟨name, cond, items⟩ := f
    intro st
    obtain ⟨new1, h1⟩ := ingestItems_emits items st.counter { st with counter := st.counter + 1 } (by simp)
    generalize hst1 : ingestItems st.counter items { st with counter := st.counter + 1 } = st1 at h1
    obtain ⟨new2, a, b, c, e⟩ := ih st1
    have m1 := h1.mono
    have k1 := h1.keys
    simp only at m1 k1
    have heq : ingestFragments ((name, cond, items) :: rest) st =
        ((ingestFragments rest st1).1, (name, cond, st.counter) :: (ingestFragments rest st1).2) := by
      simp only [ingestFragments, hst1]
    rw [heq]
    simp only
    refine ⟨new1 ++ new2, ?_, by omega, ?_, ?_⟩
    · rw [a, h1.out]; simp
    · intro x hx
      rcases List.mem_append.1 hx with hx | hx
      · rcases k1 x hx with h | h <;> omega
      · have := c x hx; omega
    · intro set hset
      have hk2 : ∀ k, k < st1.counter → sel new2 k = [] := by
        intro k hk
        apply sel_none
        intro x hx
        have := c x hx
        omega
      refine ⟨st.counter, _, rfl, ?_, ?_⟩
      · rw [hset _ (Nat.le_refl _) (by omega), sel_append, hk2 _ (by omega), List.append_nil]
        apply h1.rep
        simp only
        intro k hk1' hk2'
        rw [hset k (by omega) (by omega), sel_append, hk2 k (by omega), List.append_nil]
      · apply e
        intro k hk1' hk2'
        rw [hset k (by omega) hk2', sel_append, sel_out k1 (by omega) (Or.inr (by omega)), List.nil_append]

/-- The tables of an operation agree with its document. -/
theorem ofDoc_rep (q : Doc) :
    Rep (Operation.ofDoc q).selectionSet q.items ((Operation.ofDoc q).selectionSet (Operation.ofDoc q).root) ∧
    FragRep (Operation.ofDoc q).selectionSet q.fragments (Operation.ofDoc q).fragments := by
  obtain ⟨new1, a, b, c, e⟩ := ingestFragments_emits q.fragments ⟨0, []⟩
  generalize hst1 : ingestFragments q.fragments ⟨0, []⟩ = r at a b c e
  obtain ⟨st1, frags⟩ := r
  simp only at a b c e
  obtain ⟨new2, h2⟩ := ingestItems_emits q.items st1.counter { st1 with counter := st1.counter + 1 } (by simp)
  generalize hst2 : ingestItems st1.counter q.items { st1 with counter := st1.counter + 1 } = st2 at h2
  have hop : Operation.ofDoc q = ⟨frags, q.opType, st1.counter, sortBy (fun a b => decide (a.1 ≤ b.1)) st2.out,
      q.variables.filterMap enumDefault⟩ := by
    simp only [Operation.ofDoc, hst1, hst2]
  rw [hop]
  have hset : ∀ k, Operation.selectionSet ⟨frags, q.opType, st1.counter,
      sortBy (fun a b => decide (a.1 ≤ b.1)) st2.out, q.variables.filterMap enumDefault⟩ k = sel (new1 ++ new2) k := by
    intro k
    have hout : st2.out = new1 ++ new2 := by rw [h2.out]; simp [a]
    rw [← hout]
    exact selectionSet_eq _ _ _ _ _ k
  have k2 := h2.keys
  have m2 := h2.mono
  simp only at k2 m2
  have hs1 : ∀ k, st1.counter ≤ k → sel new1 k = [] := by
    intro k hk
    apply sel_none
    intro x hx
    have := c x hx
    omega
  simp only
  constructor
  · rw [hset, sel_append, hs1 _ (Nat.le_refl _), List.nil_append]
    apply h2.rep
    simp only
    intro k hk1 hk2
    rw [hset, sel_append, hs1 _ (by omega), List.nil_append]
  · apply e
    intro k hk1 hk2
    rw [hset, sel_append, sel_out k2 (by omega) (Or.inl (by omega)), List.append_nil]

theorem fragRep_find {set : Nat → List Selection} {frags : List (Name × Name × Items)}
    {fs : List (Name × Name × Nat)} (h : FragRep set frags fs) (hn : (frags.map (·.1)).Nodup)
    {name on : Name} {items : Items} (hm : (name, on, items) ∈ frags) :
    ∃ sid, fs.find? (fun f => decide (f.1 = name)) = some (name, on, sid) ∧ Rep set items (set sid) := by
  induction frags generalizing fs with
  | nil => cases hm
  | cons f rest ih =>
    obtain ⟨n, c, it⟩ := f
    obtain ⟨sid, fs', rfl, hr, hf⟩ := h
    rw [List.map_cons, List.nodup_cons] at hn
    rw [List.find?_cons]
    rcases List.mem_cons.1 hm with he | hm
    · cases he
      exact ⟨sid, by simp, hr⟩
    · have hne : n ≠ name := by
        rintro rfl
        exact hn.1 (List.mem_map_of_mem (f := (·.1)) hm)
      simp only [hne, decide_false]
      exact ih hf hn.2 hm

theorem fragRep_find_none {set : Nat → List Selection} {frags : List (Name × Name × Items)}
    {fs : List (Name × Name × Nat)} (h : FragRep set frags fs)
    {name : Name} (hm : ∀ f ∈ frags, f.1 ≠ name) : fs.find? (fun f => decide (f.1 = name)) = none := by
  induction frags generalizing fs with
  | nil => cases h; rfl
  | cons f rest ih =>
    obtain ⟨n, c, it⟩ := f
    obtain ⟨sid, fs', rfl, hr, hf⟩ := h
    rw [List.find?_cons]
    have hne : n ≠ name := hm _ List.mem_cons_self
    simp only [hne, decide_false]
    exact ih hf fun f hf => hm f (List.mem_cons_of_mem _ hf)

end Verif.OpChecks
