import Verif.Updater.Session
/-!
# Estimates and weights
-/
namespace Verif.Updater

open Verif.Flac

theorem mem_put {x y : Nat} {s : List Nat} : y ∈ put x s ↔ y = x ∨ y ∈ s := by
  unfold put
  split
  · next h =>
    have h : x ∈ s := by simpa using h
    constructor
    · exact Or.inr
    · rintro (rfl | h')
      · exact h
      · exact h'
  · simp

theorem addParents {g : Graph} : ∀ (up : List Nat) (t : Tree),
    (up.foldl (addParent g) t).terminals = t.terminals ∧ (up.foldl (addParent g) t).total = t.total ∧
    (∀ x, x ∈ (up.foldl (addParent g) t).nodes ↔ x ∈ t.nodes ∨ x ∈ up.map g.dst) ∧
    (∀ x, x ∈ (up.foldl (addParent g) t).edges ↔ x ∈ t.edges ∨ x ∈ up) := by
  intro up
  induction up with
  | nil => intro t; simp
  | cons e up ih =>
    intro t
    obtain ⟨h1, h2, h3, h4⟩ := ih (addParent g t e)
    simp only [List.foldl_cons]
    refine ⟨h1, h2, fun x => ?_, fun x => ?_⟩
    · rw [h3]; simp only [addParent, mem_put, List.map_cons, List.mem_cons]
      constructor
      · rintro ((h | h) | h)
        · exact Or.inr (Or.inl h)
        · exact Or.inl h
        · exact Or.inr (Or.inr h)
      · rintro (h | h | h)
        · exact Or.inl (Or.inr h)
        · exact Or.inl (Or.inl h)
        · exact Or.inr h
    · rw [h4]; simp only [addParent, mem_put, List.mem_cons]
      constructor
      · rintro ((h | h) | h)
        · exact Or.inr (Or.inl h)
        · exact Or.inl h
        · exact Or.inr (Or.inr h)
      · rintro (h | h | h)
        · exact Or.inl (Or.inr h)
        · exact Or.inl (Or.inl h)
        · exact Or.inr h

theorem greedy_spec {g : Graph} {inner outer : Nat} {pick : Nat → Nat → Nat} : ∀ {n : Nat} {t t' : Tree} {s s' : State} {b : Bool},
    Ends g t → (∀ ix ∈ s.rootFeeding, ∃ n, t.terminals[ix]? = some n ∧ n ∈ t.nodes) →
    greedy g inner outer pick n t s = .done b t' s' →
    Ext g t t' ∧ (∀ x ∈ t.terminals, x ∈ t'.nodes) ∧ s'.rootLen = max s.rootLen t.terminals.length ∧
      (∀ ix n, t.terminals[ix]? = some n → ix ∉ s.rootFeeding → n ∉ t.nodes) := by
  intro n
  induction n with
  | zero => intro t t' s s' b he hf h; cases h
  | succ n ih =>
    intro t t' s s' b he hf h
    unfold greedy at h
    cases hr : run g inner outer (pick n) t s with
    | panic => rw [hr] at h; cases h
    | timeout => rw [hr] at h; cases h
    | done c t1 s1 =>
      obtain ⟨g1, g2, g3, -⟩ := run_done he hr
      have ht := g1.ext.terminals.1
      have f1 : ∀ ix ∈ s1.rootFeeding, ∃ n, t1.terminals[ix]? = some n ∧ n ∈ t1.nodes := by
        intro ix hix
        rw [ht]
        by_cases hix' : ix ∈ s.rootFeeding
        · obtain ⟨n, e1, e2⟩ := hf ix hix'
          exact ⟨n, e1, g1.ext.nodes n e2⟩
        · obtain ⟨n, e1, e2, -⟩ := g1.fed ix hix hix'
          exact ⟨n, e1, e2⟩
      cases c with
      | true =>
        rw [hr] at h
        simp only [Outcome.done.injEq] at h
        obtain ⟨-, rfl, rfl⟩ := h
        have hfull : ∀ ix, ix < t.terminals.length → ix ∈ s1.rootFeeding := by
          intro ix hix
          have := g3.symm
          simp only [State.isFull, List.all_eq_true, List.mem_range, List.contains_eq_mem, decide_eq_true_eq] at this
          exact this ix (by omega)
        refine ⟨g1.ext, ?_, g2, ?_⟩
        · intro x hx
          obtain ⟨ix, hlt, hix⟩ := List.getElem_of_mem hx
          obtain ⟨n, hn, hm⟩ := f1 ix (hfull ix hlt)
          rw [ht, List.getElem?_eq_getElem hlt, hix] at hn
          cases hn
          exact hm
        · intro ix x hx hnf hm
          obtain ⟨y, k1, k2, k3⟩ := g1.fed ix (hfull ix (List.getElem?_eq_some_iff.1 hx).1) hnf
          rw [hx] at k1
          cases k1
          exact k3 hm
      | false =>
        rw [hr] at h
        obtain ⟨i1, i2, i3, i4⟩ := ih g1.ends f1 h
        rw [ht] at i2 i3 i4
        refine ⟨g1.ext.trans i1, i2, by omega, ?_⟩
        intro ix x hx hnf hm
        by_cases hf1 : ix ∈ s1.rootFeeding
        · obtain ⟨y, k1, -, k3⟩ := g1.fed ix hf1 hnf
          rw [hx] at k1
          cases k1
          exact k3 hm
        · exact i4 ix x hx hf1 (g1.ext.nodes x hm)

/-- The terminals of an estimate: the required nodes outside of the tree. -/
theorem cloneWith_spec (t : Tree) (req : List Nat) :
    (t.cloneWith req).2.nodes = t.nodes ∧ (t.cloneWith req).2.edges = t.edges ∧ (t.cloneWith req).2.total = 0 ∧
    (∀ x, x ∈ (t.cloneWith req).2.terminals ↔ x ∈ req ∧ x ∉ t.nodes) ∧
    (t.cloneWith req).2.terminals.Nodup ∧
    ((t.cloneWith req).1 = true ↔ (t.cloneWith req).2.terminals ≠ []) := by
  unfold Tree.cloneWith
  obtain ⟨e1, e2, e3, l, e4, e5⟩ := extend_keep ⟨t.nodes, t.edges, 0, [], []⟩ req
  obtain ⟨h1, -, h3, -, h5⟩ := extend_terms req ⟨t.nodes, t.edges, 0, [], []⟩
  have hsub : ∀ (req : List Nat) (t : Tree), t.terminals.Nodup → (∀ x ∈ t.terminals, x ∈ t.isTerminal) →
      (req.foldl addTerminal t).terminals.Nodup := by
    intro req
    induction req with
    | nil => intro t h _; exact h
    | cons y req ih =>
      intro t h h'
      refine ih _ ?_ ?_
      · unfold addTerminal
        split
        · exact h
        · next hc =>
          split
          · exact h
          · rw [List.nodup_append]
            refine ⟨h, by simp, fun a ha b hb hab => ?_⟩
            simp only [List.mem_singleton] at hb
            subst hb; subst hab
            exact hc (by simpa using h' _ ha)
      · intro x hx
        unfold addTerminal at hx ⊢
        split at hx
        · next hc => rw [if_pos hc]; exact h' x hx
        · next hc =>
          rw [if_neg hc]
          split at hx
          · next hn => rw [if_pos hn]; exact List.mem_cons_of_mem _ (h' x hx)
          · next hn =>
            rw [if_neg hn]
            rcases List.mem_append.1 hx with h | h
            · exact List.mem_cons_of_mem _ (h' x h)
            · exact List.mem_cons.2 (Or.inl (by simpa using h))
  refine ⟨e1, e2, e3, fun x => ⟨fun hx => ?_, fun ⟨hx, hn⟩ => ?_⟩, hsub req _ (by simp) (by simp), ?_⟩
  · refine ⟨(h5 x hx).resolve_left (by simp), ?_⟩
    rw [e4] at hx
    exact e5 x (by simpa using hx)
  · rcases h3 x (h1 x hx) with h | h | h
    · cases h
    · exact h
    · exact absurd h hn
  · simp [Tree.extend]

/-- What an estimate is. -/
structure Estimate (g : Graph) (t : Tree) (up req new : List Nat) : Prop where
  nodup : new.Nodup
  usable : ∀ e ∈ new, e ∈ g.usable
  outside : ∀ e ∈ new, g.dst e ∉ t.nodes ∧ g.dst e ∉ up.map g.dst
  one : ∀ e ∈ new, ∀ e' ∈ new, g.dst e = g.dst e' → e = e'
  needed : ∀ e ∈ new, ∃ x ∈ req, Path g new (g.dst e) x
  connected : ∀ x ∈ req, ∃ a, (a ∈ t.nodes ∨ a ∈ up.map g.dst) ∧ Path g new a x

theorem estimate_spec {c : Cfg} {g : Graph} {t : Tree} {flac flac' : State} {up req : List Nat} {w : Nat} (he : Ends g t)
    (h : estimate c g t flac up req = .ok (w, flac')) :
    (∃ new, Estimate g t up req new ∧ w % 65536 = g.sum new % 65536) ∧ (∀ x ∈ req, x ∉ t.nodes → x ∉ up.map g.dst) ∧
      ((t.cloneWith req).1 = true → flac'.rootLen = max flac.rootLen (t.cloneWith req).2.terminals.length) := by
  obtain ⟨k1, k2, k3, k4, -, k6⟩ := cloneWith_spec t req
  unfold estimate at h
  rcases hc : t.cloneWith req with ⟨go, tmp⟩
  rw [hc] at h k1 k2 k3 k4 k6
  simp only at h k1 k2 k3 k4 k6
  cases go with
  | false =>
    simp only [Bool.not_false, if_true, Out.ok.injEq, Prod.mk.injEq] at h
    have hnil : tmp.terminals = [] := by simpa using k6
    have hall : ∀ x ∈ req, x ∈ t.nodes := by
      intro x hx
      by_cases hn : x ∈ t.nodes
      · exact hn
      · have := (k4 x).2 ⟨hx, hn⟩
        rw [hnil] at this; cases this
    refine ⟨⟨[], ⟨List.nodup_nil, ?_, ?_, ?_, ?_, ?_⟩, by rw [← h.1]; rfl⟩, fun x hx hn => absurd (hall x hx) hn, by simp⟩
    all_goals first
      | (intro e he; cases he; done)
      | skip
    exact fun x hx => ⟨x, Or.inl (hall x hx), .refl _⟩
  | true =>
    simp only [Bool.not_true, Bool.false_eq_true, if_false] at h
    obtain ⟨p1, p2, p3, p4⟩ := addParents (g := g) up tmp
    generalize up.foldl (addParent g) tmp = tmp' at h p1 p2 p3 p4
    cases hg : greedy g c.inner c.outer (c.pick g tmp' flac.reset) c.rounds tmp' flac.reset with
    | panic => rw [hg] at h; cases h
    | timeout => rw [hg] at h; cases h
    | done b t' s' =>
      rw [hg] at h
      simp only [Out.ok.injEq, Prod.mk.injEq] at h
      have he' : Ends g tmp' := by
        intro e hm
        rw [p3, k1]
        rcases (p4 e).1 hm with h | h
        · exact Or.inl (he e (k2 ▸ h))
        · exact Or.inr (List.mem_map_of_mem h)
      obtain ⟨q1, q2, q3, q4⟩ := greedy_spec he' (by simp [State.reset]) hg
      obtain ⟨-, -, new, c1, c2, c3, c4, c5, c6, c7⟩ := q1
      refine ⟨⟨new, ⟨c2, fun e he => (c4 e he).1, ?_, c5, ?_, ?_⟩, ?_⟩, ?_, ?_⟩
      · intro e he
        have := (c4 e he).2.2.2
        rw [p3, k1] at this
        exact ⟨fun h => this (Or.inl h), fun h => this (Or.inr h)⟩
      · intro e he
        obtain ⟨x, hx, hp⟩ := c7 (g.dst e) (c4 e he).2.2.1 (c4 e he).2.2.2
        rw [p1, k4] at hx
        exact ⟨x, hx.1, hp⟩
      · intro x hx
        by_cases hn : x ∈ t.nodes
        · exact ⟨x, Or.inl hn, .refl _⟩
        · obtain ⟨a, ha, hp⟩ := c6 x (q2 x (by rw [p1, k4]; exact ⟨hx, hn⟩))
          rw [p3, k1] at ha
          exact ⟨a, ha, hp⟩
      · rw [← h.1, c3, p2, k3, Nat.zero_add]
      · intro x hx hn hu
        have hx' : x ∈ tmp'.terminals := by rw [p1, k4]; exact ⟨hx, hn⟩
        obtain ⟨ix, hlt, hix⟩ := List.getElem_of_mem hx'
        exact q4 ix x (by rw [List.getElem?_eq_getElem hlt, hix]) (by simp [State.reset]) ((p3 x).2 (Or.inr hu))
      · intro _
        rw [← h.2, q3, p1]
        rfl

/-! ## Weights -/

/-- Weights of edges are set, but for some. -/
def setAll (skip : Nat × Nat → Bool) (val : Nat × Nat → Nat) (st : St) (p : Nat × Nat) : St :=
  if skip p then st else st.setWeight p.1 (val p)

theorem resetWeight_eq (t : Tree) : resetWeight t = setAll (fun p => t.edges.contains p.1) (·.2) := rfl

theorem addWeight_eq (w : Nat) : addWeight w = setAll (fun _ => false) fun p => (p.2 + w) % 65536 := by
  funext st p; simp [setAll, addWeight]

theorem setAll_weight {skip : Nat × Nat → Bool} {val : Nat × Nat → Nat} : ∀ (l : List (Nat × Nat)) (st : St), (l.map Prod.fst).Nodup →
    (∀ p ∈ l, p.1 < st.inp.graph.edges.length) →
    (∀ p ∈ l, skip p = false → (l.foldl (setAll skip val) st).inp.graph.weight p.1 = val p) ∧
    ∀ e, (∀ p ∈ l, p.1 = e → skip p = true) → (l.foldl (setAll skip val) st).inp.graph.weight e = st.inp.graph.weight e := by
  intro l
  induction l with
  | nil => intro st _ _; exact ⟨fun p h => (by cases h), fun _ _ => rfl⟩
  | cons q l ih =>
    intro st hn hl
    simp only [List.map_cons, List.nodup_cons] at hn
    have hq := hl q (by simp)
    have hlen : (setAll skip val st q).inp.graph.edges.length = st.inp.graph.edges.length := by
      unfold setAll
      split
      · rfl
      · exact (same_setWeight _ _ _).1
    obtain ⟨i1, i2⟩ := ih (setAll skip val st q) hn.2 (fun p hp => by rw [hlen]; exact hl p (by simp [hp]))
    simp only [List.foldl_cons]
    refine ⟨fun p hp hs => ?_, fun e he => ?_⟩
    · rcases List.mem_cons.1 hp with rfl | hp
      · rw [i2 p.1 (fun p' hp' hpe => absurd (hpe ▸ List.mem_map_of_mem hp') hn.1)]
        unfold setAll
        rw [if_neg (by simp [hs])]
        exact (weight_setWeight hq).trans (if_pos rfl)
      · exact i1 p hp hs
    · rw [i2 e (fun p hp => he p (by simp [hp]))]
      unfold setAll
      split
      · rfl
      · next hs =>
        exact (weight_setWeight hq).trans (if_neg fun h => hs (he q (by simp) h.symm))

theorem setWeight_eq {g : Graph} {e w : Nat} (h : g.weight e = w) : setWeight g e w = g := by
  unfold setWeight
  cases g with
  | mk edges =>
    congr 1
    refine List.ext_getElem? fun i => ?_
    rw [List.getElem?_modify]
    cases hx : edges[i]? with
    | none => rfl
    | some x =>
      simp only [Option.map_eq_map, Option.map_some]
      split
      · next he =>
        subst he
        simp only [Graph.weight, hx, Option.map_some, Option.getD_some] at h
        subst h
        rfl
      · rfl

theorem setAll_changed {skip : Nat × Nat → Bool} {val : Nat × Nat → Nat} : ∀ (l : List (Nat × Nat)) (st : St),
    (l.foldl (setAll skip val) st).changed = false → st.changed = false ∧ (l.foldl (setAll skip val) st).inp.graph = st.inp.graph := by
  intro l
  induction l with
  | nil => intro st h; exact ⟨h, rfl⟩
  | cons p l ih =>
    intro st h
    simp only [List.foldl_cons] at h ⊢
    obtain ⟨h1, h2⟩ := ih _ h
    unfold setAll at h1 h2 ⊢
    split at h1
    · next hs => rw [if_pos hs] at h2 ⊢; exact ⟨h1, h2⟩
    · next hs =>
      rw [if_neg hs] at h2 ⊢
      simp only [St.setWeight, Bool.or_eq_false_iff, bne_eq_false_iff_eq] at h1
      exact ⟨h1.1, h2.trans (setWeight_eq h1.2)⟩

/-- The edges that depend on requirements. -/
structure Deps (st : St) : Prop where
  lt : ∀ r ∈ st.inp.byReq, ∀ p ∈ r.deps, p.1 < st.inp.graph.edges.length
  nodup : ∀ r ∈ st.inp.byReq, (r.deps.map Prod.fst).Nodup
  disjoint : ∀ r ∈ st.inp.byReq, ∀ r' ∈ st.inp.byReq, r ≠ r' → ∀ p ∈ r.deps, ∀ p' ∈ r'.deps, p.1 ≠ p'.1

/-- The weight of the edges of a requirement: the inherent one with an estimate. -/
def Weighed (c : Cfg) (t : Tree) (st : St) (r : Req) : Prop :=
  ∃ g' flac flac' w, Same st.inp.graph g' ∧ (st.changed = false → g' = st.inp.graph) ∧
    estimate c g' t flac r.up r.req = .ok (w, flac') ∧ ∀ p ∈ r.deps, st.inp.graph.weight p.1 = (p.2 + w) % 65536

theorem reqs_weights {c : Cfg} {t : Tree} {st0 : St} : ∀ {n i : Nat} {st st' : St}, st.inp.byReq.length < n + i →
    Deps st0 → (∀ r ∈ st.inp.byReq, r ∈ st0.inp.byReq) → st.inp.graph.edges.length = st0.inp.graph.edges.length →
    (∀ j, j < i → ∀ r, st.inp.byReq[j]? = some r → r.req ≠ [] → Weighed c t st r) →
    (∀ j, j < i → ∀ r, st.inp.byReq[j]? = some r → ∀ p ∈ r.deps, p.1 ∉ t.edges) →
    (∀ r ∈ st0.inp.byReq, r ∉ st.inp.byReq → ∀ p ∈ r.deps, p.1 ∉ t.edges → st.inp.graph.weight p.1 = p.2) →
    (∀ e, (∀ r ∈ st0.inp.byReq, ∀ p ∈ r.deps, p.1 = e → e ∈ t.edges) → st.inp.graph.weight e = st0.inp.graph.weight e) →
    reqs c t n i st = .ok st' →
    (∀ r ∈ st'.inp.byReq, r.req ≠ [] → Weighed c t st' r) ∧
    (∀ r ∈ st0.inp.byReq, r ∉ st'.inp.byReq → ∀ p ∈ r.deps, p.1 ∉ t.edges → st'.inp.graph.weight p.1 = p.2) ∧
    (∀ e, (∀ r ∈ st0.inp.byReq, ∀ p ∈ r.deps, p.1 = e → e ∈ t.edges) → st'.inp.graph.weight e = st0.inp.graph.weight e) := by
  intro n
  induction n with
  | zero =>
    intro i st st' hlt hd hsub hlen hw ht hr hu h
    simp only [reqs, Out.ok.injEq] at h
    subst h
    refine ⟨fun r hm => ?_, hr, hu⟩
    obtain ⟨j, hj, hjf⟩ := List.getElem_of_mem hm
    exact hw j (by omega) r (by rw [List.getElem?_eq_getElem hj, hjf])
  | succ n ih =>
    intro i st st' hlt hd hsub hlen hw ht hr hu h
    rw [reqs.eq_def] at h
    simp only at h
    cases hi : st.inp.byReq[i]? with
    | none =>
      rw [hi] at h
      simp only [Out.ok.injEq] at h
      subst h
      rw [List.getElem?_eq_none_iff] at hi
      refine ⟨fun r hm => ?_, hr, hu⟩
      obtain ⟨j, hj, hjf⟩ := List.getElem_of_mem hm
      exact hw j (by omega) r (by rw [List.getElem?_eq_getElem hj, hjf])
    | some r =>
      rw [hi] at h
      simp only at h
      have hil := (List.getElem?_eq_some_iff.1 hi).1
      have hrm := List.mem_of_getElem? hi
      have hr0 := hsub r hrm
      have hnext : ¬ (r.deps.any fun p => t.edges.contains p.1) = true → ∀ j, j < i + 1 → ∀ q, st.inp.byReq[j]? = some q →
          ∀ p ∈ q.deps, p.1 ∉ t.edges := by
        intro hk j hj q hq
        by_cases hji : j = i
        · subst hji
          rw [hi] at hq
          cases hq
          intro p hp hpe
          exact hk (List.any_eq_true.2 ⟨p, hp, by simpa using hpe⟩)
        · exact ht j (by omega) q hq
      split at h
      · next hk =>
        obtain ⟨p0, hpd, hpe⟩ := List.any_eq_true.1 hk
        have hpe : p0.1 ∈ t.edges := by simpa using hpe
        have hl := light_fold (light_reset t) r.deps st
        obtain ⟨w1, w2⟩ := setAll_weight (skip := fun p => t.edges.contains p.1) (val := (·.2)) r.deps st (hd.nodup r hr0)
          (by rw [hlen]; exact hd.lt r hr0)
        have hch := setAll_changed (skip := fun p => t.edges.contains p.1) (val := (·.2)) r.deps st
        rw [← resetWeight_eq t] at w1 w2 hch
        generalize r.deps.foldl (resetWeight t) st = s1 at h hl w1 w2 hch
        cases hs : swapRemove i (s1.extend r.req r.space).inp.byReq with
        | none => rw [hs] at h; cases h
        | some l =>
          rw [hs] at h
          simp only at h
          obtain ⟨a1, a2, a3, a4⟩ := swapRemove_some hs
          have hq : (s1.extend r.req r.space).inp.byReq = st.inp.byReq := hl.byReq
          rw [hq] at a1 a2 a3 a4
          have hother : ∀ q ∈ st0.inp.byReq, q ≠ r → ∀ p ∈ q.deps, s1.inp.graph.weight p.1 = st.inp.graph.weight p.1 := by
            intro q hq hne p hp
            exact w2 p.1 fun p' hp' he => absurd he (hd.disjoint r hr0 q hq (Ne.symm hne) p' hp' p hp)
          refine ih (st := { s1.extend r.req r.space with inp := { (s1.extend r.req r.space).inp with byReq := l } })
            (by show l.length < n + i; omega) hd (fun q hq => hsub q (a3 q hq)) (hl.same.1.trans hlen) ?_ ?_ ?_ ?_ h
          · intro j hj q hq' hne
            have hq2 : st.inp.byReq[j]? = some q := by rw [← a2 j hj]; exact hq'
            clear hq'
            have hqr : q ≠ r := by
              rintro rfl
              exact ht j hj q hq2 p0 hpd hpe
            obtain ⟨g', f1, f2, w, b1, b0, b2, b3⟩ := hw j hj q hq2 hne
            refine ⟨g', f1, f2, w, hl.same.symm.trans b1, fun hf => (b0 (hch hf).1).trans (hch hf).2.symm, b2, fun p hp => ?_⟩
            rw [← b3 p hp]
            exact hother q (hsub q (List.mem_of_getElem? hq2)) hqr p hp
          · exact fun j hj q hq => ht j hj q (by rw [← a2 j hj]; exact hq)
          · intro q hq hnq p hp hpt
            by_cases hqr : q = r
            · subst hqr
              exact w1 p hp (by simpa using hpt)
            · have hnq' : q ∉ st.inp.byReq := by
                intro hm
                rcases a4 q hm with h | h
                · exact hnq h
                · rw [hi] at h; cases h; exact hqr rfl
              exact (hother q hq hqr p hp).trans (hr q hq hnq' p hp hpt)
          · intro e he
            refine Eq.trans ?_ (hu e he)
            exact w2 e fun p hp hpe' => by simpa [hpe'] using he r hr0 p hp hpe'
      · next hk =>
        split at h
        · obtain ⟨⟨w, flac⟩, hest, h⟩ := Out.bind_ok h
          simp only at h
          have hl := light_fold (light_add w) r.deps { st with flac := flac }
          obtain ⟨w1, w2⟩ := setAll_weight (skip := fun _ => false) (val := fun p => (p.2 + w) % 65536) r.deps { st with flac := flac }
            (hd.nodup r hr0) (by show ∀ p ∈ r.deps, p.1 < st.inp.graph.edges.length; rw [hlen]; exact hd.lt r hr0)
          have hch := setAll_changed (skip := fun _ => false) (val := fun p => (p.2 + w) % 65536) r.deps { st with flac := flac }
          rw [← addWeight_eq w] at w1 w2 hch
          generalize r.deps.foldl (addWeight w) { st with flac := flac } = s1 at h hl w1 w2 hch
          have hq : s1.inp.byReq = st.inp.byReq := hl.byReq
          have hs : Same st.inp.graph s1.inp.graph := hl.same
          have hother : ∀ q ∈ st0.inp.byReq, q ≠ r → ∀ p ∈ q.deps, s1.inp.graph.weight p.1 = st.inp.graph.weight p.1 := by
            intro q hq hne p hp
            exact w2 p.1 fun p' hp' he => absurd he (hd.disjoint r hr0 q hq (Ne.symm hne) p' hp' p hp)
          refine ih (by rw [hq]; omega) hd (by rw [hq]; exact hsub) (hs.1.trans hlen) ?_ (by rw [hq]; exact hnext hk) ?_ ?_ h
          · rw [hq]
            intro j hj q hjq hne
            by_cases hqr : q = r
            · subst hqr
              exact ⟨st.inp.graph, st.flac, flac, w, hs.symm, fun hf => (hch hf).2.symm, hest, fun p hp => w1 p hp rfl⟩
            · have hji : j ≠ i := by rintro rfl; rw [hi] at hjq; cases hjq; exact hqr rfl
              obtain ⟨g', f1, f2, w, b1, b0, b2, b3⟩ := hw j (by omega) q hjq hne
              refine ⟨g', f1, f2, w, hs.symm.trans b1, fun hf => (b0 (hch hf).1).trans (hch hf).2.symm, b2, fun p hp => ?_⟩
              rw [← b3 p hp]
              exact hother q (hsub q (List.mem_of_getElem? hjq)) hqr p hp
          · rw [hq]
            intro q hq0 hnq p hp hpt
            refine (hother q hq0 ?_ p hp).trans (hr q hq0 hnq p hp hpt)
            rintro rfl
            exact hnq hrm
          · intro e he
            refine Eq.trans ?_ (hu e he)
            refine w2 e fun p hp hpe => ?_
            exfalso
            refine hk (List.any_eq_true.2 ⟨p, hp, ?_⟩)
            have := he r hr0 p hp hpe
            rw [← hpe] at this
            simpa using this
        · next hne =>
          refine ih (by omega) hd hsub hlen ?_ (hnext hk) hr hu h
          intro j hj q hjq hqn
          by_cases hji : j = i
          · subst hji; rw [hi] at hjq; cases hjq; exact absurd hqn hne
          · exact hw j (by omega) q hjq hqn

/-! ## Fixed points -/

theorem reqs_changed {c : Cfg} {t : Tree} : ∀ {n i : Nat} {st st' : St}, reqs c t n i st = .ok st' → st'.changed = false →
    st.changed = false ∧ st'.inp.graph = st.inp.graph := by
  intro n
  induction n with
  | zero => intro i st st' h hc; simp only [reqs, Out.ok.injEq] at h; subst h; exact ⟨hc, rfl⟩
  | succ n ih =>
    intro i st st' h hc
    rw [reqs.eq_def] at h
    simp only at h
    cases hi : st.inp.byReq[i]? with
    | none => rw [hi] at h; simp only [Out.ok.injEq] at h; subst h; exact ⟨hc, rfl⟩
    | some r =>
      rw [hi] at h
      simp only at h
      split at h
      · rw [resetWeight_eq] at h
        have hch := setAll_changed (skip := fun p => t.edges.contains p.1) (val := (·.2)) r.deps st
        generalize r.deps.foldl (setAll (fun p => t.edges.contains p.1) (·.2)) st = s1 at h hch
        cases hs : swapRemove i (s1.extend r.req r.space).inp.byReq with
        | none => rw [hs] at h; cases h
        | some l =>
          rw [hs] at h
          obtain ⟨h1, h2⟩ := ih h hc
          obtain ⟨h3, h4⟩ := hch h1
          exact ⟨h3, h2.trans h4⟩
      · split at h
        · obtain ⟨⟨w, flac⟩, -, h⟩ := Out.bind_ok h
          simp only [addWeight_eq] at h
          obtain ⟨h1, h2⟩ := ih h hc
          obtain ⟨h3, h4⟩ := setAll_changed _ _ h1
          exact ⟨h3, h2.trans h4⟩
        · exact ih h hc

end Verif.Updater
