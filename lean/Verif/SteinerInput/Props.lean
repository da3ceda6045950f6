import Verif.SteinerInput.Plan
import Verif.SteinerInput.Ends
import Verif.SteinerInput.Weights
/-!
# C64: the edges of a solution are a plan
-/
namespace Verif.SteinerInput

open Verif.Flac Verif.Updater Verif.OpChecks

variable {sp : Space} {b : B} {S T es : List Nat} {t : Tree} {c : Cfg} {inp inp' : Input} {fuel : Nat}

theorem isFree_iff {p : Nat} {l : List Nat} : isFree sp p l = true ↔ ∀ r ∈ l, Freely sp p r := by
  simp only [isFree, List.all_eq_true, List.any_eq_true, mem_outgoing, Bool.and_eq_true, decide_eq_true_eq, providesFreely, Freely]
  refine forall_congr' fun r => imp_congr_right fun _ => ⟨?_, ?_⟩
  · rintro ⟨e, ⟨h1, rfl, -⟩, h2, h3, e', ⟨h4, h5, -⟩, h6, h7⟩
    refine ⟨sp.dst e, by rw [← h2]; exact edge_mem h1, by rw [← h5, ← h6, ← h7]; exact edge_mem h4, fun x hx => ?_⟩
    obtain ⟨i, k1, k2, k3, k4⟩ := edge_of_mem hx
    exact h3 i ⟨k1, k2, by rw [k4]; simp⟩ k4
  · rintro ⟨q, h1, h2, h3⟩
    obtain ⟨i, k1, k2, k3, k4⟩ := edge_of_mem h1
    obtain ⟨j, j1, j2, j3, j4⟩ := edge_of_mem h2
    refine ⟨i, ⟨k1, k2, by rw [k4]; simp⟩, k4, fun e ⟨e1, e2, e3⟩ hc => ?_, j, ⟨j1, by rw [k3]; exact j2, by rw [j4]; simp⟩, j4, j3⟩
    exact h3 (sp.dst e) (by rw [← hc, ← show sp.src e = q by rw [e2, k3]]; exact edge_mem e1)

theorem planned (hv : sp.Valid) (h : plan sp fuel c = .ok (b, t, inp', es)) :
    ∃ T S inp, Planned sp b T S inp inp' t ∧ build sp fuel = .ok (b, inp, T) ∧
      ∀ e, e ∈ es ↔ e ∈ sp.incoming (sp.dst e) ∧ b.takes t e = true ∧ Visited sp b t inp'.space (sp.dst e) := by
  unfold plan at h
  obtain ⟨⟨b1, inp, T⟩, h1, h⟩ := Out.bind_ok h
  obtain ⟨⟨t1, inp1⟩, h2, h⟩ := Out.bind_ok h
  obtain ⟨es1, h3, h⟩ := Out.bind_ok h
  simp only [Out.ok.injEq, Prod.mk.injEq] at h
  obtain ⟨rfl, rfl, rfl, rfl⟩ := h
  obtain ⟨S, k1, k2⟩ := build_spec h1
  refine ⟨T, S, inp, ⟨k1, k2, solved (fun h0 => (k1.terms.used 0 h0).1 rfl) h2, ?_⟩, h1, mem_included h3⟩
  refine List.eq_nil_iff_forall_not_mem.2 fun e he => ?_
  obtain ⟨d, d1, d2, d3, d4, d5⟩ := mem_incoming' he
  exact hv.root d d1 d5 d3

/-- Every leaf field of the operation is reached from the root through the edges of the plan, and so is every
required field that was made a terminal. -/
theorem C64_planned (hv : sp.Valid) (h : plan sp fuel c = .ok (b, t, inp', es)) :
    (∀ r, (r, true) ∈ sp.leaf → Reach sp es r) ∧ ∀ x ∈ inp'.space, Reach sp es x := by
  obtain ⟨T, S, inp, k1, -, k2⟩ := planned hv h
  refine ⟨fun r hr => k1.reach k2 (.term (k1.solved.keep r ?_)), fun x hx => k1.reach k2 (.term hx)⟩
  rw [k1.graph.2.1]
  rcases k1.built.terms.leaves r hr with h | h
  · exact h
  · rw [k1.built.indisp] at h; simp at h

/-- A plan goes through resolvers, providable and provided fields, from the root on. -/
theorem C64_steps (hv : sp.Valid) (h : plan sp fuel c = .ok (b, t, inp', es)) :
    ∀ e ∈ es, ∃ d, sp.edges[e]? = some d ∧ d.IsStep ∧ Reach sp es d.src ∧ Reach sp es d.dst := by
  obtain ⟨T, S, inp, k1, -, k2⟩ := planned hv h
  intro e he
  obtain ⟨h1, h2, h3⟩ := (k2 e).1 he
  obtain ⟨j1, -, j3⟩ := mem_incoming.1 h1
  have hs : sp.src e = sp.edges[e].src := by simp [Space.src, List.getElem?_eq_getElem j1]
  have hd : sp.dst e = sp.edges[e].dst := by simp [Space.dst, List.getElem?_eq_getElem j1]
  have hk : sp.kind e = sp.edges[e].kind := by simp [Space.kind, List.getElem?_eq_getElem j1]
  refine ⟨sp.edges[e], List.getElem?_eq_getElem j1, ?_, ?_, ?_⟩
  · rw [hk] at j3; exact isParent_iff.1 j3
  · rw [← hs]; exact k1.reach k2 (.step h1 h2 h3)
  · rw [← hd]; exact k1.reach k2 h3

/-- What is reached is reached in one way. -/
theorem C64_once (hv : sp.Valid) (h : plan sp fuel c = .ok (b, t, inp', es)) :
    (∀ e ∈ es, ∀ e' ∈ es, sp.dst e = sp.dst e' → e = e') ∧ ∀ e ∈ es, sp.dst e ≠ sp.root := by
  obtain ⟨T, S, inp, k1, -, k2⟩ := planned hv h
  refine ⟨fun e he e' he' hd => ?_, fun e he hr => ?_⟩
  · obtain ⟨h1, h2, h3⟩ := (k2 e).1 he
    obtain ⟨h1', h2', -⟩ := (k2 e').1 he'
    exact k1.one h1 h1' h2 h2' h3 hd
  · have := ((k2 e).1 he).1
    rw [hr, k1.root] at this; simp at this

theorem Planned.free (h : Planned sp b T S inp inp' t) (hu : sp.Uniform) : b.byEdge = [] := by
  refine List.eq_nil_iff_forall_not_mem.2 fun p hp => ?_
  obtain ⟨n, -, k2, k3, -, k5, e, k6, -, k8⟩ := h.built.reqs.edge p hp
  obtain ⟨d, d1, d2, d3, -, d5⟩ := mem_incoming' k3
  obtain ⟨d', d1', d2', d3', -, d5'⟩ := mem_incoming' k6
  have := hu n d d1 d' d1' d3 d3' d5 d5' (fun r hr hf => by
    rw [d2]
    exact isFree_iff.1 k5 r (by rw [k2, mem_ids, mem_requires]; exact ⟨hr.1, hf⟩))
  refine Bool.false_ne_true (k8.symm.trans (isFree_iff.2 fun r hr => ?_))
  rw [k2, mem_ids, mem_requires] at hr
  rw [← d2']
  exact this r ⟨hr.1, false, hr.2⟩ hr.2

/-- What a node of the plan requires is in the plan, provided that no requirement is free with some but not all
parents of the node. -/
theorem C64_required_partial (hv : sp.Valid) (hu : sp.Uniform) (h : plan sp fuel c = .ok (b, t, inp', es)) :
    ∀ n r, Reach sp es n → Needs sp n r → Reach sp es r := by
  obtain ⟨T, S, inp, k1, -, k2⟩ := planned hv h
  intro n r hn hr
  have hroot : n ≠ sp.root := fun hc => hv.start r (by rw [← hc]; exact hr)
  have hterm : ∀ x ∈ inp'.space, Reach sp es x := fun x hx => k1.reach k2 (.term hx)
  obtain ⟨i, hi⟩ := hr.2
  cases i with
  | true => exact (C64_planned hv h).1 r hi
  | false =>
    have hrn : r ∈ sp.requires n := mem_requires.2 ⟨hr.1, hi⟩
    cases hn with
    | root => exact absurd rfl hroot
    | @step e he _ =>
      obtain ⟨h1, h2, h3⟩ := (k2 e).1 he
      obtain ⟨m, hm, hmt⟩ := k1.visited h3
      rcases k1.built.reqs.need _ (.inl (by rw [hm]; simp)) hroot r hrn with j | j | ⟨m', j⟩
      · rw [k1.built.indisp] at j; simp at j
      · exact hterm r (k1.solved.keep r (by rw [k1.graph.2.1]; exact j))
      · have hmm := k1.built.good.rep _ _ j.rep
        rw [hm, Option.some.injEq] at hmm
        subst hmm
        have h0 : m ≠ 0 := fun hc => by
          have := j.rep
          rw [hc, k1.built.good.root] at this
          exact hroot (Option.some.inj this).symm
        rcases j.known with j1 | ⟨⟨e', i1, i2⟩, j1⟩
        · exact hterm r ((k1.solved.node ⟨m, reqNodes b T (ids sp (sp.dst e)), ids sp (sp.dst e)⟩
            (by rw [k1.graph.2.2]; exact List.mem_map.2 ⟨_, j1, rfl⟩) hmt h0).2 r (mem_ids.2 hrn))
        · have hk : sp.kind e ≠ .provides := fun hc => by
            obtain ⟨d, d1, -, d3, d4, -⟩ := mem_incoming' h1
            obtain ⟨d', d1', -, d3', d4', d5'⟩ := mem_incoming' i1
            have := hv.provided d d1 d' d1' (d3.trans d3'.symm) (d4.trans hc)
            rcases d5' with d5' | d5' | d5'
            · exact this.1 d5'
            · exact this.2 d5'
            · exact i2 (d4'.symm.trans d5')
          rcases j1 e h1 hk with g | g
          · rw [k1.free hu] at g; simp at g
          · obtain ⟨q, q1, q2, q3, k, w, q4, q5⟩ := (k1.built.byReq k1.finish).1 _ g
            rcases k1.takes h2 h1 with ⟨-, p2⟩ | ⟨k', p1, p2⟩
            · rw [p2] at q4; cases q4
            · simp only at q4
              rw [p1] at q4; cases q4
              exact hterm r ((k1.solved.req q q1 ⟨(_, w), q5, p2⟩).2 r (by rw [q2]; exact mem_ids.2 hrn))

/-- What is added to the leaf fields of the operation is required by the plan. -/
theorem C64_only (hv : sp.Valid) (h : plan sp fuel c = .ok (b, t, inp', es)) :
    ∀ r ∈ inp'.space, (r, true) ∈ sp.leaf ∨ ∃ n, Reach sp es n ∧ Needs sp n r := by
  obtain ⟨T, S, inp, k1, -, k2⟩ := planned hv h
  intro r hr
  have needs : ∀ n, r ∈ sp.requires n → Needs sp n r := fun n hn => ⟨(mem_requires.1 hn).1, false, (mem_requires.1 hn).2⟩
  rcases k1.solved.only r hr with j | ⟨f, j1, j2, j3, -⟩ | ⟨q, j1, ⟨d, j2, j3⟩, j4, -⟩
  · rw [k1.graph.2.1] at j
    rcases k1.built.terms.orig r j with g | ⟨y, g1, n, g2, g3⟩
    · exact .inl g
    · refine .inr ⟨n, ?_, needs n g3⟩
      have : Visited sp b t inp'.space n := by
        clear g3
        induction g2 with
        | refl => exact .term (k1.solved.keep y (by rw [k1.graph.2.1]; exact g1))
        | @step n e _ he ih =>
          have hin : e ∈ sp.incoming n := by rw [he]; simp
          have hd := mem_incoming_dst hin
          have hr := k1.reach k2 ih
          cases hr with
          | root => rw [k1.root] at he; cases he
          | @step e' he' _ =>
            obtain ⟨i1, i2, i3⟩ := (k2 e').1 he'
            rw [he] at i1
            simp only [List.mem_singleton] at i1
            subst i1
            exact .step hin i2 i3
      exact k1.reach k2 this
  · rw [k1.graph.2.2] at j1
    obtain ⟨p, hp, rfl⟩ := List.mem_map.1 j1
    obtain ⟨n, i1, i2, i3, -⟩ := k1.built.reqs.node p hp
    have h0 : p.1 ≠ 0 := fun hc => by
      rw [hc, k1.built.good.root] at i1
      exact i2 (Option.some.inj i1).symm
    simp only at j3
    rw [i3, mem_ids] at j3
    exact .inr ⟨n, k1.reach k2 (k1.rep_visited j2 i1 h0), needs n j3⟩
  · obtain ⟨-, i2⟩ := (k1.built.byReq k1.finish).2 q j1
    obtain ⟨p, hp, p2, p3⟩ := i2 d j2
    obtain ⟨n, g1, g2, g3, g4, -⟩ := k1.built.reqs.req p hp
    rw [p2, g3, mem_ids] at j4
    have hd := mem_incoming_dst g4
    obtain ⟨q1, q2, q3⟩ := k1.edge p3
    have hn := k1.solved.tree.edge _ j3
    rw [hd] at q1
    exact .inr ⟨n, k1.reach k2 (k1.rep_visited hn.2.2.1 q1 hn.2.2.2), needs n j4⟩

/-- The input is built: no panic, no error, and the loops end. -/
theorem C64_ends (hv : sp.Valid) (hc : sp.Connected) : ∃ N, ∀ fuel, N ≤ fuel → ∃ b inp T, build sp fuel = .ok (b, inp, T) :=
  build_ends hv hc

theorem nodup_only {l : List Nat} {e : Nat} (h : l.Nodup) (he : e ∈ l) (ho : ∀ x ∈ l, x = e) : l = [e] := by
  cases l with
  | nil => simp at he
  | cons a l =>
    have ha := ho a (by simp)
    subst ha
    cases l with
    | nil => rfl
    | cons b l =>
      have hb := ho b (by simp)
      subst hb
      simp at h

theorem incoming_nodup (n : Nat) : (sp.incoming n).Nodup := by
  unfold Space.incoming
  refine List.Pairwise.filter _ ?_
  rw [List.pairwise_reverse]
  exact List.nodup_range.imp fun h => h.symm

/-- The loop over the edges of a solution ends. -/
theorem C64_included_ends {n : Nat} (hv : sp.Valid) (h1 : build sp fuel = .ok (b, inp, T)) (h2 : solve c n inp (Tree.new 0 T) = .ok (t, inp')) :
    ∃ N, ∀ m, N ≤ m → ∃ es, included sp b t m inp'.space [] = .ok es := by
  classical
  obtain ⟨S, k1, k2⟩ := build_spec h1
  have hp : Planned sp b T S inp inp' t := ⟨k1, k2, solved (fun h0 => (k1.terms.used 0 h0).1 rfl) h2, by
    refine List.eq_nil_iff_forall_not_mem.2 fun e he => ?_
    obtain ⟨d, d1, d2, d3, d4, d5⟩ := mem_incoming' he
    exact hv.root d d1 d5 d3⟩
  let es := (List.range sp.edges.length).filter fun e => decide (e ∈ sp.incoming (sp.dst e) ∧ b.takes t e = true ∧ Visited sp b t inp'.space (sp.dst e))
  have hes : ∀ e, e ∈ es ↔ e ∈ sp.incoming (sp.dst e) ∧ b.takes t e = true ∧ Visited sp b t inp'.space (sp.dst e) := fun e => by
    simp only [es, List.mem_filter, List.mem_range, decide_eq_true_eq, and_iff_right_iff_imp]
    exact fun h => (mem_incoming.1 h.1).1
  have one : ∀ x, Reach sp es x → ∃ k new, ∀ j st inc, included sp b t (j + k) (x :: st) inc = included sp b t j st (inc ++ new) := by
    intro x hx
    induction hx with
    | root => exact ⟨1, [], fun j st inc => by rw [included]; simp [hp.root]⟩
    | @step e he _ ih =>
      obtain ⟨k, new, ih⟩ := ih
      obtain ⟨i1, i2, i3⟩ := (hes e).1 he
      have hf : (sp.incoming (sp.dst e)).filter (b.takes t) = [e] := by
        refine nodup_only (List.Pairwise.filter _ (incoming_nodup _)) (List.mem_filter.2 ⟨i1, i2⟩) fun e' he' => ?_
        obtain ⟨g1, g2⟩ := List.mem_filter.1 he'
        have hd := mem_incoming_dst g1
        exact (hp.one i1 (by rw [hd]; exact g1) i2 g2 i3 hd.symm).symm
      refine ⟨k + 1, e :: new, fun j st inc => ?_⟩
      rw [← Nat.add_assoc, included]
      simp only [hf, List.map_cons, List.map_nil, List.reverse_cons, List.reverse_nil, List.nil_append, List.cons_append]
      rw [ih]; simp
  have all : ∀ l : List Nat, (∀ x ∈ l, Reach sp es x) → ∃ k new, ∀ j inc, included sp b t (j + k) l inc = included sp b t j [] (inc ++ new) := by
    intro l
    induction l with
    | nil => exact fun _ => ⟨0, [], fun j inc => by simp⟩
    | cons x l ih =>
      intro hl
      obtain ⟨k, new, g⟩ := ih fun y hy => hl y (by simp [hy])
      obtain ⟨k', new', g'⟩ := one x (hl x (by simp))
      exact ⟨k + k', new' ++ new, fun j inc => by rw [← Nat.add_assoc, g', g]; simp⟩
  obtain ⟨k, new, g⟩ := all inp'.space fun x hx => hp.reach hes (.term hx)
  refine ⟨k + 1, fun m hm => ⟨new, ?_⟩⟩
  obtain ⟨j, rfl⟩ : ∃ j, m = (j + 1) + k := ⟨m - k - 1, by omega⟩
  rw [g]; simp [included]

/-- An edge of the graph stands for an edge of the space.  It weighs as much, and up to 255 more if its source was
merged into another node.  That the difference is the number of resolvers in between does not hold. -/
theorem C64_weight_partial (h : build sp fuel = .ok (b, inp, T)) {k : Nat} {ed : Edge} (hk : inp.graph.edges[k]? = some ed) :
    ∃ e d, sp.edges[e]? = some d ∧ d.IsStep ∧ b.emap e = some k ∧ b.rep[ed.dst]? = some d.dst ∧ b.map d.src = some ed.src ∧
      d.kind.weight ≤ ed.weight ∧ ed.weight ≤ d.kind.weight + 255 ∧ (b.rep[ed.src]? = some d.src → ed.weight = d.kind.weight) := by
  obtain ⟨S, k1, k2⟩ := build_spec h
  have hw := build_weights h
  have hg : inp.graph = ⟨b.edges⟩ := by
    unfold finish at k2
    rw [Option.map_eq_some_iff] at k2
    obtain ⟨rs, -, rfl⟩ := k2
    rfl
  rw [hg] at hk
  obtain ⟨e, he⟩ := k1.good.surj k (List.getElem?_eq_some_iff.1 hk).1
  obtain ⟨ed', g1, g2, g3, g4, -⟩ := k1.good.edge e k he
  have hk' : b.edges[k]? = some ed := hk
  rw [hk', Option.some.injEq] at g1
  subst g1
  obtain ⟨i1, i2, i3⟩ := hw.edge e k ed he hk'
  obtain ⟨j1, -, j3⟩ := mem_incoming.1 g4
  have hs : sp.src e = sp.edges[e].src := by simp [Space.src, List.getElem?_eq_getElem j1]
  have hd : sp.dst e = sp.edges[e].dst := by simp [Space.dst, List.getElem?_eq_getElem j1]
  have hkd : sp.kind e = sp.edges[e].kind := by simp [Space.kind, List.getElem?_eq_getElem j1]
  rw [hkd] at j3 i1 i2 i3
  exact ⟨e, sp.edges[e], List.getElem?_eq_getElem j1, isParent_iff.1 j3, he, by rw [← hd]; exact g2, by rw [← hs]; exact g3, i1, i2,
    fun hr => i3 (List.mem_of_getElem? (by rw [hs]; exact hr))⟩

/-! ## Examples -/

/-- A field (4) of a resolver (1), or of another one (2) whose providable field (5) requires what a third one (7)
provides (6); the second one is needed anyhow (10). -/
def ex : Space :=
  ⟨[⟨0, 1, .createChildResolver⟩, ⟨0, 2, .createChildResolver⟩, ⟨1, 3, .canProvide⟩, ⟨3, 4, .provides⟩, ⟨2, 5, .canProvide⟩, ⟨5, 4, .provides⟩,
    ⟨5, 6, .requires⟩, ⟨0, 7, .createChildResolver⟩, ⟨7, 8, .canProvide⟩, ⟨8, 6, .provides⟩, ⟨2, 9, .canProvide⟩, ⟨9, 10, .provides⟩], 0,
    [(4, true), (6, false), (10, true)]⟩

theorem needs_iff {n r : Nat} : Needs sp n r ↔ ⟨n, r, .requires⟩ ∈ sp.edges ∧ r ∈ sp.leaf.map Prod.fst := by
  simp [Needs]

instance (e : SEdge) : Decidable e.IsStep := inferInstanceAs (Decidable (_ ∨ _ ∨ _))

theorem start_of (h : ∀ e ∈ sp.edges, e.kind = .requires → e.src ≠ sp.root) : ∀ r, ¬ Needs sp sp.root r :=
  fun _ hn => h _ hn.1 rfl rfl

theorem ex_valid : ex.Valid := ⟨by decide, by decide +kernel, start_of (by decide +kernel), by decide +kernel⟩

/-- Only what is required is asked about. -/
theorem uniform_of (h : ∀ q ∈ sp.edges, q.kind = .requires → ∀ e ∈ sp.edges, ∀ e' ∈ sp.edges, e.dst = q.src → e'.dst = q.src → e.IsStep → e'.IsStep →
    e = e') : sp.Uniform := fun n e he e' he' hd hd' hs hs' hf r hr hl => by
  have := h ⟨n, r, .requires⟩ hr.1 rfl e he e' he' hd hd' hs hs'
  rw [← this]; exact hf r hr hl

theorem ex_uniform : ex.Uniform := uniform_of (by decide +kernel)

theorem reach_step {es : List Nat} {n : Nat} (e : Nat) (he : e ∈ es) (hd : sp.dst e = n) (h : Reach sp es (sp.src e)) : Reach sp es n := by
  rw [← hd]; exact .step he h

theorem ex_connected : ex.Connected := by
  have h1 : Reach ex ex.steps 1 := reach_step 0 (by decide +kernel) rfl .root
  have h2 : Reach ex ex.steps 2 := reach_step 1 (by decide +kernel) rfl .root
  have h3 : Reach ex ex.steps 3 := reach_step 2 (by decide +kernel) rfl h1
  have h4 : Reach ex ex.steps 4 := reach_step 3 (by decide +kernel) rfl h3
  have h5 : Reach ex ex.steps 5 := reach_step 4 (by decide +kernel) rfl h2
  have h7 : Reach ex ex.steps 7 := reach_step 7 (by decide +kernel) rfl .root
  have h8 : Reach ex ex.steps 8 := reach_step 8 (by decide +kernel) rfl h7
  have h6 : Reach ex ex.steps 6 := reach_step 9 (by decide +kernel) rfl h8
  have h9 : Reach ex ex.steps 9 := reach_step 10 (by decide +kernel) rfl h2
  have h10 : Reach ex ex.steps 10 := reach_step 11 (by decide +kernel) rfl h9
  constructor
  · intro p hp
    simp only [ex, List.mem_cons, List.not_mem_nil, or_false] at hp
    rcases hp with rfl | rfl | rfl
    · exact ⟨h4, by decide⟩
    · exact ⟨h6, by decide⟩
    · exact ⟨h10, by decide⟩
  · intro e he hs
    simp only [ex, List.mem_cons, List.not_mem_nil, or_false] at he
    rcases he with rfl | rfl | rfl | rfl | rfl | rfl | rfl | rfl | rfl | rfl | rfl | rfl
    all_goals first | exact .root | assumption

example : (plan ex 50 cfg).get?.map (fun x => (x.2.2.2, x.2.2.1.space)) = some ([3, 2, 0, 11, 10, 1], [4, 10]) := by decide +kernel

/-- Without the first resolver the requirement is part of the plan. -/
example : (plan { ex with edges := ex.edges.set 2 ⟨1, 3, .gone⟩ |>.set 3 ⟨3, 4, .gone⟩ } 50 cfg).get?.map (fun x => (x.2.2.2, x.2.2.1.space)) =
    some ([9, 8, 7, 5, 4, 1, 11, 10, 1], [6, 4, 10]) := by decide +kernel

/-- With the first resolver behind another one the requirement of the second one is chosen. -/
def ex2 : Space := { ex with edges := ex.edges.set 0 ⟨11, 1, .createChildResolver⟩ ++ [⟨0, 11, .createChildResolver⟩] }

example : (plan ex2 50 { cfg with pick := fun _ _ _ _ _ => 1 }).get?.map (fun x => (x.2.2.2, x.2.2.1.space)) =
    some ([5, 4, 1, 11, 10, 1, 9, 8, 7], [4, 10, 6]) := by decide +kernel


/-- A requirement that is free with one parent (1) of a node (5) and not with the other (2). -/
def lost : Space :=
  ⟨[⟨0, 1, .createChildResolver⟩, ⟨0, 2, .createChildResolver⟩, ⟨5, 4, .provides⟩, ⟨3, 4, .provides⟩, ⟨7, 3, .canProvide⟩, ⟨0, 7, .createChildResolver⟩,
    ⟨5, 6, .requires⟩, ⟨8, 6, .provides⟩, ⟨1, 8, .canProvide⟩, ⟨2, 5, .canProvide⟩, ⟨1, 10, .canProvide⟩, ⟨10, 11, .provides⟩, ⟨1, 5, .canProvide⟩], 0,
    [(4, true), (6, false), (11, true)]⟩

theorem not_reach {es : List Nat} {n : Nat} (hr : n ≠ sp.root) (h : ∀ e ∈ es, sp.dst e ≠ n) : ¬ Reach sp es n := fun hn => by
  cases hn with
  | root => exact hr rfl
  | step he _ => exact h _ he rfl

/-- What a node of the plan requires need not be in the plan: the id of an edge of the space is taken for one of the graph. -/
theorem C64_required_lost : lost.Valid ∧ ∃ b t inp es, plan lost 50 cfg = .ok (b, t, inp, es) ∧ Reach lost es 5 ∧ Needs lost 5 6 ∧ ¬ Reach lost es 6 := by
  refine ⟨⟨by decide, by decide +kernel, start_of (by decide +kernel), by decide +kernel⟩, ?_⟩
  have h : (plan lost 50 cfg).get?.map (fun x => x.2.2.2) = some [2, 12, 0, 11, 10, 0] := by decide +kernel
  cases hp : plan lost 50 cfg with
  | ok a =>
    obtain ⟨b, t, inp, es⟩ := a
    rw [hp] at h
    simp only [Out.get?, Option.map_some, Option.some.injEq] at h
    subst h
    refine ⟨b, t, inp, _, rfl, ?_, ⟨by decide +kernel, false, by decide⟩, not_reach (by decide) (by decide +kernel)⟩
    exact reach_step 12 (by decide) rfl (reach_step 0 (by decide) rfl .root)
  | panic => rw [hp] at h; cases h
  | timeout => rw [hp] at h; cases h
  | cycle => rw [hp] at h; cases h

/-- The same with other ids of edges. -/
def panics : Space :=
  ⟨[⟨0, 1, .createChildResolver⟩, ⟨0, 2, .createChildResolver⟩, ⟨1, 5, .canProvide⟩, ⟨2, 5, .canProvide⟩, ⟨5, 4, .provides⟩, ⟨2, 3, .canProvide⟩,
    ⟨3, 4, .provides⟩, ⟨5, 6, .requires⟩, ⟨0, 7, .createChildResolver⟩, ⟨1, 8, .canProvide⟩, ⟨8, 6, .provides⟩, ⟨7, 9, .canProvide⟩, ⟨9, 6, .provides⟩], 0,
    [(4, true), (6, false)]⟩

/-- And a plan need not be found: a panic. -/
theorem C64_required_panics : panics.Valid ∧ (plan panics 50 cfg).isPanic = true :=
  ⟨⟨by decide, by decide +kernel, start_of (by decide +kernel), by decide +kernel⟩, by decide +kernel⟩

/-- Two fields (7, 8) of the same providable fields (5, 6). -/
def depths : Space :=
  ⟨[⟨0, 1, .createChildResolver⟩, ⟨0, 2, .createChildResolver⟩, ⟨1, 3, .canProvide⟩, ⟨3, 4, .provides⟩, ⟨1, 5, .canProvide⟩, ⟨2, 6, .canProvide⟩,
    ⟨5, 7, .provides⟩, ⟨6, 7, .provides⟩, ⟨5, 8, .provides⟩, ⟨6, 8, .provides⟩], 0, [(8, true), (7, true), (4, true)]⟩

/-- Two edges of one kind with the same source can have different weights: 6 and 8 are edges from 5. -/
theorem C64_weight_differs : depths.Valid ∧ (build depths 50).get?.map (fun x => (x.1.emap 6, x.1.emap 8, x.2.1.graph.weight 0, x.2.1.graph.weight 3)) =
    some (some 0, some 3, 1, 0) :=
  ⟨⟨by decide, by decide +kernel, start_of (by decide +kernel), by decide +kernel⟩, by decide +kernel⟩

end Verif.SteinerInput
