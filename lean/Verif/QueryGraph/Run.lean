import Verif.QueryGraph.Inv
import Mathlib.Data.List.Perm.Subperm
/-!
# The whole loop
-/
namespace Verif.QueryGraph

open Verif.Updater (Out)

variable {sp : Space} {es : List Nat} {st st' : St}

theorem Inv.start (ht : sp.Typed) (hc : Chosen sp es) : Inv sp es (start sp es) := by
  unfold QueryGraph.start
  rw [foldl_startEdge _ fun e he hk => by
    obtain ⟨d, k1, -⟩ := (mem_outgoing ht).1 he
    rw [edge_of k1] at hk ⊢
    exact (ht.typename d (mem_edges.2 ⟨e, k1⟩) hk).1]
  have memT : ∀ e, e ∈ (sp.outgoing [] sp.root).filter (isTypename sp) ↔ ∃ d, sp.edges[e]? = some d ∧ d.kind = .typename ∧ d.src = sp.root := fun e => by
    rw [List.mem_filter, mem_outgoing ht]
    constructor
    · rintro ⟨⟨d, h1, h2, h3, h4⟩, h5⟩
      rw [isTypename, edge_of h1, decide_eq_true_eq] at h5
      exact ⟨d, h1, h5, h2⟩
    · rintro ⟨d, h1, h2, h3⟩
      exact ⟨⟨d, h1, h3, by simp [h2], by simp⟩, by simp [isTypename, edge_of h1, h2]⟩
  have memC : ∀ e, e ∈ (sp.outgoing [] sp.root).filter (isChild sp es) ↔ e ∈ es ∧ ∃ d, sp.edges[e]? = some d ∧ d.src = sp.root := fun e => by
    rw [List.mem_filter, mem_outgoing ht]
    constructor
    · rintro ⟨⟨d, h1, h2, h3, h4⟩, h5⟩
      rw [isChild, edge_of h1, decide_eq_true_eq] at h5
      exact ⟨h5.2, d, h1, h2⟩
    · rintro ⟨he, d, h1, h3⟩
      have hk : d.kind = .createChildResolver := by
        obtain ⟨d', k1, k2⟩ := hc.step e he
        rw [h1, Option.some.injEq] at k1
        subst k1
        rcases k2 with k | k | k
        · exact k
        · exact absurd h3 (root_not ht (.inl (ht.canProvide d (mem_edges.2 ⟨e, h1⟩) k).2))
        · exact absurd h3 (root_not ht (.inl (.inr (ht.provides d (mem_edges.2 ⟨e, h1⟩) k).1)))
      exact ⟨⟨d, h1, h3, by simp [hk], by simp⟩, by simp [isChild, edge_of h1, hk, he]⟩
  have tnodup : ((sp.outgoing [] sp.root).filter (isTypename sp)).Nodup := (outgoing_nodup ht).filter _
  have cnodup : ((sp.outgoing [] sp.root).filter (isChild sp es)).Nodup := (outgoing_nodup ht).filter _
  generalize (sp.outgoing [] sp.root).filter (isTypename sp) = T at memT tnodup
  generalize (sp.outgoing [] sp.root).filter (isChild sp es) = C at memC cnodup
  have tk : ∀ e ∈ T, ∃ d, sp.edges[e]? = some d ∧ d.kind = .typename ∧ sp.edge e = d ∧ (sp.node d.dst).IsField true ∧ d.src = sp.root := fun e he => by
    obtain ⟨d, h2, h3, h4⟩ := (memT e).1 he
    exact ⟨d, h2, h3, edge_of h2, (ht.typename d (mem_edges.2 ⟨e, h2⟩) h3).1, h4⟩
  have ck : ∀ e ∈ C, ∃ d, sp.edges[e]? = some d ∧ e ∈ es ∧ sp.edge e = d ∧ d.src = sp.root := fun e he => by
    obtain ⟨h1, d, h2, h3⟩ := (memC e).1 he
    exact ⟨d, h2, h1, edge_of h2, h3⟩
  simp only [List.cons_append, List.nil_append, List.length_cons, List.length_nil, Nat.zero_add, List.append_nil]
  have hO : ∀ (E : List QEdge), (⟨(QNode.root, sp.root) :: T.map (tlabel sp), E⟩ : QGraph).origins = sp.root :: T.map fun e => (sp.edge e).dst := fun E => by
    simp only [QGraph.origins, List.map_cons, tlabels]
  have hT : ∀ y ∈ T.map (fun e => (sp.edge e).dst), (sp.node y).IsField true := fun y hy => by
    obtain ⟨e, he, rfl⟩ := List.mem_map.1 hy
    obtain ⟨d, k1, k2, k3, k4, k5⟩ := tk e he
    rw [k3]; exact k4
  have cases' : ∀ {i : Nat} {q' : QNode} {n : Nat}, ((QNode.root, sp.root) :: T.map (tlabel sp))[i]? = some (q', n) → (i = 0 ∧ q' = .root ∧ n = sp.root) ∨
      ∃ j e, i = j + 1 ∧ T[j]? = some e ∧ (q', n) = tlabel sp e := by
    intro i q' n hq
    cases i with
    | zero =>
      simp only [List.getElem?_cons_zero, Option.some.injEq, Prod.mk.injEq] at hq
      exact .inl ⟨rfl, hq.1.symm, hq.2.symm⟩
    | succ j =>
      simp only [List.getElem?_cons_succ, List.getElem?_map, Option.map_eq_some_iff] at hq
      obtain ⟨e, h1, h2⟩ := hq
      exact .inr ⟨j, e, rfl, h1, h2.symm⟩
  have ofT : ∀ {n : Nat} {j e : Nat} {q' : QNode}, T[j]? = some e → (q', n) = tlabel sp e → (sp.node n).IsField true := fun h2 h3 => by
    have := congrArg Prod.snd h3
    rw [tlabel_snd] at this
    simp only at this
    rw [this]
    exact hT _ (List.mem_map.2 ⟨_, List.mem_of_getElem? h2, rfl⟩)
  refine ⟨rfl, ?_, ?_, ?_, ?_, ?_, ?_, ?_, ?_, ?_, ?_, ?_⟩
  · intro e he; cases he
  · simp [below]
  · intro k e he
    simp only [below, List.getElem?_map, Option.map_eq_some_iff] at he
    obtain ⟨a, h1, rfl⟩ := he
    rw [List.getElem?_eq_some_iff] at h1
    obtain ⟨h1, h2⟩ := h1
    simp only [List.getElem_range] at h2
    subst h2
    exact ⟨by simp only; omega, by simp only; omega, .inr rfl⟩
  · intro k e q n he hq
    simp only [below, List.getElem?_map, Option.map_eq_some_iff] at he
    obtain ⟨a, h1, rfl⟩ := he
    rcases cases' hq with ⟨h, -⟩ | ⟨j, e', h1, h2, h3⟩
    · cases h
    · obtain ⟨d, k1, k2, k3, k4, k5⟩ := tk e' (List.mem_of_getElem? h2)
      refine .inr ⟨rfl, e', d, k1, k2, ?_, h3, .inl ⟨rfl, k5⟩⟩
      have := congrArg Prod.snd h3
      rw [tlabel_snd, k3] at this
      exact this.symm
  · rw [hO, List.map_reverse, List.map_map]
    have hcf : (Prod.snd ∘ fun e => (0, (sp.edge e).dst)) = fun e => (sp.edge e).dst := rfl
    rw [hcf]
    have hTn : (T.map fun e => (sp.edge e).dst).Nodup := by
      rw [List.nodup_map_iff_inj_on tnodup]
      intro e he e' he' heq
      obtain ⟨d, k1, k2, k3, -⟩ := tk e he
      obtain ⟨d', k1', k2', k3', -⟩ := tk e' he'
      rw [k3, k3'] at heq
      exact ht.typenameOnce e e' d d' k1 k1' k2 k2' heq
    have hCn : (C.map fun e => (sp.edge e).dst).Nodup := by
      rw [List.nodup_map_iff_inj_on cnodup]
      intro e he e' he' heq
      obtain ⟨d, k1, k2, k3, k4⟩ := ck e he
      obtain ⟨d', k1', k2', k3', k4'⟩ := ck e' he'
      rw [k3, k3'] at heq
      exact hc.once e e' d d' k2 k2' k1 k1' heq
    have hCf : ∀ y ∈ C.map (fun e => (sp.edge e).dst), y ≠ sp.root ∧ ¬ (sp.node y).IsField true := fun y hy => by
      obtain ⟨e, he, rfl⟩ := List.mem_map.1 hy
      obtain ⟨d, k1, k2, k3, k4⟩ := ck e he
      rw [k3]
      refine ⟨hc.root e d k2 k1, fun hf => ?_⟩
      rcases (hc.kinds ht k2 k1).1 with g | g
      · exact source_not_field g.1 hf
      · cases field_inj hf g.1
    have := nodup_parts (O := []) (R := []) (x := sp.root) (by simp) hTn hCn
      (fun y hy => ⟨by simp, by simp only [List.mem_singleton]; exact root_not ht (.inr ⟨_, hT y hy⟩), fun hm => (hCf y hm).2 (hT y hy)⟩)
      (fun y hy => ⟨by simp, by simp only [List.mem_singleton]; exact (hCf y hy).1⟩)
    simpa using this
  · intro y hy
    simp only [List.mem_reverse, List.mem_map] at hy
    obtain ⟨e, he, rfl⟩ := hy
    obtain ⟨d, k1, k2, k3, k4⟩ := ck e he
    exact ⟨e, d, .root, k2, k1, by rw [k3], by rw [k4]; rfl⟩
  · intro n hn a d ha hd hdn hk
    rw [hO, List.mem_cons] at hn
    rcases hn with rfl | hn
    · right
      rw [List.mem_map]
      exact ⟨(0, d.dst), List.mem_reverse.2 (List.mem_map.2 ⟨a, (memC a).2 ⟨ha, d, hd, hdn⟩, by rw [edge_of hd]⟩), rfl⟩
    · have hf := hT n hn
      rcases (hc.kinds ht ha hd).2 with g | g
      · exact absurd (hdn.symm.trans g) (root_not ht (.inr ⟨_, hf⟩))
      · rw [hdn] at g
        exact absurd hf (source_not_field g)
  · intro a d hd hk
    rw [hO, List.mem_cons]
    have hx : d.dst ≠ sp.root := root_not ht (.inr ⟨_, (ht.typename d (mem_edges.2 ⟨a, hd⟩) hk).1⟩)
    simp only [hx, false_or, List.not_mem_nil, or_false, List.mem_map]
    constructor
    · rintro ⟨e, he, hee⟩
      obtain ⟨d', k1, k2, k3, k4, k5⟩ := tk e he
      rw [k3] at hee
      have := ht.typenameOnce e a d' d k1 hd k2 hk hee
      subst this
      rw [hd, Option.some.injEq] at k1
      subst k1
      exact k5
    · intro hs
      exact ⟨a, (memT a).2 ⟨d, hd, hk, hs⟩, by rw [edge_of hd]⟩
  · intro a d hd hk
    rw [hO]
    refine ⟨fun h => (by cases h), ?_⟩
    rintro ⟨n, h1, h2⟩
    have := (ht.provides _ h2 rfl).1
    simp only at this
    rw [List.mem_cons] at h1
    rcases h1 with rfl | h1
    · exact absurd rfl (root_not ht (.inl (.inr this)))
    · exact absurd (hT n h1) (source_not_field (.inr this))
  · intro r
    refine ⟨fun h => (by cases h), ?_⟩
    rintro ⟨q, n, h1, h2, h3⟩
    rcases cases' h1 with ⟨-, -, rfl⟩ | ⟨j, e, g1, g2, g3⟩
    · exact absurd rfl (root_not ht (.inl h2))
    · exact absurd (ofT g2 g3) (source_not_field h2)
  · intro x
    refine ⟨fun h => (by cases h), ?_⟩
    rintro ⟨i, id, s, b, n, h1, h2, h3⟩
    rcases cases' h1 with ⟨-, h, -⟩ | ⟨j, e, g1, g2, g3⟩
    · cases h
    · exact absurd (ofT g2 g3) (source_not_field (.inr h2))

theorem visit_ne (ht : sp.Typed) (hr : OnlyTypenames sp st.removed) {p n : Nat} : visit sp es st p n ≠ none := by
  intro h
  unfold visit at h
  simp only at h
  split at h
  · cases h
  · rename_i hn
    split at h
    · rename_i hp
      exact provided_ne ht hr hn hp
    · rename_i f hp
      obtain ⟨id, s, hf⟩ := (ht.provides _ (provided_some ht hp) rfl).2
      simp only at hf
      rw [hf] at h
      cases h
  · cases h
  · cases h

/-- Every round keeps the invariant and has fewer to go. -/
theorem Inv.round (ht : sp.Typed) (hc : Chosen sp es) (h : Inv sp es st) {p x : Nat} {rest : List (Nat × Nat)} (hs : st.stack = (p, x) :: rest) :
    ∃ st', QueryGraph.visit sp es { st with stack := rest } p x = some st' ∧ Inv sp es st' ∧
      (es.filter fun e => decide ((sp.edge e).src ∉ st'.graph.origins)).length + st'.stack.length <
        (es.filter fun e => decide ((sp.edge e).src ∉ st.graph.origins)).length + st.stack.length := by
  obtain ⟨a, d, q, h1, h2, h3, h4⟩ := h.stack (p, x) (by rw [hs]; simp)
  simp only at h3 h4
  rcases (hc.kinds ht h1 h2).1 with g | g
  · rw [h3] at g
    cases hv : QueryGraph.visit sp es { st with stack := rest } p x with
    | none => exact absurd hv (visit_ne (st := { st with stack := rest }) ht h.only)
    | some st' =>
      obtain ⟨q', k, T, C, R, K, v⟩ := visit_source ht hc (st := { st with stack := rest }) h.only g.1 hv
      refine ⟨st', rfl, h.visit ht hc hs v, ?_⟩
      have hnd := h.nodup
      rw [hs, List.map_cons] at hnd
      have hxO : x ∉ st.graph.origins := fun hc => (List.nodup_append.1 hnd).2.2 x hc x (by simp) rfl
      have hO : st'.graph.origins = st.graph.origins ++ x :: T.map fun e => (sp.edge e).dst := by
        simp only [QGraph.origins, v.nodes, List.map_append, List.map_cons, tlabels]
      rw [v.stack, hs]
      simp only [List.length_append, List.length_reverse, List.length_map, List.length_cons]
      have hf : (es.filter fun e => decide ((sp.edge e).src ∉ st'.graph.origins)) =
          (es.filter fun e => decide ((sp.edge e).src ∉ st.graph.origins)).filter fun e => decide ((sp.edge e).src ∉ st'.graph.origins) := by
        rw [List.filter_filter]
        refine List.filter_congr fun e _ => ?_
        have hm : (sp.edge e).src ∉ st'.graph.origins → (sp.edge e).src ∉ st.graph.origins := fun hn hm => hn (by rw [hO]; exact List.mem_append_left _ hm)
        by_cases hn : (sp.edge e).src ∈ st'.graph.origins
        · rw [decide_eq_false (fun hc => hc hn)]; rfl
        · rw [decide_eq_true hn, decide_eq_true (hm hn)]; rfl
      have hsub : C.length ≤ ((es.filter fun e => decide ((sp.edge e).src ∉ st.graph.origins)).filter fun e => ! decide ((sp.edge e).src ∉ st'.graph.origins)).length := by
        refine (List.subperm_of_subset v.cnodup fun e he => ?_).length_le
        obtain ⟨j1, d', j2, j3⟩ := (v.memC e).1 he
        rw [List.mem_filter, List.mem_filter, edge_of j2, j3, hO]
        exact ⟨⟨j1, by simpa using hxO⟩, by simp⟩
      have := List.length_eq_length_filter_add (l := es.filter fun e => decide ((sp.edge e).src ∉ st.graph.origins)) fun e => decide ((sp.edge e).src ∉ st'.graph.origins)
      rw [hf]
      omega
  · rw [h3] at g
    refine ⟨_, visit_field g.1, h.skip ht hc hs g.1, ?_⟩
    rw [hs]
    simp

theorem Inv.loop (ht : sp.Typed) (hc : Chosen sp es) (fuel : Nat) (h : Inv sp es st) {o : Out St} (ho : loop sp es fuel st = o) :
    o = .timeout ∨ ∃ st', o = .ok st' ∧ Inv sp es st' ∧ st'.stack = [] := by
  induction fuel generalizing st with
  | zero => left; rw [← ho]; rfl
  | succ n ih =>
    rw [QueryGraph.loop] at ho
    split at ho
    · rename_i hs
      exact .inr ⟨st, ho.symm, h, hs⟩
    · rename_i p x rest hs
      obtain ⟨st', h1, h2, -⟩ := h.round ht hc hs
      rw [h1] at ho
      exact ih h2 ho

theorem Inv.ends (ht : sp.Typed) (hc : Chosen sp es) (fuel : Nat) (h : Inv sp es st)
    (hf : (es.filter fun e => decide ((sp.edge e).src ∉ st.graph.origins)).length + st.stack.length < fuel) :
    ∃ st', QueryGraph.loop sp es fuel st = .ok st' ∧ Inv sp es st' ∧ st'.stack = [] := by
  induction fuel generalizing st with
  | zero => omega
  | succ n ih =>
    rw [QueryGraph.loop]
    split
    · rename_i hs
      exact ⟨st, rfl, h, hs⟩
    · rename_i p x rest hs
      obtain ⟨st', h1, h2, h3⟩ := h.round ht hc hs
      simp only [h1]
      exact ih h2 (by omega)

/-- The chosen edges of the root are on the stack at the start. -/
theorem start_measure (ht : sp.Typed) (hc : Chosen sp es) :
    (es.filter fun e => decide ((sp.edge e).src ∉ (start sp es).graph.origins)).length + (start sp es).stack.length ≤ es.length := by
  have hi := Inv.start ht hc
  have hroot : sp.root ∈ (start sp es).graph.origins := mem_origins.2 ⟨_, _, hi.root⟩
  have hst : (start sp es).stack.length ≤ (es.filter fun e => ! decide ((sp.edge e).src ∉ (start sp es).graph.origins)).length := by
    have : (start sp es).stack = (((sp.outgoing [] sp.root).filter (isChild sp es)).map fun e => (0, (sp.edge e).dst)).reverse := by
      unfold QueryGraph.start
      rw [foldl_startEdge _ fun e he hk => by
        obtain ⟨d, k1, -⟩ := (mem_outgoing ht).1 he
        rw [edge_of k1] at hk ⊢
        exact (ht.typename d (mem_edges.2 ⟨e, k1⟩) hk).1]
      simp
    rw [this, List.length_reverse, List.length_map]
    refine (List.subperm_of_subset ((outgoing_nodup ht).filter _) fun e he => ?_).length_le
    obtain ⟨h1, h2⟩ := List.mem_filter.1 he
    obtain ⟨d, k1, k2, -⟩ := (mem_outgoing ht).1 h1
    simp only [isChild, decide_eq_true_eq] at h2
    rw [List.mem_filter, edge_of k1, k2]
    exact ⟨h2.2, by simpa using hroot⟩
  have := List.length_eq_length_filter_add (l := es) fun e => decide ((sp.edge e).src ∉ (start sp es).graph.origins)
  omega

theorem link_ok {keys : List ((Nat × Nat) × Nat)} {rs : List QEdge} {g g' : QGraph} (h : link sp keys rs g = .ok g') :
    g'.nodes = g.nodes ∧ ∃ L, g'.edges = g.edges ++ L ∧ ∀ e, e ∈ L ↔ ∃ r ∈ rs, r.src = e.src ∧ r.kind = e.kind ∧
      ∃ id split b, sp.node r.dst = .field id split b ∧ ((id, split), e.dst) ∈ keys := by
  induction rs generalizing g with
  | nil =>
    simp only [link, Out.ok.injEq] at h
    subst h
    exact ⟨rfl, [], by simp, by simp⟩
  | cons r rs ih =>
    rw [link] at h
    split at h
    · rename_i id s b hr
      obtain ⟨h1, L, h2, h3⟩ := ih h
      refine ⟨h1, _, by rw [h2, List.append_assoc], fun e => ?_⟩
      rw [List.mem_append, h3, List.mem_map]
      constructor
      · rintro (⟨p, hp, rfl⟩ | ⟨r', k1, k2⟩)
        · rw [List.mem_filter, decide_eq_true_eq] at hp
          exact ⟨r, by simp, rfl, rfl, id, s, b, hr, by rw [← hp.2]; exact hp.1⟩
        · exact ⟨r', by simp [k1], k2⟩
      · rintro ⟨r', k1, k2, k3, id', s', b', k4, k5⟩
        rcases List.mem_cons.1 k1 with rfl | k1
        · rw [hr, Node.field.injEq] at k4
          obtain ⟨rfl, rfl, rfl⟩ := k4
          refine .inl ⟨_, List.mem_filter.2 ⟨k5, by simp⟩, ?_⟩
          obtain ⟨a, b, c⟩ := e
          simp only at k2 k3 ⊢
          rw [k2, k3]
        · exact .inr ⟨r', k1, k2, k3, id', s', b', k4, k5⟩
    · cases h

theorem link_ne {keys : List ((Nat × Nat) × Nat)} {rs : List QEdge} {g : QGraph} (h : ∀ r ∈ rs, ∃ b, (sp.node r.dst).IsField b) :
    ∃ g', link sp keys rs g = .ok g' := by
  induction rs generalizing g with
  | nil => exact ⟨g, rfl⟩
  | cons r rs ih =>
    obtain ⟨b, id, s, hr⟩ := h r (by simp)
    rw [link, hr]
    exact ih fun r' hr' => h r' (by simp [hr'])

end Verif.QueryGraph
