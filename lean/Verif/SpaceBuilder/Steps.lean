import Verif.SpaceBuilder.Inv
/-!
# Providers of a field
-/
namespace Verif.SpaceBuilder

open Verif.QueryGraph (Kind SEdge)

variable {E : Env} {st st' st'' : St} {vs : List Node} {es : List SEdge} {L L' : List Task} {R R' : List Req} {Q : List Req}

theorem asField_eq {n : Nat} {f : FNode} : st.asField n = some f ↔ st.Field n f := by
  unfold St.asField St.Field
  split
  · rename_i f' h; rw [h]; simp
  · rename_i h
    constructor
    · intro h'; cases h'
    · intro h'; exact (h f h').elim

theorem asProvidable_eq {n : Nat} {p : PNode} : st.asProvidable n = some p ↔ st.Provider n p := by
  unfold St.asProvidable St.Provider
  split
  · rename_i f' h; rw [h]; simp
  · rename_i h
    constructor
    · intro h'; cases h'
    · intro h'; exact (h p h').elim

theorem flag_eq {n : Nat} {u : FNode → FNode} (h : st.flag n u = some st') :
    ∃ f, st.Field n f ∧ st' = { st with nodes := st.nodes.set n (.field (u f)) } := by
  unfold St.flag at h
  split at h
  · rename_i f hf
    exact ⟨f, asField_eq.1 hf, (Option.some.inj h).symm⟩
  · cases h

theorem flag_ok {n : Nat} {f : FNode} {u : FNode → FNode} (h : st.Field n f) : st.flag n u = some { st with nodes := st.nodes.set n (.field (u f)) } := by
  unfold St.flag
  rw [asField_eq.2 h]

theorem mem_outgoing {n : Nat} {e : SEdge} : e ∈ st.outgoing n ↔ e ∈ st.edges ∧ e.src = n := by simp [St.outgoing]
theorem mem_incoming {n : Nat} {e : SEdge} : e ∈ st.incoming n ↔ e ∈ st.edges ∧ e.dst = n := by simp [St.incoming]

/-- The tasks for a selection set. -/
theorem subTasks_eq (parent : Parent) : ∃ new, st.subTasks parent = { st with tasks := new ++ st.tasks } ∧
    ∀ t, t ∈ new ↔ ∃ k f, st.Edge parent.field t.node k ∧ st.Field t.node f ∧ t = ⟨parent, t.node, f.id⟩ := by
  refine ⟨_, rfl, fun t => ?_⟩
  simp only [List.mem_reverse, List.mem_filterMap, mem_outgoing, Option.map_eq_some_iff, asField_eq]
  constructor
  · rintro ⟨⟨a, b, k⟩, ⟨h1, rfl⟩, f, h2, rfl⟩
    exact ⟨k, f, h1, h2, rfl⟩
  · rintro ⟨k, f, h1, h2, h3⟩
    exact ⟨_, ⟨h1, rfl⟩, f, h2, h3.symm⟩

theorem subSelection_eq (n source d : Nat) : ∃ new, st.subSelection E n source d = { st with tasks := new ++ st.tasks } ∧
    ∀ t, t ∈ new ↔ ∃ o k f, E.out d = some o ∧ st.Edge n t.node k ∧ st.Field t.node f ∧ t = ⟨⟨n, o, source⟩, t.node, f.id⟩ := by
  unfold St.subSelection
  split
  · rename_i o ho
    obtain ⟨new, h1, h2⟩ := subTasks_eq (st := st) ⟨n, o, source⟩
    refine ⟨new, h1, fun t => ?_⟩
    rw [h2]
    constructor
    · rintro ⟨k, f, h3, h4, h5⟩
      exact ⟨o, k, f, ho, h3, h4, h5⟩
    · rintro ⟨o', k, f, h3, h4, h5, h6⟩
      rw [ho] at h3
      cases h3
      exact ⟨k, f, h4, h5, h6⟩
  · rename_i ho
    refine ⟨[], rfl, fun t => ?_⟩
    simp [ho]

/-- The state after a new provider, but for the tasks. -/
def withProvider (st : St) (a n : Nat) (f : FNode) (p : PNode) : St :=
  { st with
    nodes := st.nodes.set n (.field { f with providable := true }) ++ [.providable p]
    edges := st.edges ++ [⟨a, st.nodes.length, .canProvide⟩, ⟨st.nodes.length, n, .provides⟩] }

theorem newProvider_of {a n d : Nat} {f : FNode} {p : PNode} (hf : st.Field n f) :
    st.newProvider E a n d p = some ((withProvider st a n f p).subSelection E n st.nodes.length d) := by
  have hn : n < st.nodes.length := (List.getElem?_eq_some_iff.1 hf).1
  have hf' : ((((st.addNode (.providable p)).addEdge a st.nodes.length .canProvide).addEdge st.nodes.length n .provides)).Field n f := by
    show (st.nodes ++ [_])[n]? = _
    rw [List.getElem?_append_left hn]
    exact hf
  unfold St.newProvider
  simp only [flag_ok hf']
  congr 2
  simp only [withProvider, St.addEdge, St.addNode, List.append_assoc, List.cons_append, List.nil_append, St.mk.injEq, and_true]
  exact List.set_append_left _ _ hn

theorem withProvider_ext {a n : Nat} {f : FNode} {p : PNode} (hf : st.Field n f) :
    Ext st (withProvider st a n f p) [.providable p] [⟨a, st.nodes.length, .canProvide⟩, ⟨st.nodes.length, n, .provides⟩] := by
  have hn : n < st.nodes.length := (List.getElem?_eq_some_iff.1 hf).1
  have hlt : ∀ m, m < st.nodes.length → (withProvider st a n f p).nodes[m]? = (st.nodes.set n (.field { f with providable := true }))[m]? := by
    intro m hm
    exact List.getElem?_append_left (by simpa using hm)
  have hne : ∀ m, m < st.nodes.length → m ≠ n → (withProvider st a n f p).nodes[m]? = st.nodes[m]? := by
    intro m hm hmn
    rw [hlt m hm, List.getElem?_set_ne (fun h => hmn h.symm)]
  have heq : (withProvider st a n f p).nodes[n]? = some (.field { f with providable := true }) := by
    rw [hlt n hn, List.getElem?_set_self hn]
  refine ⟨⟨fun m v hm hv => ?_, fun m f' hm => ?_, fun e he => ?_, fun i fl hi => ⟨fl, hi, rfl, rfl⟩, fun x hx => hx, ?_⟩, fun m v hm => ?_, rfl⟩
  · have hlt' := (List.getElem?_eq_some_iff.1 hm).1
    rw [hne m hlt' fun h => ?_]
    · exact hm
    · subst h
      rw [hf] at hm
      cases hm
      exact hv _ rfl
  · have hlt' := (List.getElem?_eq_some_iff.1 hm).1
    by_cases h : m = n
    · subst h
      rw [hf] at hm
      cases hm
      exact ⟨_, heq, rfl, rfl, rfl, rfl, fun _ => rfl⟩
    · exact ⟨f', by rw [hne m hlt' h]; exact hm, rfl, rfl, rfl, rfl, id⟩
  · simp [withProvider, he]
  · simp [withProvider]
  · rcases Nat.lt_or_ge m st.nodes.length with h | h
    · refine .inl ⟨h, ?_⟩
      by_cases h' : m = n
      · subst h'
        rw [heq] at hm
        cases hm
        exact .inl ⟨f, _, hf, rfl⟩
      · rw [hne m h h'] at hm
        exact .inr hm
    · refine .inr ⟨h, ?_⟩
      simp only [withProvider] at hm
      rw [List.getElem?_append_right (by simpa using h)] at hm
      exact List.mem_of_getElem? hm

theorem withProvider_new {a n : Nat} {f : FNode} {p : PNode} : (withProvider st a n f p).nodes[st.nodes.length]? = some (.providable p) := by
  simp only [withProvider]
  rw [List.getElem?_append_right (by simp)]
  simp

theorem CanProvide.exists {a f : Nat} {p : PNode} (h : CanProvide E st a f p) : ∃ v, st.nodes[a]? = some v := by
  cases h with
  | parent _ _ _ h => exact ⟨_, h⟩
  | resolver _ _ _ h => obtain ⟨_, h⟩ := h; exact ⟨_, h⟩

theorem exists_lt {n : Nat} (h : ∃ v, st.nodes[n]? = some v) : n < st.nodes.length := by
  obtain ⟨v, h⟩ := h
  exact (List.getElem?_eq_some_iff.1 h).1

/-- All edges are between nodes that are there. -/
theorem Shape.bound (hs : Shape E st) {e : SEdge} (he : e ∈ st.edges) : e.src < st.nodes.length ∧ e.dst < st.nodes.length := by
  have h := hs.edge e he
  have hd : ∀ {n d args}, st.Def n d args → n < st.nodes.length := fun ⟨f, _, h, _⟩ => exists_lt ⟨_, h⟩
  have hr : ∀ {n r}, st.Resolver n r → n < st.nodes.length := fun ⟨_, h⟩ => exists_lt ⟨_, h⟩
  unfold EdgeOk at h
  split at h
  · obtain ⟨⟨r, h1⟩, g, h2, h3⟩ := h
    exact ⟨exists_lt (h3.exists hs.root), hr h1⟩
  · obtain ⟨⟨r, h1⟩, ⟨o, h2⟩, _⟩ := h
    exact ⟨exists_lt (h2.exists hs.root), hr h1⟩
  · obtain ⟨p, f, h1, h2, h3⟩ := h
    exact ⟨exists_lt h3.exists, exists_lt ⟨_, h1⟩⟩
  · obtain ⟨⟨p, f, h1, h2, _⟩, _⟩ := h
    exact ⟨exists_lt ⟨_, h1⟩, exists_lt ⟨_, h2⟩⟩
  · obtain ⟨⟨o, h1⟩, ⟨d, args, h2⟩, _⟩ := h
    exact ⟨exists_lt (h1.exists hs.root), hd h2⟩
  · obtain ⟨⟨o, h1⟩, ⟨args, h2⟩, _⟩ := h
    exact ⟨exists_lt (h1.exists hs.root), hd h2⟩
  · obtain ⟨⟨f, h1⟩, h2⟩ := h
    refine ⟨?_, exists_lt ⟨_, h1⟩⟩
    rcases h2 with ⟨r, h2⟩ | ⟨p, h2⟩ | ⟨f, h2, _⟩
    · exact hr h2
    · exact exists_lt ⟨_, h2⟩
    · exact exists_lt ⟨_, h2⟩
  · exact h.elim

/-- Fields in the neighbourhood of a field that is taken care of are its children. -/
theorem neighbour_child (hs : Shape E st) {n m : Nat} {k : Kind} {fm : FNode} (hph : (∀ e ∈ st.edges, e.kind ≠ .requires) ∨ n = 0 ∨ IsExtra st n true)
    (hn : n = 0 ∨ ∃ f, st.Field n f) (he : st.Edge n m k) (hm : st.Field m fm) : Child st n m := by
  have h := hs.edge _ he
  have h0 : ∀ f, ¬ st.Field 0 f := by
    intro f hf
    simp only [St.Field, hs.root] at hf
    cases hf
  unfold EdgeOk at h
  simp only [St.Field] at hm
  cases k with
  | createChildResolver => obtain ⟨⟨_, _, h1⟩, _⟩ := h; simp only [hm] at h1; cases h1
  | hasChildResolver => obtain ⟨⟨_, _, h1⟩, _⟩ := h; simp only [hm] at h1; cases h1
  | canProvide => obtain ⟨p, f, h1, _⟩ := h; simp only [St.Provider, hm] at h1; cases h1
  | provides =>
    obtain ⟨⟨p, f, h1, _⟩, _⟩ := h
    simp only [St.Provider] at h1
    rcases hn with rfl | ⟨f, hf⟩
    · rw [hs.root] at h1; cases h1
    · simp only [St.Field] at hf; rw [hf] at h1; cases h1
  | field => exact .inl he
  | typename => exact .inr he
  | «requires» =>
    rcases hph with h1 | h1 | h1
    · exact (h1 _ he rfl).elim
    · subst h1
      obtain ⟨_, ⟨r, _, h2⟩ | ⟨p, h2⟩ | ⟨f, h2, _⟩⟩ := h
      · simp only [hs.root] at h2; cases h2
      · simp only [St.Provider, hs.root] at h2; cases h2
      · exact (h0 f h2).elim
    · obtain ⟨_, ⟨r, _, h2⟩ | ⟨p, h2⟩ | h2⟩ := h
      · obtain ⟨f, h3, _⟩ := h1
        simp only [St.Field] at h3 h2
        rw [h3] at h2; cases h2
      · obtain ⟨f, h3, _⟩ := h1
        simp only [St.Field, St.Provider] at h3 h2
        rw [h3] at h2; cases h2
      · have := isExtra_unique h1 h2
        cases this
  | gone => exact h.elim

theorem def_unique {n : Nat} {d d' : Option Nat} {args args' : Nat} (h : st.Def n d args) (h' : st.Def n d' args') : d = d' ∧ args = args' := by
  obtain ⟨f1, fl1, a1, a2, a3, a4⟩ := h
  obtain ⟨f2, fl2, b1, b2, b3, b4⟩ := h'
  simp only [St.Field] at a1 b1
  rw [a1] at b1
  cases b1
  rw [a2] at b2
  cases b2
  exact ⟨a3.symm.trans b3, a4.symm.trans b4⟩

theorem output_def (hr : st.nodes[0]? = some .root) {n o d args : Nat} (h : Output E st n o) (hd : st.Def n (some d) args) : E.out d = some o := by
  generalize hn : n = m at h
  cases h with
  | root => subst hn; obtain ⟨f, _, hf, _⟩ := hd; simp only [St.Field, hr] at hf; cases hf
  | field h2 ho => subst hn; rw [Option.some.inj (def_unique hd h2).1]; exact ho

theorem output_unique (hr : st.nodes[0]? = some .root) {n o o' : Nat} (h : Output E st n o) (h' : Output E st n o') : o = o' := by
  cases h' with
  | root =>
    generalize hn : 0 = m at h
    cases h with
    | root => rfl
    | field hd _ => subst hn; obtain ⟨f, _, hf, _⟩ := hd; simp only [St.Field, hr] at hf; cases hf
  | field hd ho => exact Option.some.inj ((output_def hr h hd).symm.trans ho)

/-- A child of a field that is not from the operation is not either. -/
theorem child_extra (hs : Shape E st) {n m : Nat} (hc : Child st n m) (hx : IsExtra st n true) : IsExtra st m true := by
  rcases hc with h | h
  · exact (hs.edge _ h).2.2.1 hx
  · rcases (hs.edge _ h).2.2.1 with h1 | h1
    · simp only at h1
      subst h1
      obtain ⟨f, h2, _⟩ := hx
      simp only [St.Field, hs.root] at h2
      cases h2
    · have := isExtra_unique hx h1
      cases this

end Verif.SpaceBuilder
