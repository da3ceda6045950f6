import Verif.SpaceBuilder.Provide
/-!
# Resolvers of a field
-/
namespace Verif.SpaceBuilder

open Verif.QueryGraph (Kind SEdge)

variable {E : Env} {st st' st'' : St} {vs : List Node} {es : List SEdge} {L L' : List Task} {R R' : List Req} {Q : List Req} {t : Task}

theorem Shape.same (hs : Shape E st) (hn : st'.nodes = st.nodes) (he : st'.edges = st.edges) (hf : st'.fields = st.fields)
    (hu : ∀ x ∈ st.unplannable, x ∈ st'.unplannable) : Shape E st' := by
  refine hs.ext (Ext.same hn he hf hu) (by simp) (fun n f h1 h2 => ?_) ⟨by simp, by simp [hn]⟩ (by simp) (by simp) (fun n p h1 h2 => ?_) (by simp)
    (fun n f f' h1 h2 h3 h4 => ?_)
  · simp only [St.Field, hn] at h1
    have := exists_lt ⟨_, h1⟩
    omega
  · simp only [St.Provider, hn] at h1
    have := exists_lt ⟨_, h1⟩
    omega
  · simp only [St.Field, hn] at h1 h2
    rw [h1] at h2
    cases h2
    rw [h3] at h4
    cases h4

theorem Inv.same (h : Inv E Q st L R) (hn : st'.nodes = st.nodes) (he : st'.edges = st.edges) (hf : st'.fields = st.fields)
    (hu : ∀ x ∈ st.unplannable, x ∈ st'.unplannable) : Inv E Q st' L R := by
  have hx := Ext.same hn he hf hu
  refine h.ext hx (h.shape.same hn he hf hu) (h.used.same hf) (h.once.plain h.shape hx (by simp)) (fun q hq => hq) (fun t ht => ht) (fun t ht => .inl ht) (fun q hq => .inl hq) ?_ (fun g n s hc hs => ?_)
    (by simp) (by simp)
  · exact h.phase.imp (fun h => by rw [he]; exact h) fun h t ht => hx.grows.isExtra (h t ht)
  · left
    refine ⟨hc.imp (fun h => ?_) (fun h => ?_), ?_⟩
    · simpa [St.Edge, he] using h
    · simpa [St.Edge, he] using h
    · cases hs with
      | root => exact .root
      | provider h1 h2 => exact .provider (by simpa [St.Provider, hn] using h1) (by simpa [St.Edge, he] using h2)

/-- A requirement is added to the stack. -/
theorem push_eq (n g o : Nat) (S : Option Sel) : ∃ new, st.push n g o S = { st with reqs := new ++ st.reqs } ∧
    (∀ q ∈ new, q.dependent = n ∧ q.parent = g ∧ q.output = o) ∧ ∀ s, S = some s → ∃ q ∈ new, q.dependent = n ∧ q.parent = g ∧ q.items = s := by
  cases S with
  | none => exact ⟨[], rfl, by simp, by simp⟩
  | some s => exact ⟨[⟨n, false, g, o, s⟩], rfl, by simp, by simp⟩

theorem Shape.childData (hs : Shape E st) {g n d args : Nat} (h : Child st g n) (hd : st.Def n (Option.some d) args) : st.Edge g n .field := by
  rcases h with h | h
  · exact h
  · obtain ⟨_, ⟨args', h1⟩, _⟩ := hs.edge _ h
    have := (def_unique hd h1).1
    cases this

/-- More nodes and edges, and no fields. -/
theorem Ext.add {v : Node} (hv : ∀ f, v ≠ .field f) (hn : st'.nodes = st.nodes ++ [v]) (he : st'.edges = st.edges ++ es) (hf : st'.fields = st.fields)
    (hu : st'.unplannable = st.unplannable) : Ext st st' [v] es := by
  have hlt : ∀ (n : Nat) w, st.nodes[n]? = some w → st'.nodes[n]? = some w := by
    intro n w h
    rw [hn, List.getElem?_append_left (exists_lt ⟨_, h⟩)]
    exact h
  refine ⟨⟨fun n w h _ => hlt n w h, fun n f h => ⟨f, hlt n _ h, rfl, rfl, rfl, rfl, id⟩, fun e h => by rw [he]; simp [h],
    fun i fl h => ⟨fl, by rw [hf]; exact h, rfl, rfl⟩, by simp [hu], by simp [hn]⟩, fun n w h => ?_, he⟩
  rw [hn] at h
  rcases Nat.lt_or_ge n st.nodes.length with hl | hl
  · rw [List.getElem?_append_left hl] at h
    exact .inl ⟨hl, .inr h⟩
  · rw [List.getElem?_append_right hl] at h
    exact .inr ⟨hl, List.mem_of_getElem? h⟩

/-- Edges that are neither in a selection set nor to a provided field. -/
theorem Ext.cover (hx : Ext st st' vs es) (hs : Shape E st) (hes : ∀ e ∈ es, e.kind ≠ .field ∧ e.kind ≠ .typename ∧ e.kind ≠ .provides) {g n s : Nat}
    (hc : Child st' g n) (hso : Source st' g s) : Child st g n ∧ Source st g s := by
  refine ⟨hc.imp (fun h => ?_) (fun h => ?_), ?_⟩
  · exact (hx.edge h).elim id fun h => ((hes _ h).1 rfl).elim
  · exact (hx.edge h).elim id fun h => ((hes _ h).2.1 rfl).elim
  · cases hso with
    | root => exact .root
    | provider h1 h2 =>
      rcases hx.edge h2 with h | h
      · obtain ⟨⟨p, _, h3, _⟩, _⟩ := hs.edge _ h
        exact .provider h3 h
      · exact ((hes _ h).2.2 rfl).elim

theorem Phase.ext (hx : Ext st st' vs es) (hes : ∀ e ∈ es, e.kind ≠ .requires) (h : Phase st L) : Phase st' L := by
  rcases h with h | h
  · left
    intro e he
    rw [hx.edges, List.mem_append] at he
    exact he.elim (h e) (hes e)
  · exact .inr fun t ht => hx.grows.isExtra (h t ht)

theorem Inv.newResolver (h : Inv E Q st (t :: st.tasks) st.reqs) {d r : Nat} (hnone : ∀ i, st.Edge t.parent.field i .hasChildResolver → ¬ st.Resolver i r) :
    let st' := st.newResolver E t d r
    Inv E Q st' (t :: st'.tasks) st'.reqs ∧ Grows st st' ∧ st'.Resolver st.nodes.length r ∧ (∀ j, ¬ st'.Edge st.nodes.length j .canProvide) ∧
      st'.Edge t.parent.source st.nodes.length .createChildResolver ∧ st'.Edge t.parent.field st.nodes.length .hasChildResolver := by
  have ht := h.task t (by simp)
  obtain ⟨new, h1, h2, h3⟩ := push_eq (st := ((st.addNode (.resolver (E.entity d) r)).addEdge t.parent.source st.nodes.length .createChildResolver).addEdge
    t.parent.field st.nodes.length .hasChildResolver) st.nodes.length t.parent.field t.parent.output (E.required r)
  simp only [St.newResolver]
  rw [h1]
  generalize hst : ({ ((st.addNode (.resolver (E.entity d) r)).addEdge t.parent.source st.nodes.length .createChildResolver).addEdge
    t.parent.field st.nodes.length .hasChildResolver with reqs := _ } : St) = st'
  have hx : Ext st st' [.resolver (E.entity d) r] [⟨t.parent.source, st.nodes.length, .createChildResolver⟩, ⟨t.parent.field, st.nodes.length, .hasChildResolver⟩] := by
    refine Ext.add (by simp) ?_ ?_ ?_ ?_ <;> rw [← hst] <;> simp [St.addEdge, St.addNode]
  have hg := hx.grows
  have hr : st'.Resolver st.nodes.length r := ⟨E.entity d, by rw [← hst]; simp [St.addEdge, St.addNode]⟩
  have hc : st'.Edge t.parent.source st.nodes.length .createChildResolver := hx.new (e := ⟨t.parent.source, st.nodes.length, .createChildResolver⟩) (by simp)
  have hh : st'.Edge t.parent.field st.nodes.length .hasChildResolver := hx.new (e := ⟨t.parent.field, st.nodes.length, .hasChildResolver⟩) (by simp)
  have hlen : st'.nodes.length = st.nodes.length + 1 := by rw [← hst]; simp [St.addEdge, St.addNode]
  have htasks : st'.tasks = st.tasks := by rw [← hst]; rfl
  have hreqs : st'.reqs = new ++ st.reqs := by rw [← hst]; rfl
  have hat : ∀ n, st.nodes.length ≤ n → n < st'.nodes.length → st'.nodes[n]? = some (.resolver (E.entity d) r) := by
    intro n h1 h2
    have : n = st.nodes.length := by omega
    subst this
    rw [← hst]; simp [St.addEdge, St.addNode]
  have hs : Shape E st' := by
    refine h.shape.ext hx (by simp) (fun n f' hf' hle => ?_) ⟨by simp, by simp [hlen]⟩ (fun e he => ?_) (by simp) (fun n p' hp' hle => ?_)
      (fun e he => ?_) (fun n f0 f1 h0 h1 h2 h3 => ?_)
    · simp only [St.Field] at hf'
      rw [hat n hle (exists_lt ⟨_, hf'⟩)] at hf'
      cases hf'
    · simp only [List.mem_cons, List.not_mem_nil, or_false] at he
      rcases he with rfl | rfl
      · exact ⟨⟨r, hr⟩, _, hh, hg.source ht.source⟩
      · exact ⟨⟨r, hr⟩, ⟨_, hg.output ht.output⟩, _, hc, hg.source ht.source⟩
    · simp only [St.Provider] at hp'
      rw [hat n hle (exists_lt ⟨_, hp'⟩)] at hp'
      cases hp'
    · simp only [List.mem_cons, List.not_mem_nil, or_false] at he
      rcases he with rfl | rfl <;> simp
    · obtain ⟨_, _, h5⟩ : True ∧ True ∧ st'.nodes[n]? = st.nodes[n]? := by
        refine ⟨trivial, trivial, ?_⟩
        rw [← hst]
        exact List.getElem?_append_left (exists_lt ⟨_, h0⟩)
      simp only [St.Field] at h0 h1
      rw [h5, h0] at h1
      cases h1
      rw [h2] at h3
      cases h3
  have hcan' : ∀ {i j}, st'.Edge i j .canProvide → st.Edge i j .canProvide ∧ ∃ v, st.nodes[i]? = some v := by
    intro i j he
    rcases hx.edge he with h1 | h1
    · obtain ⟨p, f0, b1, b2, b3⟩ := h.shape.edge _ h1
      exact ⟨h1, b3.exists⟩
    · simp at h1
  have honce : Once st' := by
    have e1 : ∀ {g i}, st'.Edge g i .hasChildResolver → (st.Edge g i .hasChildResolver ∧ ∃ v, st.nodes[i]? = some v) ∨ (g = t.parent.field ∧ i = st.nodes.length) := by
      intro g i he
      rcases hx.edge he with h1 | h1
      · obtain ⟨⟨_, _, b1⟩, _⟩ := h.shape.edge _ h1
        exact .inl ⟨h1, _, b1⟩
      · right
        simpa using h1
    have e2 : ∀ {j n}, st'.Edge j n .provides → st.Edge j n .provides := fun he => (hx.edge he).elim id fun h => by simp at h
    have hres : ∀ {i r}, (∃ v, st.nodes[i]? = some v) → st'.Resolver i r → st.Resolver i r := fun ⟨v, hv⟩ => hg.unResolver hv
    refine ⟨fun g i i' r' a1 a2 a3 a4 => ?_, fun g g' i a1 a2 => ?_, fun i r j j' n a1 a2 a3 a4 a5 => ?_⟩
    · rcases e1 a1 with ⟨b1, b2⟩ | ⟨b1, b2⟩ <;> rcases e1 a2 with ⟨c1, c2⟩ | ⟨c1, c2⟩
      · exact h.once.resolver g i i' r' b1 c1 (hres b2 a3) (hres c2 a4)
      · rw [c2] at a4
        cases resolver_unique a4 hr
        rw [c1] at b1
        exact (hnone _ b1 (hres b2 a3)).elim
      · rw [b2] at a3
        cases resolver_unique a3 hr
        rw [b1] at c1
        exact (hnone _ c1 (hres c2 a4)).elim
      · omega
    · rcases e1 a1 with ⟨b1, b2⟩ | ⟨b1, b2⟩ <;> rcases e1 a2 with ⟨c1, c2⟩ | ⟨c1, c2⟩
      · exact h.once.parent g g' i b1 c1
      · have := exists_lt b2
        omega
      · have := exists_lt c2
        omega
      · omega
    · exact h.once.provider i r j j' n (hres (hcan' a2).2 a1) (hcan' a2).1 (hcan' a3).1 (e2 a4) (e2 a5)
  have hnc : ∀ j, ¬ st'.Edge st.nodes.length j .canProvide := fun j he => by
    have := exists_lt (hcan' he).2
    omega
  refine ⟨h.ext hx hs (h.used.same (by rw [← hst]; rfl)) honce (fun q hq => ?_) (fun t' ht' => ?_) (fun t' ht' => .inl ?_) (fun q hq => ?_) ?_ (fun g n s h1 h2 => .inl ?_) (fun g i r' S he hr' hq => ?_)
    (by simp), hg, hr, hnc, hc, hh⟩
  · rw [hreqs]; simp [hq]
  · rw [htasks]; exact ht'
  · rw [htasks] at ht'; exact ht'
  · rw [hreqs, List.mem_append] at hq
    rcases hq with hq | hq
    · obtain ⟨a1, a2, a3⟩ := h2 q hq
      exact .inr ⟨.inl ⟨r, by rw [a1]; exact hr⟩, by rw [a2, a3]; exact hg.output ht.output⟩
    · exact .inl hq
  · rw [htasks]
    exact h.phase.ext hx (by simp)
  · exact hx.cover h.shape (by simp) h1 h2
  · simp only [List.mem_cons, SEdge.mk.injEq, reduceCtorEq, and_false, and_true, false_or, List.not_mem_nil, or_false] at he
    obtain ⟨rfl, rfl⟩ := he
    obtain ⟨e1, a1⟩ := hr
    obtain ⟨e2, a2⟩ := hr'
    rw [a1] at a2
    cases a2
    obtain ⟨q, b1, b2⟩ := h3 S hq
    exact .inl ⟨q, by rw [hreqs]; simp [b1], b2⟩

theorem Ext.link (he : st'.edges = st.edges ++ es) (hn : st'.nodes = st.nodes) (hf : st'.fields = st.fields) (hu : st'.unplannable = st.unplannable) :
    Ext st st' [] es :=
  ⟨⟨fun n v h _ => by rw [hn]; exact h, fun n f h => ⟨f, by rw [hn]; exact h, rfl, rfl, rfl, rfl, id⟩, fun e h => by rw [he]; simp [h],
    fun i fl h => ⟨fl, by rw [hf]; exact h, rfl, rfl⟩, by simp [hu], by rw [hn]; exact Nat.le_refl _⟩,
    fun n v h => .inl ⟨by rw [hn] at h; exact (List.getElem?_eq_some_iff.1 h).1, .inr (by rw [← hn]; exact h)⟩, he⟩

/-- Only edges are added. -/
theorem Shape.link (hs : Shape E st) (hx : Ext st st' [] es) (hn : st'.nodes = st.nodes) (hedge : ∀ e ∈ es, EdgeOk E st' e ∧ e.kind ≠ .provides ∧ e.kind ≠ .typename) :
    Shape E st' := by
  refine hs.ext hx (by simp) (fun n f h1 h2 => ?_) ⟨by simp, by simp [hn]⟩ (fun e he => (hedge e he).1) (fun a b hb => ((hedge _ hb).2.1 rfl).elim)
    (fun n p h1 h2 => ?_) (fun e he => (hedge e he).2.2) (fun n f f' h1 h2 h3 h4 => ?_)
  · simp only [St.Field, hn] at h1
    have := exists_lt ⟨_, h1⟩
    omega
  · simp only [St.Provider, hn] at h1
    have := exists_lt ⟨_, h1⟩
    omega
  · simp only [St.Field, hn] at h1 h2
    rw [h1] at h2
    cases h2
    rw [h3] at h4
    cases h4

theorem Inv.linkResolver (h : Inv E Q st (t :: st.tasks) st.reqs) {i r : Nat} (hr : st.Resolver i r) (hh : st.Edge t.parent.field i .hasChildResolver) :
    let st' := st.linkResolver t i
    Inv E Q st' (t :: st'.tasks) st'.reqs ∧ Grows st st' ∧ st'.Edge t.parent.source i .createChildResolver := by
  have ht := h.task t (by simp)
  simp only [St.linkResolver]
  split
  · rename_i ha
    refine ⟨h, .refl, ?_⟩
    rw [List.any_eq_true] at ha
    obtain ⟨⟨a, b, k⟩, h1, h2⟩ := ha
    rw [mem_incoming] at h1
    obtain ⟨h1, h3⟩ := h1
    simp only [decide_eq_true_eq] at h2 h3
    subst h2 h3
    have h4 := h.shape.edge _ h1
    obtain ⟨en, hr⟩ := hr
    unfold EdgeOk at h4
    cases k with
    | createChildResolver => exact h1
    | hasChildResolver =>
      obtain ⟨_, ⟨o, h5⟩, s, h6, h7⟩ := h4
      have hps := ht.source
      simp only at h5 h7
      generalize t.parent.source = ps at *
      cases h5 with
      | root =>
        cases h7 with
        | root => exact h6
        | provider _ h8 =>
          obtain ⟨⟨_, f, _, hf, _⟩, _⟩ := h.shape.edge _ h8
          simp only [St.Field, h.shape.root] at hf
          cases hf
      | field hd _ =>
        obtain ⟨f, _, hf, _⟩ := hd
        simp only [St.Field] at hf
        generalize t.parent.field = pf at *
        cases hps with
        | root => rw [h.shape.root] at hf; cases hf
        | provider hp _ => simp only [St.Provider] at hp; rw [hf] at hp; cases hp
    | canProvide => obtain ⟨p, f, h5, _⟩ := h4; simp only [St.Provider, hr] at h5; cases h5
    | provides => obtain ⟨⟨p, f, _, h5, _⟩, _⟩ := h4; simp only [St.Field, hr] at h5; cases h5
    | field => obtain ⟨_, ⟨_, _, f, _, h5, _⟩, _⟩ := h4; simp only [St.Field, hr] at h5; cases h5
    | typename => obtain ⟨_, ⟨_, f, _, h5, _⟩, _⟩ := h4; simp only [St.Field, hr] at h5; cases h5
    | «requires» => obtain ⟨⟨f, h5⟩, _⟩ := h4; simp only [St.Field, hr] at h5; cases h5
    | gone => exact h4.elim
  · generalize hst : st.addEdge t.parent.source i .createChildResolver = st'
    have hx : Ext st st' [] [⟨t.parent.source, i, .createChildResolver⟩] := by
      apply Ext.link <;> rw [← hst] <;> rfl
    have hn : st'.nodes = st.nodes := by rw [← hst]; rfl
    have hg := hx.grows
    have htasks : st'.tasks = st.tasks := by rw [← hst]; rfl
    have hreqs : st'.reqs = st.reqs := by rw [← hst]; rfl
    have hs : Shape E st' := by
      refine h.shape.link hx hn fun e he => ?_
      simp only [List.mem_cons, List.not_mem_nil, or_false] at he
      subst he
      exact ⟨⟨⟨r, hg.resolver hr⟩, _, hg.edge hh, hg.source ht.source⟩, by simp, by simp⟩
    rw [htasks, hreqs]
    exact ⟨h.ext hx hs (h.used.same (by rw [← hst]; rfl)) (h.once.plain h.shape hx (by simp)) (fun q hq => hq) (fun t ht => ht) (fun t ht => .inl ht) (fun q hq => .inl hq) (h.phase.ext hx (by simp))
      (fun g n s h1 h2 => .inl (hx.cover h.shape (by simp) h1 h2)) (by simp) (by simp), hg, hx.new (e := ⟨t.parent.source, i, .createChildResolver⟩) (by simp)⟩

/-- A provider below a resolver. -/
theorem Inv.viaResolver (h : Inv E Q st (t :: st.tasks) st.reqs) {d args r i : Nat} (hd : st.Def t.node (some d) args) (hr : st.Resolver i r)
    (hh : st.Edge t.parent.field i .hasChildResolver) (hmem : r ∈ E.resolvers d)
    (hl : E.isLookup r = true → E.connected (E.subgraph r) t.parent.output d = true)
    (hnew : ∀ j, st.Edge i j .canProvide → ¬ st.Edge j t.node .provides) :
    ∃ st', st.viaResolver E t d r i = some st' ∧ Inv E Q st' (t :: st'.tasks) st'.reqs ∧ Grows st st' ∧
      (∃ j p, st'.Provider j p ∧ p.resolver = r ∧ st'.Edge i j .canProvide ∧ st'.Edge j t.node .provides) ∧ ∃ f, st'.Field t.node f ∧ f.providable = true := by
  have ht := h.task t (by simp)
  have hf := h.shape.childData ht.child hd
  obtain ⟨new, h1, h2, h3⟩ := push_eq (st := st) st.nodes.length t.parent.field t.parent.output (E.needs d (E.subgraph r))
  unfold St.viaResolver
  rw [h1]
  generalize hst : ({ st with reqs := new ++ st.reqs } : St) = st1
  have hi : Inv E Q st1 (t :: st1.tasks) st.reqs := by
    subst hst
    exact h.same rfl rfl rfl (fun x hx => hx)
  have hg1 : Grows st st1 := by subst hst; exact (Ext.same (st := st) (st' := { st with reqs := new ++ st.reqs }) rfl rfl rfl (fun x hx => hx)).grows
  have hreqs : st1.reqs = new ++ st.reqs := by rw [← hst]
  have hlen : st1.nodes.length = st.nodes.length := by rw [← hst]
  have hlen' : st1.nodes = st.nodes := by rw [← hst]
  obtain ⟨st', a1, a2, a3, a4, a5, a6, a7, a8, a9, a10⟩ := hi.provider (R' := st1.reqs) (a := i) (d := d) (args := args)
    (p := ⟨r, t.id, E.provides d (E.subgraph r)⟩)
    (.resolver (hg1.edge hf) (hg1.output ht.output) (hg1.def hd) (hg1.resolver hr) (hg1.edge hh) hmem rfl hl) rfl (hg1.def hd)
    (fun q hq => by rw [hreqs]; simp [hq])
    (fun q hq => by
      rw [hreqs, List.mem_append] at hq
      rcases hq with hq | hq
      · obtain ⟨b1, b2, b3⟩ := h2 q hq
        exact .inr ⟨by rw [hlen]; exact b1, by rw [b2, b3]; exact hg1.output ht.output⟩
      · exact .inl hq)
    (fun r' S hr' hS => by
      have : r' = r := by
        obtain ⟨e1, c1⟩ := hr
        obtain ⟨e2, c2⟩ := hr'
        rw [hlen', c1] at c2
        cases c2
        rfl
      subst this
      obtain ⟨q, c1, c2⟩ := h3 S hS
      exact ⟨_, hg1.edge hh, hg1.edge hf, q, by rw [hreqs]; simp [c1], by rw [hlen]; exact c2⟩)
    (fun r' j _ h1 h2 => hnew j (by rw [← hst] at h1; exact h1) (by rw [← hst] at h2; exact h2))
  exact ⟨st', a1, by rw [a4]; exact a2, hg1.trans a3, ⟨_, _, a7, rfl, a8, a9⟩, a10⟩

theorem findResolver_some {g r i : Nat} (h : st.findResolver g r = some i) : st.Resolver i r ∧ st.Edge g i .hasChildResolver := by
  unfold St.findResolver at h
  obtain ⟨⟨a, b, k⟩, h1, h2⟩ := List.exists_of_findSome?_eq_some h
  rw [mem_outgoing] at h1
  obtain ⟨h1, rfl⟩ := h1
  simp only at h2
  split at h2
  · rename_i hk
    split at h2
    · rename_i en r' hn
      split at h2
      · rename_i hr
        cases h2
        subst hr hk
        exact ⟨⟨en, hn⟩, h1⟩
      · cases h2
    · cases h2
  · cases h2

theorem providesAlready_true (hs : Shape E st) {i r : Nat} (hr : st.Resolver i r) {f : FNode} {n : Nat} (hf : st.Field n f)
    (h : st.providesAlready i f.id = true) :
    (∃ j p, st.Provider j p ∧ p.resolver = r ∧ st.Edge i j .canProvide ∧ st.Edge j n .provides) ∧ ∃ f', st.Field n f' ∧ f'.providable = true := by
  unfold St.providesAlready at h
  rw [List.any_eq_true] at h
  obtain ⟨⟨a, j, k⟩, h1, h2⟩ := h
  rw [mem_outgoing] at h1
  obtain ⟨h1, rfl⟩ := h1
  simp only [Bool.and_eq_true, decide_eq_true_eq] at h2
  obtain ⟨rfl, h2⟩ := h2
  split at h2
  · rename_i p hp
    rw [asProvidable_eq] at hp
    simp only [decide_eq_true_eq] at h2
    obtain ⟨p', f', h3, h4, h5⟩ := hs.edge _ h1
    simp only [St.Provider] at hp h3
    rw [hp] at h3
    cases h3
    obtain ⟨⟨p2, fn, h6, h7, h8, h9⟩, _⟩ := hs.edge _ h4
    simp only [St.Provider] at h6
    rw [hp] at h6
    cases h6
    have h10 : f' = n := hs.once _ _ _ _ h7 hf (h8.symm.trans h2)
    subst h10
    refine ⟨⟨j, p, hp, ?_, h1, h4⟩, fn, h7, h9⟩
    obtain ⟨en, hr⟩ := hr
    cases h5 with
    | parent _ _ _ h => simp only [St.Provider] at h; rw [hr] at h; cases h
    | resolver _ _ _ h => obtain ⟨_, h⟩ := h; rw [hr] at h; cases h; rfl
  · cases h2

theorem findResolver_none {g r : Nat} (h : st.findResolver g r = none) : ∀ i, st.Edge g i .hasChildResolver → ¬ st.Resolver i r := by
  rintro i he ⟨en, hr⟩
  unfold St.findResolver at h
  rw [List.findSome?_eq_none_iff] at h
  have := h _ (mem_outgoing.2 ⟨he, rfl⟩)
  simp [hr] at this

theorem providesAlready_of (hs : Shape E st) {i j n : Nat} {f : FNode} (hf : st.Field n f) (h1 : st.Edge i j .canProvide) (h2 : st.Edge j n .provides) :
    st.providesAlready i f.id = true := by
  unfold St.providesAlready
  rw [List.any_eq_true]
  refine ⟨_, mem_outgoing.2 ⟨h1, rfl⟩, ?_⟩
  obtain ⟨⟨p, f', h3, h4, h5, _⟩, _⟩ := hs.edge _ h2
  simp only [St.Field] at hf h4
  rw [hf] at h4
  cases h4
  simp [asProvidable_eq.2 h3, h5]

theorem Inv.tryResolver (h : Inv E Q st (t :: st.tasks) st.reqs) {d args r : Nat} {could : Bool} {sub : Option Nat}
    (hd : st.Def t.node (some d) args) (hmem : r ∈ E.resolvers d) :
    ∃ st', st.tryResolver E t d could sub r = some st' ∧ Inv E Q st' (t :: st'.tasks) st'.reqs ∧ Grows st st' ∧
      (skips E could sub t.parent.output d r = false → Resolved st' t.parent.source t.parent.field t.node r ∧ ∃ f, st'.Field t.node f ∧ f.providable = true) := by
  have ht := h.task t (by simp)
  unfold St.tryResolver
  split
  · rename_i hsk
    exact ⟨st, rfl, h, .refl, fun h => by rw [hsk] at h; cases h⟩
  · rename_i hsk
    have hl : E.isLookup r = true → E.connected (E.subgraph r) t.parent.output d = true := by
      intro hr
      simp only [skips, hr, Bool.true_and, Bool.or_eq_true_iff, Bool.not_eq_true', not_or, Bool.not_eq_false] at hsk
      exact hsk.2
    split
    · rename_i i hi
      obtain ⟨hr, hh⟩ := findResolver_some hi
      obtain ⟨h1, h2, h3⟩ := h.linkResolver hr hh
      simp only
      generalize st.linkResolver t i = st1 at h1 h2 h3
      split
      · rename_i hp
        obtain ⟨f, hf, hid⟩ := (h1.task t (by simp)).node
        rw [← hid] at hp
        obtain ⟨h4, h5⟩ := providesAlready_true h1.shape (h2.resolver hr) hf hp
        exact ⟨st1, rfl, h1, h2, fun _ => ⟨⟨i, h2.resolver hr, h2.edge hh, h3, h4⟩, h5⟩⟩
      · rename_i hp
        obtain ⟨f, hf, hid⟩ := (h1.task t (by simp)).node
        rw [← hid] at hp
        obtain ⟨st', h4, h5, h6, h7, h8⟩ := h1.viaResolver (h2.def hd) (h2.resolver hr) (h2.edge hh) hmem hl
          fun j c1 c2 => hp (providesAlready_of h1.shape hf c1 c2)
        obtain ⟨j, p, h7⟩ := h7
        exact ⟨st', h4, h5, h2.trans h6, fun _ => ⟨⟨i, h6.resolver (h2.resolver hr), h6.edge (h2.edge hh), h6.edge h3, j, p, h7⟩, h8⟩⟩
    · rename_i hi
      obtain ⟨h1, h2, h3, h0, h4, h5⟩ := h.newResolver (d := d) (r := r) (findResolver_none hi)
      obtain ⟨st', h6, h7, h8, ⟨j, p, h9⟩, h10⟩ := h1.viaResolver (h2.def hd) h3 h5 hmem hl fun j hj => (h0 j hj).elim
      exact ⟨st', h6, h7, h2.trans h8, fun _ => ⟨⟨_, h8.resolver h3, h8.edge h5, h8.edge h4, j, p, h9⟩, h10⟩⟩

theorem Inv.tryResolvers {d args : Nat} {could : Bool} {sub : Option Nat} {rs : List Nat} (h : Inv E Q st (t :: st.tasks) st.reqs)
    (hd : st.Def t.node (some d) args) (hmem : ∀ r ∈ rs, r ∈ E.resolvers d) :
    ∃ st', st.tryResolvers E t d could sub rs = some st' ∧ Inv E Q st' (t :: st'.tasks) st'.reqs ∧ Grows st st' ∧
      ∀ r ∈ rs, skips E could sub t.parent.output d r = false → Resolved st' t.parent.source t.parent.field t.node r := by
  induction rs generalizing st with
  | nil => exact ⟨st, rfl, h, .refl, by simp⟩
  | cons r rs ih =>
    obtain ⟨st1, h1, h2, h3, h4⟩ := h.tryResolver (could := could) (sub := sub) hd (hmem r (by simp))
    obtain ⟨st2, h5, h6, h7, h8⟩ := ih h2 (h3.def hd) fun r' hr' => hmem r' (by simp [hr'])
    refine ⟨st2, ?_, h6, h3.trans h7, fun r' hr' hk => ?_⟩
    · simp only [St.tryResolvers, h1]
      exact h5
    · rcases List.mem_cons.1 hr' with rfl | hr'
      · exact (h4 hk).1.grows h7
      · exact h8 r' hr' hk

/-- Once all ways are there, the task is done. -/
theorem Inv.done (h : Inv E Q st (t :: L) R) (hc : Complete E st t.parent.source t.parent.field t.node) : Inv E Q st L R := by
  refine ⟨h.shape, fun t' ht' => h.task t' (by simp [ht']), h.req, h.phase.imp id fun h t' ht' => h t' (by simp [ht']), fun g n s h1 h2 => ?_,
    h.init, h.res, h.need, h.used, h.once⟩
  rcases h.cover g n s h1 h2 with ⟨t', h3, h4, h5, h6⟩ | h3
  · rcases List.mem_cons.1 h3 with rfl | h3
    · subst h4 h5 h6
      exact .inr hc
    · exact .inl ⟨t', h3, h4, h5, h6⟩
  · exact .inr h3

theorem finish_eq (h : Inv E Q st (t :: L) R) : ∃ st', st.finish t = some st' ∧ st'.nodes = st.nodes ∧ st'.edges = st.edges ∧ st'.fields = st.fields ∧
    st'.tasks = st.tasks ∧ st'.reqs = st.reqs ∧ (∀ x ∈ st.unplannable, x ∈ st'.unplannable) ∧
    ∃ f, st'.Field t.node f ∧ (f.providable = true ∨ ∃ g, (g, t.node) ∈ st'.unplannable) := by
  obtain ⟨f, hf, _⟩ := (h.task t (by simp)).node
  unfold St.finish
  rw [asField_eq.2 hf]
  refine ⟨_, rfl, ?_⟩
  split
  · rename_i hp
    exact ⟨rfl, rfl, rfl, rfl, rfl, fun x hx => hx, f, hf, .inl hp⟩
  · exact ⟨rfl, rfl, rfl, rfl, rfl, fun x hx => by simp [hx], f, hf, .inr ⟨_, List.mem_cons_self ..⟩⟩

/-- The resolvers of a field, after what its parent can provide. -/
theorem Inv.others (h : Inv E Q st (t :: st.tasks) st.reqs) {d args : Nat} {could : Bool} (hd : st.Def t.node (some d) args)
    (hcould : could = true → ∃ p data, st.Provider t.parent.source p ∧ E.provide p t.parent.output args d = .yes data ∧
      ∃ j p', st.Provider j p' ∧ p'.resolver = p.resolver ∧ p'.data = data ∧ st.Edge t.parent.source j .canProvide ∧ st.Edge j t.node .provides)
    (hnot : could = false → ∀ p, st.Provider t.parent.source p → E.provide p t.parent.output args d = .no) :
    ∃ st', st.others E t d could = some st' ∧ Inv E Q st' st'.tasks st'.reqs ∧ Grows st st' := by
  have ht := h.task t (by simp)
  unfold St.others
  obtain ⟨st1, h1, h2, h3, h4⟩ := h.tryResolvers (could := could) (sub := (st.asProvidable t.parent.source).map fun p => E.subgraph p.resolver)
    (rs := E.resolvers d) hd fun r hr => hr
  obtain ⟨st2, f1, f2, f3, f4, f5, f6, f7, f8⟩ := finish_eq h2
  have hx := Ext.same f2 f3 f4 f7
  have hg := h3.trans hx.grows
  obtain ⟨vs, hvs⟩ := ht.source.exists h.shape.root
  obtain ⟨fn, hfn, _⟩ := ht.node
  obtain ⟨vg, hvg⟩ := ht.output.exists h.shape.root
  have hold : ∀ o d' args', Output E st2 t.parent.field o → st2.Def t.node (some d') args' → o = t.parent.output ∧ d' = d ∧ args' = args := by
    intro o d' args' ho hd'
    have a1 := hg.unOutput h.shape hvg ho
    have a2 := def_unique (hg.unDef hfn h.shape hd') hd
    exact ⟨output_unique h.shape.root a1 ht.output, Option.some.inj a2.1, a2.2⟩
  have hi : Inv E Q st2 st2.tasks st2.reqs := by
    have := h2.same f2 f3 f4 f7
    rw [← f5, ← f6] at this
    refine this.done ⟨fun o d' args' p data ho hd' hp hy => ?_, fun o d' args' r ho hd' hr hl hne => ?_, f8⟩
    · obtain ⟨rfl, rfl, rfl⟩ := hold o d' args' ho hd'
      have hp := hg.unProvider hvs hp
      cases could with
      | true =>
        obtain ⟨p1, data1, b1, b2, j, p', b3, b4, b5, b6, b7⟩ := hcould rfl
        simp only [St.Provider] at hp b1
        rw [hp] at b1
        cases b1
        rw [hy] at b2
        cases b2
        exact ⟨j, p', hg.provider b3, b4, b5, hg.edge b6, hg.edge b7⟩
      | false =>
        rw [hnot rfl p hp] at hy
        cases hy
    · obtain ⟨rfl, rfl, rfl⟩ := hold o d' args' ho hd'
      refine (h4 r hr ?_).grows hx.grows
      have hb : (could && decide (some (E.subgraph r) = (st.asProvidable t.parent.source).map fun p => E.subgraph p.resolver)) = false := by
        cases could with
        | false => rfl
        | true =>
          obtain ⟨p1, data1, b1, b2, _⟩ := hcould rfl
          rw [asProvidable_eq.2 b1]
          have := (hne p1 (hg.provider b1)).2 data1 b2
          simpa using this
      simp only [skips, hb, Bool.false_or, Bool.and_eq_false_iff, Bool.not_eq_false']
      cases hlk : E.isLookup r with
      | false => exact .inl rfl
      | true => exact .inr (hl hlk)
  simp only [h1]
  exact ⟨st2, f1, hi, hg⟩

theorem fromParent_eq {fl : SpaceBuilder.Field} {d : Nat} :
    (∃ p, st.Provider t.parent.source p ∧ st.fromParent E t fl d = (E.provide p t.parent.output fl.args d, p.resolver)) ∨
    ((∀ p, ¬ st.Provider t.parent.source p) ∧ st.fromParent E t fl d = (.no, 0)) := by
  unfold St.fromParent
  split
  · rename_i p hp
    exact .inl ⟨p, asProvidable_eq.1 hp, rfl⟩
  · rename_i hp
    refine .inr ⟨fun p h => ?_, rfl⟩
    rw [asProvidable_eq.2 h] at hp
    cases hp

/-- A flag that is not about providers. -/
theorem Inv.flag (h : Inv E Q st (t :: L) R) {u : FNode → FNode} (hu : ∀ f, (u f).id = f.id ∧ (u f).extra = f.extra ∧ (u f).leaf = f.leaf ∧
      (u f).indispensable = f.indispensable ∧ (f.providable = true → (u f).providable = true))
    (hp : ∀ f, st.Field t.node f → f.providable = false → (u f).providable = true → ∃ args, st.Def t.node none args) :
    ∃ st', st.flag t.node u = some st' ∧ Inv E Q st' (t :: L) R ∧ Grows st st' ∧ st'.tasks = st.tasks ∧ st'.reqs = st.reqs ∧ st'.edges = st.edges ∧
      ∃ f, st.Field t.node f ∧ st'.Field t.node (u f) := by
  obtain ⟨f, hf, _⟩ := (h.task t (by simp)).node
  have hn : t.node < st.nodes.length := exists_lt ⟨_, hf⟩
  refine ⟨_, flag_ok hf, ?_⟩
  generalize hst : ({ st with nodes := st.nodes.set t.node (.field (u f)) } : St) = st'
  have heq : st'.nodes[t.node]? = some (.field (u f)) := by rw [← hst]; exact List.getElem?_set_self hn
  have hne : ∀ m, m ≠ t.node → st'.nodes[m]? = st.nodes[m]? := by
    intro m hm
    rw [← hst]
    exact List.getElem?_set_ne (fun h => hm h.symm)
  have hlen : st'.nodes.length = st.nodes.length := by rw [← hst]; simp
  have he : st'.edges = st.edges := by rw [← hst]
  have hx : Ext st st' [] [] := by
    refine ⟨⟨fun m v hm hv => ?_, fun m f' hm => ?_, fun e he' => by rw [he]; exact he', fun i fl hi => ⟨fl, by rw [← hst]; exact hi, rfl, rfl⟩,
      fun x hx => by rw [← hst]; exact hx, by rw [hlen]; exact Nat.le_refl _⟩, fun m v hm => ?_, by rw [he]; simp⟩
    · rw [hne m fun h => ?_]
      · exact hm
      · subst h
        rw [hf] at hm
        cases hm
        exact hv _ rfl
    · by_cases h : m = t.node
      · subst h
        rw [hf] at hm
        cases hm
        exact ⟨u f, heq, hu f⟩
      · exact ⟨f', by rw [hne m h]; exact hm, rfl, rfl, rfl, rfl, id⟩
    · refine .inl ⟨by rw [← hlen]; exact exists_lt ⟨_, hm⟩, ?_⟩
      by_cases h : m = t.node
      · subst h
        rw [heq] at hm
        cases hm
        exact .inl ⟨f, _, hf, rfl⟩
      · rw [hne m h] at hm
        exact .inr hm
  have hs : Shape E st' := by
    refine h.shape.ext hx (by simp) (fun n f h1 h2 => ?_) ⟨by simp, by simp [hlen]⟩ (by simp) (by simp) (fun n p h1 h2 => ?_) (by simp)
      (fun n f0 f1 h1 h2 h3 h4 => ?_)
    · have := exists_lt ⟨_, h1⟩
      omega
    · have := exists_lt ⟨_, h1⟩
      omega
    · by_cases hm : n = t.node
      · subst hm
        simp only [St.Field] at h1 h2
        rw [hf] at h1
        cases h1
        rw [heq] at h2
        cases h2
        exact .inl ((hp f hf h3 h4).imp fun _ => hx.grows.def)
      · simp only [St.Field] at h1 h2
        rw [hne n hm, h1] at h2
        cases h2
        rw [h3] at h4
        cases h4
  exact ⟨h.ext hx hs (h.used.same (by rw [← hst])) (h.once.plain h.shape hx (by simp)) (fun q hq => hq) (fun t ht => ht) (fun t ht => .inl ht) (fun q hq => .inl hq) (h.phase.ext hx (by simp))
    (fun g n s h1 h2 => .inl (hx.cover h.shape (by simp) h1 h2)) (by simp) (by simp), hx.grows, by rw [← hst], by rw [← hst], he, f, hf, heq⟩

theorem Complete.typename {s g f args : Nat} (hd : st.Def f none args) (hf : ∃ fn, st.Field f fn ∧ (fn.providable = true ∨ ∃ g', (g', f) ∈ st.unplannable)) :
    Complete E st s g f := by
  refine ⟨fun o d args' p data _ h => ?_, fun o d args' r _ h => ?_, hf⟩
  · cases (def_unique hd h).1
  · cases (def_unique hd h).1

/-- `create_providable_fields`. -/
theorem Inv.provideField (h : Inv E Q st (t :: st.tasks) st.reqs) :
    ∃ st', st.provideField E t = some st' ∧ Inv E Q st' st'.tasks st'.reqs ∧ Grows st st' := by
  have ht := h.task t (by simp)
  obtain ⟨f, hf, hid⟩ := ht.node
  obtain ⟨fl, hfl, hleaf⟩ := h.shape.ids _ _ hf
  unfold St.provideField
  rw [← hid, hfl]
  simp only
  split
  · rename_i hdef
    have hd : st.Def t.node none fl.args := ⟨f, fl, hf, hfl, hdef, rfl⟩
    obtain ⟨st', h1, h2, h3, h4, h5, h6, f', h7, h8⟩ := h.flag (u := fun f => { f with providable := true })
      (fun f => ⟨rfl, rfl, rfl, rfl, fun _ => rfl⟩) (fun _ _ _ _ => ⟨_, hd⟩)
    refine ⟨st', h1, ?_, h3⟩
    rw [h4, h5]
    exact h2.done (.typename (h3.def hd) ⟨_, h8, .inl rfl⟩)
  · rename_i d hdef
    have hd : st.Def t.node (some d) fl.args := ⟨f, fl, hf, hfl, hdef, rfl⟩
    have hch := h.shape.childData ht.child hd
    split
    · rename_i data r hfp
      rcases fromParent_eq (E := E) (st := st) (t := t) (fl := fl) (d := d) with ⟨p, hp, he⟩ | ⟨_, he⟩
      · rw [hfp] at he
        obtain ⟨he', rfl⟩ := Prod.mk.inj he
        obtain ⟨st1, a1, a2, a3, a4, a5, a6, a7, a8, a9, a10⟩ := h.provider (R' := st.reqs) (a := t.parent.source) (d := d) (args := fl.args)
          (p := ⟨p.resolver, t.id, data⟩) (.parent hch ht.output hd hp ht.source rfl he'.symm) rfl hd (fun q hq => hq) (fun q hq => .inl hq)
          (fun r S hr _ => by
            obtain ⟨en, hr⟩ := hr
            simp only [St.Provider] at hp
            rw [hp] at hr
            cases hr)
          (fun r j hr _ => by
            obtain ⟨en, hr⟩ := hr
            simp only [St.Provider] at hp
            rw [hp] at hr
            cases hr)
        rw [hid]
        simp only [a1]
        rw [← a4] at a2
        obtain ⟨st2, b1, b2, b3⟩ := a2.others (could := true) (a3.def hd)
          (fun _ => ⟨p, data, a3.provider hp, he'.symm, _, _, a7, rfl, rfl, a8, a9⟩) (by simp)
        exact ⟨st2, b1, b2, a3.trans b3⟩
      · rw [hfp] at he
        cases he
    · rename_i r hfp
      refine h.others (could := false) hd (by simp) fun _ p hp => ?_
      rcases fromParent_eq (E := E) (st := st) (t := t) (fl := fl) (d := d) with ⟨p', hp', he⟩ | ⟨hno, _⟩
      · rw [hfp] at he
        simp only [St.Provider] at hp hp'
        rw [hp] at hp'
        cases hp'
        exact (Prod.mk.inj he).1.symm
      · exact (hno p hp).elim
    · rename_i r hfp
      rcases fromParent_eq (E := E) (st := st) (t := t) (fl := fl) (d := d) with ⟨p, hp, he⟩ | ⟨_, he⟩
      · rw [hfp] at he
        obtain ⟨he', rfl⟩ := Prod.mk.inj he
        obtain ⟨st', h1, h2, h3, h4, h5, h6, f', h7, h8⟩ := h.flag (u := fun f => { f with unreachable := true })
          (fun f => ⟨rfl, rfl, rfl, rfl, fun h => h⟩) (fun f _ h1 h2 => by rw [h1] at h2; cases h2)
        simp only [h1]
        refine ⟨_, rfl, ?_⟩
        generalize hst : ({ st' with unplannable := (t.parent.field, t.node) :: st'.unplannable } : St) = st2
        have hn : st2.nodes = st'.nodes := by rw [← hst]
        have hu : ∀ x ∈ st'.unplannable, x ∈ st2.unplannable := fun x hx => by rw [← hst]; simp [hx]
        have e1 : st2.edges = st'.edges := by rw [← hst]
        have e2 : st2.fields = st'.fields := by rw [← hst]
        have e3 : st2.tasks = st.tasks := by rw [← hst]; exact h4
        have e4 : st2.reqs = st.reqs := by rw [← hst]; exact h5
        have hx := Ext.same hn e1 e2 hu
        have hg := h3.trans hx.grows
        refine ⟨?_, hg⟩
        rw [e3, e4]
        refine (h2.same hn e1 e2 hu).done ⟨fun o d' args' p' data ho hd' hp' hy => ?_, fun o d' args' r' ho hd' hr hl hne => ?_,
          ⟨_, by simp only [St.Field, hn]; exact h8, .inr ⟨_, by rw [← hst]; exact List.mem_cons_self ..⟩⟩⟩
        · exfalso
          obtain ⟨vs, hvs⟩ := ht.source.exists h.shape.root
          obtain ⟨vg, hvg⟩ := ht.output.exists h.shape.root
          have a1 := hg.unOutput h.shape hvg ho
          have a2 := def_unique (hg.unDef hf h.shape hd') hd
          have a3 := hg.unProvider hvs hp'
          have a4 := output_unique h.shape.root a1 ht.output
          obtain ⟨a5, a6⟩ := a2
          cases a5
          subst a4 a6
          simp only [St.Provider] at hp a3
          rw [hp] at a3
          cases a3
          rw [hy] at he
          cases he
        · exfalso
          obtain ⟨vg, hvg⟩ := ht.output.exists h.shape.root
          have a1 := hg.unOutput h.shape hvg ho
          have a2 := def_unique (hg.unDef hf h.shape hd') hd
          have a4 := output_unique h.shape.root a1 ht.output
          obtain ⟨a5, a6⟩ := a2
          cases a5
          subst a4 a6
          exact (hne p (hg.provider hp)).1 he'.symm
      · rw [hfp] at he
        cases he

end Verif.SpaceBuilder
