import Verif.SpaceBuilder.Spec
/-!
# The shape of the space while it is built
-/
namespace Verif.SpaceBuilder

open Verif.QueryGraph (Kind SEdge)

variable {E : Env} {st st' st'' : St} {vs : List Node} {es : List SEdge}

/-- `st'` has all that is in `st`. -/
structure Grows (st st' : St) : Prop where
  node : ∀ (n : Nat) (v : Node), st.nodes[n]? = some v → (∀ f, v ≠ .field f) → st'.nodes[n]? = some v
  field : ∀ (n : Nat) (f : FNode), st.nodes[n]? = some (.field f) → ∃ f', st'.nodes[n]? = some (.field f') ∧ f'.id = f.id ∧ f'.extra = f.extra ∧ f'.leaf = f.leaf ∧
    f'.indispensable = f.indispensable ∧ (f.providable = true → f'.providable = true)
  edges : ∀ e ∈ st.edges, e ∈ st'.edges
  fields : ∀ (i : Nat) fl, st.fields[i]? = some fl → ∃ fl', st'.fields[i]? = some fl' ∧ fl'.definition = fl.definition ∧ fl'.args = fl.args
  unplannable : ∀ x ∈ st.unplannable, x ∈ st'.unplannable
  len : st.nodes.length ≤ st'.nodes.length

theorem Grows.refl : Grows st st :=
  ⟨fun _ _ h _ => h, fun _ f h => ⟨f, h, rfl, rfl, rfl, rfl, id⟩, fun _ h => h, fun _ fl h => ⟨fl, h, rfl, rfl⟩, fun _ h => h, Nat.le_refl _⟩

theorem Grows.trans (h : Grows st st') (h' : Grows st' st'') : Grows st st'' := by
  refine ⟨fun n v hn hv => h'.node n v (h.node n v hn hv) hv, fun n f hn => ?_, fun e he => h'.edges e (h.edges e he), fun i fl hi => ?_,
    fun x hx => h'.unplannable x (h.unplannable x hx), Nat.le_trans h.len h'.len⟩
  · obtain ⟨f1, h1, a1, a2, a3, a4, a5⟩ := h.field n f hn
    obtain ⟨f2, h2, b1, b2, b3, b4, b5⟩ := h'.field n f1 h1
    exact ⟨f2, h2, b1.trans a1, b2.trans a2, b3.trans a3, b4.trans a4, fun hp => b5 (a5 hp)⟩
  · obtain ⟨f1, h1, a1, a2⟩ := h.fields i fl hi
    obtain ⟨f2, h2, b1, b2⟩ := h'.fields i f1 h1
    exact ⟨f2, h2, b1.trans a1, b2.trans a2⟩

theorem Grows.provider (h : Grows st st') {n : Nat} {p : PNode} (hp : st.Provider n p) : st'.Provider n p := h.node _ _ hp (by simp)
theorem Grows.resolver (h : Grows st st') {n r : Nat} (hr : st.Resolver n r) : st'.Resolver n r := hr.imp fun _ hr => h.node _ _ hr (by simp)
theorem Grows.edge (h : Grows st st') {a b : Nat} {k : Kind} (he : st.Edge a b k) : st'.Edge a b k := h.edges _ he

theorem Grows.def (h : Grows st st') {n : Nat} {d : Option Nat} {args : Nat} (hd : st.Def n d args) : st'.Def n d args := by
  obtain ⟨f, fl, h1, h2, h3, h4⟩ := hd
  obtain ⟨f', h5, h6, _⟩ := h.field _ _ h1
  obtain ⟨fl', h7, h8, h9⟩ := h.fields _ _ h2
  exact ⟨f', fl', h5, by rw [h6]; exact h7, h8.trans h3, h9.trans h4⟩

theorem Grows.output (h : Grows st st') {g o : Nat} (ho : Output E st g o) : Output E st' g o := by
  cases ho with
  | root => exact .root
  | field hd ho => exact .field (h.def hd) ho

theorem Grows.source (h : Grows st st') {g s : Nat} (hs : Source st g s) : Source st' g s := by
  cases hs with
  | root => exact .root
  | provider hp he => exact .provider (h.provider hp) (h.edge he)

theorem Grows.canProvide (h : Grows st st') {a f : Nat} {p : PNode} (hc : CanProvide E st a f p) : CanProvide E st' a f p := by
  cases hc with
  | parent h1 h2 h3 h4 h5 h6 h7 => exact .parent (h.edge h1) (h.output h2) (h.def h3) (h.provider h4) (h.source h5) h6 h7
  | resolver h1 h2 h3 h4 h5 h6 h7 h8 => exact .resolver (h.edge h1) (h.output h2) (h.def h3) (h.resolver h4) (h.edge h5) h6 h7 h8

/-- Field `n` is from the operation, or not. -/
def IsExtra (st : St) (n : Nat) (b : Bool) : Prop := ∃ f, st.Field n f ∧ f.extra = b

theorem Grows.isExtra (h : Grows st st') {n : Nat} {b : Bool} (hd : IsExtra st n b) : IsExtra st' n b := by
  obtain ⟨f, h1, h2⟩ := hd
  obtain ⟨f', h3, _, h4, _⟩ := h.field _ _ h1
  exact ⟨f', h3, h4.trans h2⟩

/-- How an edge connects nodes. -/
def EdgeOk (E : Env) (st : St) (e : SEdge) : Prop :=
  match e.kind with
  | .createChildResolver => (∃ r, st.Resolver e.dst r) ∧ ∃ g, st.Edge g e.dst .hasChildResolver ∧ Source st g e.src
  | .hasChildResolver => (∃ r, st.Resolver e.dst r) ∧ (∃ o, Output E st e.src o) ∧ ∃ s, st.Edge s e.dst .createChildResolver ∧ Source st e.src s
  | .canProvide => ∃ p f, st.Provider e.dst p ∧ st.Edge e.dst f .provides ∧ CanProvide E st e.src f p
  | .provides => (∃ p f, st.Provider e.src p ∧ st.Field e.dst f ∧ p.field = f.id ∧ f.providable = true) ∧
      (∃ d args, st.Def e.dst (some d) args) ∧ ∃ a, st.Edge a e.src .canProvide
  | .field => (∃ o, Output E st e.src o) ∧ (∃ d args, st.Def e.dst (some d) args) ∧ (IsExtra st e.src true → IsExtra st e.dst true) ∧ e.src < e.dst
  | .typename => (∃ o, Output E st e.src o) ∧ (∃ args, st.Def e.dst none args) ∧ (e.src = 0 ∨ IsExtra st e.src false) ∧ e.src < e.dst
  | .requires => (∃ f, st.Field e.dst f) ∧ ((∃ r, st.Resolver e.src r) ∨ (∃ p, st.Provider e.src p) ∨ IsExtra st e.src false)
  | .gone => False

theorem isExtra_unique {n : Nat} {b c : Bool} (h : IsExtra st n b) (h' : IsExtra st n c) : b = c := by
  obtain ⟨f, h1, h2⟩ := h
  obtain ⟨f', h3, h4⟩ := h'
  simp only [St.Field] at h1 h3
  rw [h1] at h3
  cases h3
  exact h2.symm.trans h4

theorem Output.extra {g o : Nat} (h : Output E st g o) : g = 0 ∨ ∃ b, IsExtra st g b := by
  cases h with
  | root => exact .inl rfl
  | field hd _ => obtain ⟨f, _, h, _⟩ := hd; exact .inr ⟨_, f, h, rfl⟩

theorem Grows.edgeOk (h : Grows st st') (hr : st.nodes[0]? = some .root) {e : SEdge} (he : EdgeOk E st e) : EdgeOk E st' e := by
  unfold EdgeOk at he ⊢
  split at he
  · exact ⟨he.1.imp fun _ => h.resolver, he.2.imp fun _ ⟨h1, h2⟩ => ⟨h.edge h1, h.source h2⟩⟩
  · exact ⟨he.1.imp fun _ => h.resolver, he.2.1.imp fun _ => h.output, he.2.2.imp fun _ ⟨h1, h2⟩ => ⟨h.edge h1, h.source h2⟩⟩
  · obtain ⟨p, f, h1, h2, h3⟩ := he
    exact ⟨p, f, h.provider h1, h.edge h2, h.canProvide h3⟩
  · obtain ⟨⟨p, f, h1, h2, h3, h3'⟩, ⟨d, args, h4⟩, a, h5⟩ := he
    obtain ⟨f', h6, h7, _, _, _, h8⟩ := h.field _ _ h2
    exact ⟨⟨p, f', h.provider h1, h6, h3.trans h7.symm, h8 h3'⟩, ⟨d, args, h.def h4⟩, a, h.edge h5⟩
  · obtain ⟨⟨o, h1⟩, ⟨d, args, h2⟩, h3, h4⟩ := he
    refine ⟨⟨o, h.output h1⟩, ⟨d, args, h.def h2⟩, fun hx => h.isExtra (h3 ?_), h4⟩
    rcases h1.extra with h0 | ⟨b, hb⟩
    · obtain ⟨f, hf, _⟩ := hx
      have := h.node _ _ hr (by simp)
      simp only [St.Field, h0] at hf
      rw [this] at hf
      cases hf
    · rw [← isExtra_unique (h.isExtra hb) hx]
      exact hb
  · obtain ⟨⟨o, h1⟩, ⟨args, h2⟩, h3, h4⟩ := he
    exact ⟨⟨o, h.output h1⟩, ⟨args, h.def h2⟩, h3.imp id h.isExtra, h4⟩
  · obtain ⟨⟨f, h1⟩, h2⟩ := he
    obtain ⟨f', h3, _⟩ := h.field _ _ h1
    exact ⟨⟨f', h3⟩, h2.imp (·.imp fun _ => h.resolver) (·.imp (·.imp fun _ => h.provider) h.isExtra)⟩
  · exact he

/-- The shape of the space. -/
structure Shape (E : Env) (st : St) : Prop where
  root : st.nodes[0]? = some .root
  rootOnly : ∀ n : Nat, st.nodes[n]? = some .root → n = 0
  ids : ∀ n f, st.Field n f → ∃ fl, st.fields[f.id]? = some fl ∧ (f.leaf = true ↔ ∃ d, fl.definition = some d ∧ E.out d = none)
  once : ∀ n m f f', st.Field n f → st.Field m f' → f.id = f'.id → n = m
  edge : ∀ e ∈ st.edges, EdgeOk E st e
  one : ∀ a b c, st.Edge a b .provides → st.Edge a c .provides → b = c
  some : ∀ n p, st.Provider n p → ∃ f, st.Edge n f .provides
  typenameOnce : ∀ (i j : Nat) (e e' : SEdge), st.edges[i]? = .some e → st.edges[j]? = .some e' → e.kind = .typename → e'.kind = .typename →
    e.dst = e'.dst → i = j
  parent : ∀ n f, st.Field n f → ∃ g, Child st g n
  flagged : ∀ n f, st.Field n f → f.providable = true → (∃ args, st.Def n none args) ∨ ∃ j, st.Edge j n .provides

/-- `st'` has a few more nodes and edges than `st`. -/
structure Ext (st st' : St) (vs : List Node) (es : List SEdge) : Prop where
  grows : Grows st st'
  node : ∀ (n : Nat) (v : Node), st'.nodes[n]? = some v → (n < st.nodes.length ∧ ((∃ f f', st.nodes[n]? = some (.field f) ∧ v = .field f') ∨ st.nodes[n]? = some v)) ∨
    (st.nodes.length ≤ n ∧ v ∈ vs)
  edges : st'.edges = st.edges ++ es

theorem Ext.field (h : Ext st st' vs es) {n : Nat} {f' : FNode} (hf : st'.Field n f') (hn : n < st.nodes.length) :
    ∃ f, st.Field n f ∧ f'.id = f.id ∧ f'.extra = f.extra ∧ f'.leaf = f.leaf ∧ f'.indispensable = f.indispensable := by
  rcases h.node n _ hf with ⟨_, h1⟩ | ⟨h1, _⟩
  · have : ∃ f, st.nodes[n]? = some (.field f) := by
      rcases h1 with ⟨f, _, h1, _⟩ | h1
      · exact ⟨f, h1⟩
      · exact ⟨f', h1⟩
    obtain ⟨f, h2⟩ := this
    obtain ⟨f'', h3, h4, h5, h6, h7, _⟩ := h.grows.field n f h2
    simp only [St.Field] at hf
    rw [hf] at h3
    cases h3
    exact ⟨f, h2, h4, h5, h6, h7⟩
  · omega

theorem Ext.edge (h : Ext st st' vs es) {a b : Nat} {k : Kind} (he : st'.Edge a b k) : st.Edge a b k ∨ ⟨a, b, k⟩ ∈ es := by
  simpa [St.Edge, h.edges] using he

theorem Ext.new (h : Ext st st' vs es) {e : SEdge} (he : e ∈ es) : st'.Edge e.src e.dst e.kind := by
  simp [St.Edge, h.edges, he]

/-- What has to be seen to for the shape to stay. -/
theorem Shape.ext (hs : Shape E st) (hx : Ext st st' vs es)
    (hroot : .root ∉ vs)
    (hids : ∀ n f, st'.Field n f → st.nodes.length ≤ n → (∃ g, Child st' g n) ∧ st.fields.length ≤ f.id ∧ f.providable = false ∧
      ∃ fl, st'.fields[f.id]? = .some fl ∧ (f.leaf = true ↔ ∃ d, fl.definition = .some d ∧ E.out d = none))
    (hone : vs.length ≤ 1 ∧ st'.nodes.length ≤ st.nodes.length + vs.length)
    (hedge : ∀ e ∈ es, EdgeOk E st' e)
    (hprov : ∀ a b, ⟨a, b, .provides⟩ ∈ es → st.nodes.length ≤ a ∧ ∀ c, ⟨a, c, .provides⟩ ∈ es → b = c)
    (hsome : ∀ n p, st'.Provider n p → st.nodes.length ≤ n → ∃ f, ⟨n, f, .provides⟩ ∈ es)
    (htn : ∀ e ∈ es, e.kind ≠ .typename)
    (hflag : ∀ n f f', st.Field n f → st'.Field n f' → f.providable = false → f'.providable = true → (∃ args, st'.Def n none args) ∨ ∃ j, st'.Edge j n .provides) :
    Shape E st' := by
  have hold : ∀ (n : Nat) (v : Node), st.nodes[n]? = .some v → n < st.nodes.length := fun n v h => (List.getElem?_eq_some_iff.1 h).1
  have hnew : ∀ (n : Nat) (v : Node), st'.nodes[n]? = .some v → n < st'.nodes.length := fun n v h => (List.getElem?_eq_some_iff.1 h).1
  refine ⟨hx.grows.node _ _ hs.root (by simp), fun n hn => ?_, fun n f hf => ?_, fun n m f f' hf hf' hi => ?_, fun e he => ?_, fun a b c hb hc => ?_,
    fun n p hp => ?_, fun i j e e' hi hj hk hk' hd => ?_, fun n f hf => ?_, fun n f hf hp => ?_⟩
  · rcases hx.node n _ hn with ⟨_, ⟨_, _, _, h⟩ | h⟩ | ⟨_, h⟩
    · cases h
    · exact hs.rootOnly n h
    · exact (hroot h).elim
  · rcases Nat.lt_or_ge n st.nodes.length with h | h
    · obtain ⟨f0, h1, h2, _, h3, _⟩ := hx.field hf h
      obtain ⟨fl, h4, h5⟩ := hs.ids n f0 h1
      obtain ⟨fl', h6, h7, _⟩ := hx.grows.fields _ _ h4
      exact ⟨fl', by rw [h2]; exact h6, by rw [h3, h7]; exact h5⟩
    · exact (hids n f hf h).2.2.2
  · have key : ∀ n m f f', st'.Field n f → st'.Field m f' → n < st.nodes.length → st.nodes.length ≤ m → f.id ≠ f'.id := by
      intro n m f f' hf hf' hn hm hi
      obtain ⟨f0, h1, h2, _⟩ := hx.field hf hn
      obtain ⟨fl, h4, _⟩ := hs.ids n f0 h1
      have := (List.getElem?_eq_some_iff.1 h4).1
      have := (hids m f' hf' hm).2.1
      omega
    rcases Nat.lt_or_ge n st.nodes.length with h | h <;> rcases Nat.lt_or_ge m st.nodes.length with h' | h'
    · obtain ⟨f0, h1, h2, _⟩ := hx.field hf h
      obtain ⟨f1, h3, h4, _⟩ := hx.field hf' h'
      exact hs.once n m f0 f1 h1 h3 (by rw [← h2, ← h4]; exact hi)
    · exact (key n m f f' hf hf' h h' hi).elim
    · exact (key m n f' f hf' hf h' h hi.symm).elim
    · have := hnew _ _ hf
      have := hnew _ _ hf'
      omega
  · rw [hx.edges, List.mem_append] at he
    exact he.elim (fun he => hx.grows.edgeOk hs.root (hs.edge e he)) (hedge e)
  · have key : ∀ a b c, st.Edge a b .provides → ⟨a, c, .provides⟩ ∈ es → b = c := by
      intro a b c h1 h2
      obtain ⟨⟨p, _, h, _⟩, _⟩ := hs.edge _ h1
      have h3 : a < _ := hold _ _ h
      have := (hprov a c h2).1
      omega
    rcases hx.edge hb with h1 | h1 <;> rcases hx.edge hc with h2 | h2
    · exact hs.one a b c h1 h2
    · exact key a b c h1 h2
    · exact (key a c b h2 h1).symm
    · exact (hprov a b h1).2 c h2
  · rcases Nat.lt_or_ge n st.nodes.length with h | h
    · rcases hx.node n _ hp with ⟨_, ⟨_, _, _, h⟩ | h⟩ | ⟨_, h⟩
      · cases h
      · exact (hs.some n p h).imp fun _ => hx.grows.edge
      · omega
    · obtain ⟨f, hf⟩ := hsome n p hp h
      exact ⟨f, hx.new hf⟩
  · have key : ∀ (i : Nat) (e : SEdge), st'.edges[i]? = .some e → e.kind = .typename → st.edges[i]? = .some e := by
      intro i e hi hk
      rw [hx.edges] at hi
      rcases Nat.lt_or_ge i st.edges.length with h | h
      · rwa [List.getElem?_append_left h] at hi
      · rw [List.getElem?_append_right h] at hi
        exact (htn e (List.mem_of_getElem? hi) hk).elim
    exact hs.typenameOnce i j e e' (key i e hi hk) (key j e' hj hk') hk hk' hd
  · rcases Nat.lt_or_ge n st.nodes.length with h | h
    · obtain ⟨f0, h1, _⟩ := hx.field hf h
      obtain ⟨g, hg⟩ := hs.parent n f0 h1
      exact ⟨g, hg.imp hx.grows.edge hx.grows.edge⟩
    · exact (hids n f hf h).1
  · rcases Nat.lt_or_ge n st.nodes.length with h | h
    · obtain ⟨f0, h1, _⟩ := hx.field hf h
      cases hq : f0.providable with
      | true => exact (hs.flagged n f0 h1 hq).imp (·.imp fun _ => hx.grows.def) (·.imp fun _ => hx.grows.edge)
      | false => exact hflag n f0 f h1 hf hq hp
    · rw [(hids n f hf h).2.2.1] at hp
      cases hp

end Verif.SpaceBuilder
