import Verif.SpaceBuilder.Shape
/-!
# What holds while there are tasks left
-/
namespace Verif.SpaceBuilder

open Verif.QueryGraph (Kind SEdge)

variable {E : Env} {st st' st'' : St} {vs : List Node} {es : List SEdge} {L L' : List Task} {R R' : List Req} {Q : List Req}

structure TaskOk (E : Env) (st : St) (t : Task) : Prop where
  node : ∃ f, st.Field t.node f ∧ f.id = t.id
  child : Child st t.parent.field t.node
  output : Output E st t.parent.field t.parent.output
  source : Source st t.parent.field t.parent.source

structure ReqOk (E : Env) (st : St) (q : Req) : Prop where
  dependent : (∃ r, st.Resolver q.dependent r) ∨ (∃ p, st.Provider q.dependent p) ∨ IsExtra st q.dependent false
  output : Output E st q.parent q.output

/-- There is a task for field `n` of the selection set of `g`, from `s`. -/
def Pending (L : List Task) (g n s : Nat) : Prop := ∃ t ∈ L, t.parent.field = g ∧ t.parent.source = s ∧ t.node = n

def Owed (E : Env) (st : St) (R : List Req) (n g : Nat) (S : Sel) : Prop :=
  (∃ q ∈ R, q.dependent = n ∧ q.parent = g ∧ q.items = S) ∨ Met E st R n g S

def Phase (st : St) (L : List Task) : Prop := (∀ e ∈ st.edges, e.kind ≠ .requires) ∨ ∀ t ∈ L, IsExtra st t.node true

/-- `matching_field_id` is that of an item the field is for. -/
def Used (E : Env) (st : St) : Prop := ∀ (i : Nat) fl item, st.fields[i]? = some fl → fl.used = some item → Fits E fl item

theorem Used.same (h : Used E st) (hf : st'.fields = st.fields) : Used E st' := by
  intro i fl item h1 h2
  rw [hf] at h1
  exact h i fl item h1 h2

structure Inv (E : Env) (Q : List Req) (st : St) (L : List Task) (R : List Req) : Prop where
  shape : Shape E st
  task : ∀ t ∈ L, TaskOk E st t
  req : ∀ q ∈ R, ReqOk E st q
  phase : Phase st L
  cover : ∀ g n s, Child st g n → Source st g s → Pending L g n s ∨ Complete E st s g n
  init : ∀ q ∈ Q, Owed E st R q.dependent q.parent q.items
  res : ∀ g i r S, st.Edge g i .hasChildResolver → st.Resolver i r → E.required r = some S → Owed E st R i g S
  need : ∀ i j r f d args S, st.Edge i j .canProvide → st.Resolver i r → st.Edge j f .provides → st.Def f (some d) args →
    E.needs d (E.subgraph r) = some S → ∃ g, st.Edge g i .hasChildResolver ∧ st.Edge g f .field ∧ Owed E st R j g S
  used : Used E st
  once : Once st

/-! ## Growing -/

theorem Grows.child (h : Grows st st') {g n : Nat} (hc : Child st g n) : Child st' g n := hc.imp h.edge h.edge

theorem Grows.taskOk (h : Grows st st') {t : Task} (ht : TaskOk E st t) : TaskOk E st' t := by
  obtain ⟨⟨f, h1, h2⟩, h3, h4, h5⟩ := ht
  obtain ⟨f', h6, h7, _⟩ := h.field _ _ h1
  exact ⟨⟨f', h6, h7.trans h2⟩, h.child h3, h.output h4, h.source h5⟩

theorem Grows.reqOk (h : Grows st st') {q : Req} (hq : ReqOk E st q) : ReqOk E st' q :=
  ⟨hq.dependent.imp (·.imp fun _ => h.resolver) (·.imp (·.imp fun _ => h.provider) h.isExtra), h.output hq.output⟩

theorem Met.grows (h : Grows st st') (hR : ∀ q ∈ R, q ∈ R') {n g : Nat} {S : Sel} (hm : Met E st R n g S) : Met E st' R' n g S := by
  induction S generalizing g with
  | nil => trivial
  | cons item sub rest ih1 ih2 =>
    obtain ⟨⟨c, f, fl, h1, h2, h3, h4, h5, h6⟩, h7⟩ := hm
    obtain ⟨f', h8, h9, _⟩ := h.field _ _ h3
    obtain ⟨fl', h10, h11, h12⟩ := h.fields _ _ h4
    refine ⟨⟨c, f', fl', h.edge h1, h.edge h2, h8, by rw [h9]; exact h10, ⟨h11.trans h5.1, by rw [h12]; exact h5.2⟩, fun hs => ?_⟩, ih2 h7⟩
    exact (h6 hs).imp (fun ⟨q, hq, hq'⟩ => ⟨q, hR q hq, hq'⟩) ih1

theorem Owed.grows (h : Grows st st') (hR : ∀ q ∈ R, q ∈ R') {n g : Nat} {S : Sel} (hm : Owed E st R n g S) : Owed E st' R' n g S :=
  hm.imp (fun ⟨q, hq, hq'⟩ => ⟨q, hR q hq, hq'⟩) (Met.grows h hR)

theorem Resolved.grows (h : Grows st st') {s g f r : Nat} (hr : Resolved st s g f r) : Resolved st' s g f r := by
  obtain ⟨i, h1, h2, h3, j, p, h4, h5, h6, h7⟩ := hr
  exact ⟨i, h.resolver h1, h.edge h2, h.edge h3, j, p, h.provider h4, h5, h.edge h6, h.edge h7⟩

theorem Grows.unDef (h : Grows st st') {n : Nat} {f : FNode} (hf : st.Field n f) (hs : Shape E st) {d : Option Nat} {args : Nat} (hd : st'.Def n d args) : st.Def n d args := by
  obtain ⟨f1, fl1, h1, h2, h3, h4⟩ := hd
  obtain ⟨f2, h5, h6, _⟩ := h.field _ _ hf
  simp only [St.Field] at h1
  rw [h5] at h1
  cases h1
  obtain ⟨fl, h7, _⟩ := hs.ids n f hf
  obtain ⟨fl', h8, h9, h10⟩ := h.fields _ _ h7
  rw [h6, h8] at h2
  cases h2
  exact ⟨f, fl, hf, h7, h9.symm.trans h3, h10.symm.trans h4⟩

theorem Grows.unProvider (h : Grows st st') {n : Nat} {v : Node} (hv : st.nodes[n]? = some v) {p : PNode} (hp : st'.Provider n p) : st.Provider n p := by
  simp only [St.Provider] at hp ⊢
  cases v with
  | field f => obtain ⟨f', h1, _⟩ := h.field _ _ hv; rw [h1] at hp; cases hp
  | _ => rw [h.node _ _ hv (by simp)] at hp; rw [hv, hp]

theorem Grows.unResolver (h : Grows st st') {n : Nat} {v : Node} (hv : st.nodes[n]? = some v) {r : Nat} (hp : st'.Resolver n r) : st.Resolver n r := by
  obtain ⟨en, hp⟩ := hp
  refine ⟨en, ?_⟩
  cases v with
  | field f => obtain ⟨f', h1, _⟩ := h.field _ _ hv; rw [h1] at hp; cases hp
  | _ => rw [h.node _ _ hv (by simp)] at hp; rw [hv, hp]

theorem Grows.unOutput (h : Grows st st') (hs : Shape E st) {n : Nat} {v : Node} (hv : st.nodes[n]? = some v) {o : Nat} (ho : Output E st' n o) : Output E st n o := by
  cases ho with
  | root => exact .root
  | @field _ d args _ hd ho =>
    refine .field (args := args) ?_ ho
    cases v with
    | field f => exact h.unDef hv hs hd
    | _ => obtain ⟨f, _, hf, _⟩ := hd; simp only [St.Field, h.node _ _ hv (by simp)] at hf; cases hf

theorem Output.exists {g o : Nat} (hr : st.nodes[0]? = some .root) (h : Output E st g o) : ∃ v, st.nodes[g]? = some v := by
  cases h with
  | root => exact ⟨_, hr⟩
  | field hd _ => obtain ⟨f, _, h, _⟩ := hd; exact ⟨_, h⟩

theorem Source.exists {g s : Nat} (hr : st.nodes[0]? = some .root) (h : Source st g s) : ∃ v, st.nodes[s]? = some v := by
  cases h with
  | root => exact ⟨_, hr⟩
  | provider hd _ => exact ⟨_, hd⟩

theorem Shape.childOutput (hs : Shape E st) {g n : Nat} (h : Child st g n) : ∃ o, Output E st g o := by
  rcases h with h | h
  · exact (hs.edge _ h).1
  · exact (hs.edge _ h).1

theorem Shape.childField (hs : Shape E st) {g n : Nat} (h : Child st g n) : ∃ f d args, st.Field n f ∧ st.Def n d args := by
  rcases h with h | h
  · obtain ⟨_, ⟨d, args, h1⟩, _⟩ := hs.edge _ h
    obtain ⟨f, _, h2, _⟩ := id h1
    exact ⟨f, _, _, h2, h1⟩
  · obtain ⟨_, ⟨args, h1⟩, _⟩ := hs.edge _ h
    obtain ⟨f, _, h2, _⟩ := id h1
    exact ⟨f, _, _, h2, h1⟩

theorem Complete.grows (h : Grows st st') (hs : Shape E st) {s g f : Nat} (hc : Complete E st s g f) (hch : Child st g f) (hso : Source st g s) :
    Complete E st' s g f := by
  obtain ⟨o, ho⟩ := hs.childOutput hch
  obtain ⟨vg, hvg⟩ := ho.exists hs.root
  obtain ⟨vs, hvs⟩ := hso.exists hs.root
  obtain ⟨fn, _, _, hf, _⟩ := hs.childField hch
  refine ⟨fun o d args p data h1 h2 h3 h4 => ?_, fun o d args r h1 h2 h3 h4 h5 => ?_, ?_⟩
  · obtain ⟨j, p', h5, h6, h7, h8, h9⟩ := hc.source o d args p data (h.unOutput hs hvg h1) (h.unDef hf hs h2) (h.unProvider hvs h3) h4
    exact ⟨j, p', h.provider h5, h6, h7, h.edge h8, h.edge h9⟩
  · exact (hc.resolver o d args r (h.unOutput hs hvg h1) (h.unDef hf hs h2) h3 h4 fun p hp => h5 p (h.provider hp)).grows h
  · obtain ⟨f1, h1, h2⟩ := hc.flag
    obtain ⟨f', h3, _, _, _, _, h4⟩ := h.field _ _ h1
    exact ⟨f', h3, h2.imp h4 (·.imp fun _ => h.unplannable _)⟩

/-- What has to be seen to for the invariant to stay. -/
theorem resolver_unique {i r r' : Nat} (h : st.Resolver i r) (h' : st.Resolver i r') : r = r' := by
  obtain ⟨_, h⟩ := h
  obtain ⟨_, h'⟩ := h'
  rw [h] at h'
  cases h'
  rfl

/-- Neither resolvers nor what they provide. -/
theorem Once.plain (h : Once st) (hs : Shape E st) (hx : Ext st st' vs es)
    (hes : ∀ e ∈ es, e.kind ≠ .hasChildResolver ∧ e.kind ≠ .canProvide ∧ e.kind ≠ .provides) : Once st' := by
  have hg := hx.grows
  have h1 : ∀ {g i}, st'.Edge g i .hasChildResolver → st.Edge g i .hasChildResolver := fun he => (hx.edge he).elim id fun h => ((hes _ h).1 rfl).elim
  have h2 : ∀ {g i}, st'.Edge g i .canProvide → st.Edge g i .canProvide := fun he => (hx.edge he).elim id fun h => ((hes _ h).2.1 rfl).elim
  have h3 : ∀ {g i}, st'.Edge g i .provides → st.Edge g i .provides := fun he => (hx.edge he).elim id fun h => ((hes _ h).2.2 rfl).elim
  refine ⟨fun g i i' r a1 a2 a3 a4 => ?_, fun g g' i a1 a2 => h.parent g g' i (h1 a1) (h1 a2), fun i r j j' f a1 a2 a3 a4 a5 => ?_⟩
  · obtain ⟨⟨_, _, b1⟩, _⟩ := hs.edge _ (h1 a1)
    obtain ⟨⟨_, _, b2⟩, _⟩ := hs.edge _ (h1 a2)
    exact h.resolver g i i' r (h1 a1) (h1 a2) (hg.unResolver b1 a3) (hg.unResolver b2 a4)
  · obtain ⟨p, f0, b1, b2, b3⟩ := hs.edge _ (h2 a2)
    have h6 : ∃ v, st.nodes[i]? = some v := by
      cases b3 with
      | parent _ _ _ h => exact ⟨_, h⟩
      | resolver _ _ _ h => obtain ⟨_, h⟩ := h; exact ⟨_, h⟩
    obtain ⟨v, h6⟩ := h6
    exact h.provider i r j j' f (hg.unResolver h6 a1) (h2 a2) (h2 a3) (h3 a4) (h3 a5)

theorem Inv.ext (h : Inv E Q st L R) (hx : Ext st st' vs es) (hs : Shape E st') (hused : Used E st') (honce : Once st') (hR : ∀ q ∈ R, q ∈ R') (hL : ∀ t ∈ L, t ∈ L')
    (htask : ∀ t ∈ L', t ∈ L ∨ TaskOk E st' t) (hreq : ∀ q ∈ R', q ∈ R ∨ ReqOk E st' q) (hphase : Phase st' L')
    (hcover : ∀ g n s, Child st' g n → Source st' g s → (Child st g n ∧ Source st g s) ∨ Pending L' g n s)
    (hres : ∀ g i r S, ⟨g, i, .hasChildResolver⟩ ∈ es → st'.Resolver i r → E.required r = some S → Owed E st' R' i g S)
    (hneed : ∀ i j r f d args S, ⟨i, j, .canProvide⟩ ∈ es → st'.Resolver i r → st'.Edge j f .provides → st'.Def f (some d) args →
      E.needs d (E.subgraph r) = some S → ∃ g, st'.Edge g i .hasChildResolver ∧ st'.Edge g f .field ∧ Owed E st' R' j g S) :
    Inv E Q st' L' R' := by
  have hg := hx.grows
  refine ⟨hs, fun t ht => (htask t ht).elim (fun ht => hg.taskOk (h.task t ht)) id, fun q hq => (hreq q hq).elim (fun hq => hg.reqOk (h.req q hq)) id,
    hphase, fun g n s hc hso => ?_, fun q hq => (h.init q hq).grows hg hR, fun g i r S he hr hq => ?_, fun i j r f d args S he hr hp hd hn => ?_, hused, honce⟩
  · rcases hcover g n s hc hso with ⟨h1, h2⟩ | h1
    · rcases h.cover g n s h1 h2 with ⟨t, h3, h4⟩ | h3
      · exact .inl ⟨t, hL t h3, h4⟩
      · exact .inr (h3.grows hg h.shape h1 h2)
    · exact .inl h1
  · rcases hx.edge he with he | he
    · obtain ⟨⟨r0, en, h1⟩, _⟩ := h.shape.edge _ he
      exact (h.res g i r S he (hg.unResolver h1 hr) hq).grows hg hR
    · exact hres g i r S he hr hq
  · rcases hx.edge he with he | he
    · obtain ⟨p, f0, h1, h2, h3⟩ := h.shape.edge _ he
      have h4 : f0 = f := hs.one j f0 f (hg.edge h2) hp
      subst h4
      have h5 : ∃ f, st.Field f0 f := by
        obtain ⟨⟨_, f, _, hf, _⟩, _⟩ := h.shape.edge _ h2
        exact ⟨f, hf⟩
      obtain ⟨fn, h5⟩ := h5
      have h6 : ∃ v, st.nodes[i]? = some v := by
        cases h3 with
        | parent _ _ _ h => exact ⟨_, h⟩
        | resolver _ _ _ h => obtain ⟨_, h⟩ := h; exact ⟨_, h⟩
      obtain ⟨v, h6⟩ := h6
      obtain ⟨g, h7, h8, h9⟩ := h.need i j r f0 d args S he (hg.unResolver h6 hr) h2 (hg.unDef h5 h.shape hd) hn
      exact ⟨g, hg.edge h7, hg.edge h8, h9.grows hg hR⟩
    · exact hneed i j r f d args S he hr hp hd hn

/-- Nothing but stacks changes. -/
theorem Ext.same (hn : st'.nodes = st.nodes) (he : st'.edges = st.edges) (hf : st'.fields = st.fields) (hu : ∀ x ∈ st.unplannable, x ∈ st'.unplannable) :
    Ext st st' [] [] :=
  ⟨⟨fun n v h _ => by rw [hn]; exact h, fun n f h => ⟨f, by rw [hn]; exact h, rfl, rfl, rfl, rfl, id⟩, fun e h => by rw [he]; exact h,
    fun i fl h => ⟨fl, by rw [hf]; exact h, rfl, rfl⟩, hu, by rw [hn]; exact Nat.le_refl _⟩,
    fun n v h => .inl ⟨by rw [hn] at h; exact (List.getElem?_eq_some_iff.1 h).1, .inr (by rw [← hn]; exact h)⟩, by simp [he]⟩

end Verif.SpaceBuilder
