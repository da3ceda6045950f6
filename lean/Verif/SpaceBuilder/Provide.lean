import Verif.SpaceBuilder.Steps
import Mathlib.Tactic.Tauto
/-!
# `create_providable_fields`
-/
namespace Verif.SpaceBuilder

open Verif.QueryGraph (Kind SEdge)

variable {E : Env} {st st' st'' : St} {vs : List Node} {es : List SEdge} {L L' : List Task} {R R' : List Req} {Q : List Req} {t : Task}

theorem Grows.of_tasks {new : List Task} (h : Grows st st') : Grows st { st' with tasks := new } :=
  ⟨h.node, h.field, h.edges, h.fields, h.unplannable, h.len⟩

theorem Ext.of_tasks {new : List Task} (h : Ext st st' vs es) : Ext st { st' with tasks := new } vs es :=
  ⟨h.grows.of_tasks, h.node, h.edges⟩

/-- A provider is added. -/
theorem Inv.provider (h : Inv E Q st (t :: st.tasks) R) {a d args : Nat} {p : PNode} (hc : CanProvide E st a t.node p) (hpf : p.field = t.id)
    (hd : st.Def t.node (some d) args) (hR : ∀ q ∈ R, q ∈ R')
    (hreq : ∀ q ∈ R', q ∈ R ∨ (q.dependent = st.nodes.length ∧ Output E st q.parent q.output))
    (hneed : ∀ r S, st.Resolver a r → E.needs d (E.subgraph r) = some S → ∃ g, st.Edge g a .hasChildResolver ∧ st.Edge g t.node .field ∧
      ∃ q ∈ R', q.dependent = st.nodes.length ∧ q.parent = g ∧ q.items = S)
    (hfresh : ∀ r j, st.Resolver a r → st.Edge a j .canProvide → ¬ st.Edge j t.node .provides) :
    ∃ st', st.newProvider E a t.node d p = some st' ∧ Inv E Q st' (t :: st'.tasks) R' ∧ Grows st st' ∧ st'.reqs = st.reqs ∧
      st'.unplannable = st.unplannable ∧ st'.nodes.length = st.nodes.length + 1 ∧ st'.Provider st.nodes.length p ∧ st'.Edge a st.nodes.length .canProvide ∧
      st'.Edge st.nodes.length t.node .provides ∧ ∃ f, st'.Field t.node f ∧ f.providable = true := by
  have ht := h.task t (by simp)
  obtain ⟨f, hf, hfid⟩ := ht.node
  have hn : t.node < st.nodes.length := exists_lt ⟨_, hf⟩
  obtain ⟨new, hnew, hmem⟩ := subSelection_eq (E := E) (st := withProvider st a t.node f p) t.node st.nodes.length d
  refine ⟨_, newProvider_of hf, ?_⟩
  rw [hnew]
  have hx0 := withProvider_ext (a := a) (p := p) hf
  have hx : Ext st { withProvider st a t.node f p with tasks := new ++ (withProvider st a t.node f p).tasks } _ _ := hx0.of_tasks
  have hflag : (withProvider st a t.node f p).Field t.node { f with providable := true } := by
    simp only [St.Field, withProvider]
    rw [List.getElem?_append_left (by simpa using hn), List.getElem?_set_self hn]
  generalize hst : { withProvider st a t.node f p with tasks := new ++ (withProvider st a t.node f p).tasks } = st' at hx ⊢
  have hflag' : st'.Field t.node { f with providable := true } := by rw [← hst]; exact hflag
  have hprov : st'.Provider st.nodes.length p := by rw [← hst]; exact withProvider_new (a := a)
  have hcan : st'.Edge a st.nodes.length .canProvide := hx.new (e := ⟨a, st.nodes.length, .canProvide⟩) (by simp)
  have hpro : st'.Edge st.nodes.length t.node .provides := hx.new (e := ⟨st.nodes.length, t.node, .provides⟩) (by simp)
  have hlen : st'.nodes.length = st.nodes.length + 1 := by rw [← hst]; simp [withProvider]
  have htasks : st'.tasks = new ++ st.tasks := by rw [← hst]; rfl
  have hmem' : ∀ t', t' ∈ new ↔ ∃ o k f', E.out d = some o ∧ st'.Edge t.node t'.node k ∧ st'.Field t'.node f' ∧ t' = ⟨⟨t.node, o, st.nodes.length⟩, t'.node, f'.id⟩ := by
    intro t'
    rw [hmem, ← hst]
    rfl
  have hg := hx.grows
  have hs : Shape E st' := by
    refine h.shape.ext hx (by simp) (fun n f' hf' hle => ?_) ⟨by simp, by simp [hlen]⟩ (fun e he => ?_) (fun x b hb => ?_) (fun n p' hp' hle => ?_)
      (fun e he => ?_) (fun n f0 f1 h0 h1 h2 h3 => ?_)
    · exfalso
      have : n < st'.nodes.length := exists_lt ⟨_, hf'⟩
      have hn' : n = st.nodes.length := by omega
      subst hn'
      simp only [St.Field, St.Provider] at hf' hprov
      rw [hprov] at hf'
      cases hf'
    · simp only [List.mem_cons, List.not_mem_nil, or_false] at he
      rcases he with rfl | rfl
      · exact ⟨p, t.node, hprov, hpro, hg.canProvide hc⟩
      · exact ⟨⟨p, _, hprov, hflag', by rw [hpf]; exact hfid.symm, rfl⟩, ⟨d, args, hg.def hd⟩, a, hcan⟩
    · simp only [List.mem_cons, SEdge.mk.injEq, reduceCtorEq, and_false, and_true, false_or, List.not_mem_nil, or_false] at hb ⊢
      obtain ⟨rfl, rfl⟩ := hb
      exact ⟨Nat.le_refl _, fun c hc => hc.2.symm⟩
    · have : n < st'.nodes.length := exists_lt ⟨_, hp'⟩
      have hn' : n = st.nodes.length := by omega
      exact ⟨t.node, by simp [hn']⟩
    · simp only [List.mem_cons, List.not_mem_nil, or_false] at he
      rcases he with rfl | rfl <;> simp
    · rcases Nat.lt_or_ge n st.nodes.length with hlt | hge
      · by_cases hnt : n = t.node
        · subst hnt
          exact .inr ⟨_, hpro⟩
        · exfalso
          have : st'.nodes[n]? = st.nodes[n]? := by
            rw [← hst]
            simp only [withProvider]
            rw [List.getElem?_append_left (by simpa using hlt), List.getElem?_set_ne (fun hh => hnt hh.symm)]
          simp only [St.Field] at h0 h1
          rw [this, h0] at h1
          cases h1
          rw [h2] at h3
          cases h3
      · have := exists_lt ⟨_, h0⟩
        omega
  have hphn : (∀ e ∈ st'.edges, e.kind ≠ .requires) ∨ t.node = 0 ∨ IsExtra st' t.node true := by
    rcases h.phase with h1 | h1
    · refine .inl fun e he => ?_
      rw [hx.edges, List.mem_append] at he
      rcases he with he | he
      · exact h1 e he
      · simp only [List.mem_cons, List.not_mem_nil, or_false] at he
        rcases he with rfl | rfl <;> simp
    · exact .inr (.inr (hg.isExtra (h1 t (by simp))))
  have hchild : ∀ m k f', st'.Edge t.node m k → st'.Field m f' → Child st' t.node m := fun m k f' he hm =>
    neighbour_child hs hphn (.inr ⟨_, hflag'⟩) he hm
  have hsrc : Source st' t.node st.nodes.length := .provider hprov hpro
  have honce : Once st' := by
    have e1 : ∀ {g i}, st'.Edge g i .hasChildResolver → st.Edge g i .hasChildResolver := fun he => (hx.edge he).elim id fun h => by simp at h
    obtain ⟨va, hva⟩ := hc.exists
    have hres : ∀ {i r}, (∃ v, st.nodes[i]? = some v) → st'.Resolver i r → st.Resolver i r := fun ⟨v, hv⟩ => hg.unResolver hv
    have hcan' : ∀ {i j}, st'.Edge i j .canProvide → (st.Edge i j .canProvide ∧ (∃ v, st.nodes[i]? = some v) ∧ j < st.nodes.length) ∨ (i = a ∧ j = st.nodes.length) := by
      intro i j he
      rcases hx.edge he with h1 | h1
      · obtain ⟨p, f0, b1, b2, b3⟩ := h.shape.edge _ h1
        exact .inl ⟨h1, b3.exists, exists_lt ⟨_, b1⟩⟩
      · right
        simpa using h1
    have hpro' : ∀ {j n}, st'.Edge j n .provides → j < st.nodes.length → st.Edge j n .provides := by
      intro j n he hj
      rcases hx.edge he with h1 | h1
      · exact h1
      · simp only [List.mem_cons, SEdge.mk.injEq, reduceCtorEq, and_false, and_true, false_or, List.not_mem_nil, or_false] at h1
        omega
    have htn : ∀ {n}, st'.Edge st.nodes.length n .provides → n = t.node := fun he => hs.one _ _ _ he hpro
    refine ⟨fun g i i' r a1 a2 a3 a4 => ?_, fun g g' i a1 a2 => h.once.parent g g' i (e1 a1) (e1 a2), fun i r j j' n a1 a2 a3 a4 a5 => ?_⟩
    · obtain ⟨⟨_, _, b1⟩, _⟩ := h.shape.edge _ (e1 a1)
      obtain ⟨⟨_, _, b2⟩, _⟩ := h.shape.edge _ (e1 a2)
      exact h.once.resolver g i i' r (e1 a1) (e1 a2) (hg.unResolver b1 a3) (hg.unResolver b2 a4)
    · rcases hcan' a2 with ⟨b1, b2, b3⟩ | ⟨rfl, rfl⟩ <;> rcases hcan' a3 with ⟨c1, c2, c3⟩ | ⟨c1, rfl⟩
      · exact h.once.provider i r j j' n (hres b2 a1) b1 c1 (hpro' a4 b3) (hpro' a5 c3)
      · cases htn a5
        rw [c1] at b1 a1
        exact (hfresh r j (hres ⟨_, hva⟩ a1) b1 (hpro' a4 b3)).elim
      · cases htn a4
        exact (hfresh r j' (hres ⟨_, hva⟩ a1) c1 (hpro' a5 c3)).elim
      · rfl
  refine ⟨h.ext hx hs (h.used.same (by rw [← hst]; rfl)) honce hR (fun t' ht' => ?_) (fun t' ht' => ?_) (fun q hq => ?_) ?_ (fun g n s hcd hso => ?_) (fun g i r S he => ?_)
    (fun i j r f' d' args' S he hr hp' hd' hn' => ?_), hg, by rw [← hst]; rfl, by rw [← hst]; rfl, hlen, hprov, hcan, hpro, _, hflag', rfl⟩
  · rw [htasks]
    simp only [List.mem_cons, List.mem_append] at ht' ⊢
    tauto
  · rw [htasks] at ht'
    simp only [List.mem_cons, List.mem_append] at ht' ⊢
    rcases ht' with ht' | ht' | ht'
    · exact .inl (.inl ht')
    · right
      obtain ⟨o, k, f', h1, h2, h3, h4⟩ := (hmem' t').1 ht'
      generalize t'.node = m at h2 h3 h4
      subst h4
      exact ⟨⟨f', h3, rfl⟩, hchild _ _ _ h2 h3, .field (hg.def hd) h1, hsrc⟩
    · exact .inl (.inr ht')
  · rcases hreq q hq with h1 | ⟨h1, h2⟩
    · exact .inl h1
    · exact .inr ⟨.inr (.inl ⟨p, by rw [h1]; exact hprov⟩), hg.output h2⟩
  · rcases h.phase with h1 | h1
    · refine .inl fun e he => ?_
      rw [hx.edges, List.mem_append] at he
      rcases he with he | he
      · exact h1 e he
      · simp only [List.mem_cons, List.not_mem_nil, or_false] at he
        rcases he with rfl | rfl <;> simp
    · right
      intro t' ht'
      rw [htasks] at ht'
      simp only [List.mem_cons, List.mem_append] at ht'
      rcases ht' with ht' | ht' | ht'
      · exact hg.isExtra (h1 t' (by simp [ht']))
      · obtain ⟨o, k, f', h1', h2, h3, h4⟩ := (hmem' t').1 ht'
        exact child_extra hs (hchild _ _ _ h2 h3) (hg.isExtra (h1 t (by simp)))
      · exact hg.isExtra (h1 t' (by simp [ht']))
  · have hcd' : Child st g n := by
      rcases hcd with hcd | hcd
      · rcases hx.edge hcd with h1 | h1
        · exact .inl h1
        · simp at h1
      · rcases hx.edge hcd with h1 | h1
        · exact .inr h1
        · simp at h1
    cases hso with
    | root => exact .inl ⟨hcd', .root⟩
    | @provider _ _ p' hp' he =>
      rcases hx.edge he with h1 | h1
      · obtain ⟨⟨p0, _, h2, _⟩, _⟩ := h.shape.edge _ h1
        exact .inl ⟨hcd', .provider h2 h1⟩
      · right
        simp only [List.mem_cons, SEdge.mk.injEq, reduceCtorEq, and_false, and_true, false_or, List.not_mem_nil, or_false] at h1
        obtain ⟨rfl, rfl⟩ := h1
        obtain ⟨o, ho⟩ := h.shape.childOutput hcd'
        obtain ⟨fn, _, _, hfn, _⟩ := hs.childField hcd
        have ho' : E.out d = some o := output_def h.shape.root ho hd
        have hk : ∃ k, st'.Edge t.node n k := hcd.elim (fun h => ⟨_, h⟩) (fun h => ⟨_, h⟩)
        obtain ⟨k, hk⟩ := hk
        refine ⟨⟨⟨t.node, o, st.nodes.length⟩, n, fn.id⟩, ?_, rfl, rfl, rfl⟩
        rw [htasks, List.mem_cons, List.mem_append]
        exact .inr (.inl ((hmem' _).2 ⟨o, k, fn, ho', hk, hfn, rfl⟩))
  · simp at he
  · simp only [List.mem_cons, SEdge.mk.injEq, reduceCtorEq, and_false, and_true, or_false, List.not_mem_nil] at he
    obtain ⟨rfl, rfl⟩ := he
    obtain ⟨va, hva⟩ := hc.exists
    have h1 : f' = t.node := hs.one _ _ _ hp' hpro
    subst h1
    have h2 := hg.unDef hf h.shape hd'
    have h3 : d' = d := Option.some.inj (def_unique h2 hd).1
    subst h3
    obtain ⟨g, h4, h5, q, h6, h7⟩ := hneed r S (hg.unResolver hva hr) hn'
    exact ⟨g, hg.edge h4, hg.edge h5, .inl ⟨q, h6, h7⟩⟩

end Verif.SpaceBuilder
