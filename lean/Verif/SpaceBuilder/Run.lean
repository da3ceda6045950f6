import Verif.SpaceBuilder.Require
/-!
# The loop over the tasks
-/
namespace Verif.SpaceBuilder

open Verif.QueryGraph (Kind SEdge)
open Verif.Updater (Out)

variable {E : Env} {st st' st'' : St} {vs : List Node} {es : List SEdge} {L L' : List Task} {R R' : List Req} {Q : List Req} {t : Task} {q : Req}

/-- The loop never panics, and at its end nothing is left. -/
theorem Inv.run {fuel : Nat} (h : Inv E Q st st.tasks st.reqs) :
    run E fuel st = .timeout ∨ ∃ st', run E fuel st = .ok st' ∧ Inv E Q st' [] [] ∧ Grows st st' := by
  induction fuel generalizing st with
  | zero => exact .inl rfl
  | succ fuel ih =>
    simp only [SpaceBuilder.run]
    split
    · rename_i t ts ht
      have h1 : Inv E Q ({ st with tasks := ts } : St) (t :: ts) st.reqs := by
        rw [ht] at h
        exact h.same rfl rfl rfl fun x hx => hx
      have hg1 : Grows st ({ st with tasks := ts } : St) :=
        (Ext.same (st := st) (st' := { st with tasks := ts }) rfl rfl rfl fun x hx => hx).grows
      obtain ⟨st1, h2, h3, h4⟩ := Inv.provideField (st := { st with tasks := ts }) h1
      rw [h2]
      rcases ih h3 with h5 | ⟨st', h5, h6, h7⟩
      · exact .inl h5
      · exact .inr ⟨st', h5, h6, hg1.trans (h4.trans h7)⟩
    · rename_i ht
      split
      · rename_i q qs hq
        have h1 : Inv E Q ({ st with reqs := qs } : St) [] (q :: qs) := by
          rw [ht, hq] at h
          exact h.same rfl rfl rfl fun x hx => hx
        have hg1 : Grows st ({ st with reqs := qs } : St) :=
          (Ext.same (st := st) (st' := { st with reqs := qs }) rfl rfl rfl fun x hx => hx).grows
        generalize hst : ({ st with reqs := qs } : St) = st0 at h1 hg1
        have e1 : st0.tasks = [] := by rw [← hst]; exact ht
        have e2 : st0.reqs = qs := by rw [← hst]
        rw [← e2] at h1
        obtain ⟨a1, a2, a3, a4, a5⟩ := Inv.createRequirement (st := st0) (S := q.items) (q := q) (by rw [e1]; exact h1) (by rw [e1]; simp)
        rcases ih (a1.pop a5) with h5 | ⟨st', h5, h6, h7⟩
        · exact .inl h5
        · exact .inr ⟨st', h5, h6, hg1.trans (a3.trans h7)⟩
      · rename_i hq
        rw [ht, hq] at h
        exact .inr ⟨st, rfl, h, .refl⟩

theorem Start.field (h : Start E st) {n : Nat} {f : FNode} (hf : st.Field n f) : f.extra = false ∧ f.providable = false ∧
    ∃ fl, st.fields[f.id]? = some fl ∧ (f.leaf = true ↔ ∃ d, fl.definition = some d ∧ E.out d = none) := by
  have hn : n ≠ 0 := by
    rintro rfl
    simp only [St.Field, h.root] at hf
    cases hf
  obtain ⟨f', fl, h1, h2, h3, h4, h5⟩ := h.node n _ hf hn
  cases h1
  exact ⟨h2, h3, fl, h4, h5⟩

theorem Start.notProvider (h : Start E st) {n : Nat} {p : PNode} : ¬ st.Provider n p := by
  intro hp
  by_cases hn : n = 0
  · subst hn
    simp only [St.Provider, h.root] at hp
    cases hp
  · obtain ⟨f', _, h1, _⟩ := h.node n _ hp hn
    cases h1

theorem Start.kinds (h : Start E st) {a b : Nat} {k : Kind} (he : st.Edge a b k) : k = .field ∨ k = .typename := by
  obtain ⟨_, _, h1 | h1⟩ := h.edge _ he
  · exact .inl h1.1
  · exact .inr h1.1

theorem Start.shape (h : Start E st) : Shape E st := by
  refine ⟨h.root, fun n hn => ?_, fun n f hf => (h.field hf).2.2, h.once, fun e he => ?_, fun a b c hb => ?_, fun n p hp => (h.notProvider hp).elim,
    fun i j e e' h1 h2 _ _ h3 => h.single i j e e' h1 h2 h3, h.parent, fun n f hf hp => ?_⟩
  · by_cases h0 : n = 0
    · exact h0
    · obtain ⟨f', _, h1, _⟩ := h.node n _ hn h0
      cases h1
  · obtain ⟨h0, ⟨o, h1⟩, h2⟩ := h.edge e he
    unfold EdgeOk
    have hnx : ∀ n, ¬ IsExtra st n true := by
      rintro n ⟨f, h3, h4⟩
      rw [(h.field h3).1] at h4
      cases h4
    rcases h2 with ⟨hk, h2⟩ | ⟨hk, h2⟩ <;> rw [hk]
    · exact ⟨⟨o, h1⟩, h2, fun hx => (hnx _ hx).elim, h0⟩
    · refine ⟨⟨o, h1⟩, h2, ?_, h0⟩
      rcases h1.extra with h3 | ⟨b, h3⟩
      · exact .inl h3
      · cases b with
        | true => exact (hnx _ h3).elim
        | false => exact .inr h3
  · have := h.kinds hb
    simp at this
  · rw [(h.field hf).2.1] at hp
    cases hp

theorem Start.inv (h : Start E st) :
    let st' := st.subTasks ⟨0, E.rootType, 0⟩
    Inv E st.reqs st' st'.tasks st'.reqs ∧ Grows st st' := by
  obtain ⟨new, h1, h2⟩ := subTasks_eq (st := st) ⟨0, E.rootType, 0⟩
  simp only
  rw [h1, h.tasks, List.append_nil]
  have hs := h.shape
  have hchild : ∀ (n : Nat) k, st.Edge 0 n k → Child st 0 n := by
    intro n k hk
    rcases h.kinds hk with rfl | rfl
    · exact .inl hk
    · exact .inr hk
  have hi : Inv E st.reqs st new st.reqs := by
    refine ⟨hs, fun t ht => ?_, fun q hq => ?_, .inl fun e he => ?_, fun g n s hc hso => ?_, fun q hq => .inl ⟨q, hq, rfl, rfl, rfl⟩,
      fun g i r S he => ?_, fun i j r f d args S he => ?_, fun i fl item h3 h4 => ?_, ?_⟩
    · obtain ⟨k, f, h3, h4, h5⟩ := (h2 t).1 ht
      generalize t.node = m at h3 h4 h5
      subst h5
      exact ⟨⟨f, h4, rfl⟩, hchild _ _ h3, .root, .root⟩
    · obtain ⟨⟨f, h3⟩, h4⟩ := h.req q hq
      exact ⟨.inr (.inr ⟨f, h3, (h.field h3).1⟩), h4⟩
    · have := h.kinds (a := e.src) (b := e.dst) (k := e.kind) he
      rcases this with h3 | h3 <;> rw [h3] <;> simp
    · cases hso with
      | root =>
        obtain ⟨f, _, _, hf, _⟩ := hs.childField hc
        left
        refine ⟨⟨⟨0, E.rootType, 0⟩, n, f.id⟩, (h2 _).2 ?_, rfl, rfl, rfl⟩
        rcases hc with hc | hc
        · exact ⟨_, f, hc, hf, rfl⟩
        · exact ⟨_, f, hc, hf, rfl⟩
      | provider hp _ => exact (h.notProvider hp).elim
    · have := h.kinds he
      simp at this
    · have := h.kinds he
      simp at this
    · rw [h.used fl (List.mem_of_getElem? h3)] at h4
      cases h4
    · refine ⟨fun g i i' r he => ?_, fun g g' i he => ?_, fun i r j j' f _ he => ?_⟩ <;> have := h.kinds he <;> simp at this
  exact ⟨hi.same rfl rfl rfl fun x hx => hx,
    (Ext.same (st := st) (st' := { st with tasks := new }) rfl rfl rfl fun x hx => hx).grows⟩

/-- The space is built without panic; if the loop ends, nothing is left to do. -/
theorem build_inv (h : Start E st) {fuel : Nat} :
    build E fuel st = .timeout ∨ ∃ st', build E fuel st = .ok st' ∧ Inv E st.reqs st' [] [] ∧ Grows st st' := by
  obtain ⟨h1, h2⟩ := h.inv
  rcases h1.run (fuel := fuel) with h3 | ⟨st', h3, h4, h5⟩
  · exact .inl h3
  · exact .inr ⟨st', h3, h4, h2.trans h5⟩

end Verif.SpaceBuilder
