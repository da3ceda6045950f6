import Verif.QueryGraph.Done
import Verif.QueryGraph.Typename
import Verif.SteinerInput.Props
/-!
# The plan of the solver
-/
namespace Verif.QueryGraph

open Verif.Updater (Out)

variable {sp : Space} {es : List Nat} {st st' : St} {g : QGraph} {fuel : Nat}

/-- The kinds of edges the solver sees. -/
def Kind.steiner : Kind → SteinerInput.Kind
  | .createChildResolver => .createChildResolver
  | .canProvide => .canProvide
  | .provides => .provides
  | .requires => .requires
  | .field | .typename | .hasChildResolver => .other
  | .gone => .gone

def SEdge.steiner (e : SEdge) : SteinerInput.SEdge := ⟨e.src, e.dst, e.kind.steiner⟩

/-- The space the solver sees. -/
def Space.steiner (sp : Space) (leaf : List (Nat × Bool)) : SteinerInput.Space := ⟨sp.edges.map SEdge.steiner, sp.root, leaf⟩

theorem steiner_edge {leaf : List (Nat × Bool)} {e : Nat} {d : SteinerInput.SEdge} (h : (sp.steiner leaf).edges[e]? = some d) :
    ∃ d', sp.edges[e]? = some d' ∧ d'.steiner = d := by
  simpa [Space.steiner] using h

theorem steiner_kind {k : Kind} :
    (k.steiner = .createChildResolver ↔ k = .createChildResolver) ∧ (k.steiner = .canProvide ↔ k = .canProvide) ∧
    (k.steiner = .provides ↔ k = .provides) ∧ (k.steiner = .requires ↔ k = .requires) := by
  cases k <;> simp [Kind.steiner]

theorem steiner_step {d : SEdge} : d.steiner.IsStep ↔ d.kind.IsStep := by
  simp only [SteinerInput.SEdge.IsStep, SEdge.steiner, Kind.IsStep, steiner_kind]

theorem steiner_valid (ht : sp.Typed) {leaf : List (Nat × Bool)} (hl : (leaf.map Prod.fst).Nodup) (hr : ∀ r, ⟨sp.root, r, .requires⟩ ∉ sp.edges) :
    (sp.steiner leaf).Valid := by
  refine ⟨hl, fun e he hs => ?_, fun r hn => ?_, fun e he e' he' hd hk => ?_⟩
  · obtain ⟨d, h1, rfl⟩ := List.mem_map.1 he
    rw [steiner_step] at hs
    refine root_not ht ?_
    rcases hs with h | h | h
    · exact .inl (.inl (ht.create d h1 h).1)
    · exact .inl (.inr (ht.canProvide d h1 h).1)
    · exact .inr ⟨_, (ht.provides d h1 h).2⟩
  · obtain ⟨⟨a, b, c⟩, h1, h2⟩ := List.mem_map.1 hn.1
    simp only [SEdge.steiner, SteinerInput.SEdge.mk.injEq, steiner_kind] at h2
    obtain ⟨rfl, rfl, rfl⟩ := h2
    exact hr _ h1
  · obtain ⟨d, h1, rfl⟩ := List.mem_map.1 he
    obtain ⟨d', h1', rfl⟩ := List.mem_map.1 he'
    simp only [SEdge.steiner, steiner_kind, ne_eq] at hd hk ⊢
    have hf := (ht.provides d h1 hk).2
    rw [hd] at hf
    exact ⟨fun hc => source_not_field (.inl (ht.create d' h1' hc).1) hf, fun hc => source_not_field (.inr (ht.canProvide d' h1' hc).1) hf⟩

theorem steiner_reach {leaf : List (Nat × Bool)} (hs : ∀ e ∈ es, ∃ d, sp.edges[e]? = some d) {n : Nat} :
    SteinerInput.Reach (sp.steiner leaf) es n ↔ Reach sp es n := by
  have hdef : ∀ {e : Nat} {d : SEdge}, sp.edges[e]? = some d → (sp.steiner leaf).src e = d.src ∧ (sp.steiner leaf).dst e = d.dst := fun h => by
    simp [SteinerInput.Space.src, SteinerInput.Space.dst, Space.steiner, h, SEdge.steiner]
  constructor
  · intro h
    induction h with
    | root => exact .root
    | @step e he _ ih =>
      obtain ⟨d, hd⟩ := hs e he
      rw [(hdef hd).1] at ih
      rw [(hdef hd).2]
      exact .step he hd ih
  · intro h
    induction h with
    | root => exact .root
    | @step e d he hd _ ih =>
      rw [← (hdef hd).1] at ih
      rw [← (hdef hd).2]
      exact .step he ih

/-- The edges of a plan are chosen. -/
theorem plan_chosen (ht : sp.Typed) {leaf : List (Nat × Bool)} (hl : (leaf.map Prod.fst).Nodup) (hr : ∀ r, ⟨sp.root, r, .requires⟩ ∉ sp.edges)
    {c : Updater.Cfg} {b t inp} (h : SteinerInput.plan (sp.steiner leaf) fuel c = .ok (b, t, inp, es)) : Chosen sp es := by
  have hv := steiner_valid ht hl hr
  have hs := SteinerInput.C64_steps hv h
  have ho := SteinerInput.C64_once hv h
  have hdef : ∀ {e : Nat} {d : SEdge}, sp.edges[e]? = some d → (sp.steiner leaf).dst e = d.dst := fun h => by
    simp [SteinerInput.Space.dst, Space.steiner, h, SEdge.steiner]
  refine ⟨fun e he => ?_, fun e e' d d' he he' hd hd' heq => ?_, fun e d he hd heq => ?_⟩
  · obtain ⟨d, h1, h2, -⟩ := hs e he
    obtain ⟨d', h3, rfl⟩ := steiner_edge h1
    exact ⟨d', h3, steiner_step.1 h2⟩
  · exact ho.1 e he e' he' (by rw [hdef hd, hdef hd', heq])
  · exact ho.2 e he (by rw [hdef hd, heq]; rfl)

theorem Done.standsFor {L : List QEdge} (h : Done sp es st L g) (ht : sp.Typed) (hc : Chosen sp es) {f : Nat} (hf : (sp.node f).IsField false)
    (hr : Reach sp es f) : ∃ i, g.StandsFor sp i f := by
  cases hr with
  | root => exact absurd rfl (root_not ht (.inr ⟨_, hf⟩))
  | @step e d he hd hr =>
    rcases (hc.kinds ht he hd).1 with k | k
    · exact absurd hf (source_not_field k.1)
    · have hp := ht.provides d (mem_edges.2 ⟨e, hd⟩) k.2
      obtain ⟨i, q, hi⟩ := mem_origins.1 (h.inv.has h.stack ht hc hr (.inr (.inr hp.1)))
      obtain ⟨id, s, hf⟩ := hf
      have hpe : ⟨d.src, d.dst, .provides⟩ ∈ sp.edges := by
        have := mem_edges.2 ⟨e, hd⟩
        obtain ⟨a, b, c⟩ := d
        simp only at k ⊢
        rw [k.2] at this
        exact this
      refine ⟨i, id, s, false, d.src, hf, ?_, hpe⟩
      rw [h.nodes, hi]
      congr 2
      cases i with
      | zero =>
        rw [h.inv.root, Option.some.injEq, Prod.mk.injEq] at hi
        exact absurd hi.2.symm (root_not ht (.inl (.inr hp.1)))
      | succ i =>
        obtain ⟨e', -, -, -, -, hm⟩ := h.parent hi
        rcases hm with ⟨hm, -⟩ | ⟨-, a, d', h2, h3, h4, -⟩
        · generalize hx : d.src = x at hm
          generalize e'.kind = kk at hm
          cases hm with
          | partition hn => rw [← hx, hp.1] at hn; cases hn
          | field _ h6 h7 =>
            rw [← hx] at h6
            rw [provides_one ht h6 hpe, hf] at h7
            cases h7; rfl
        · have := (ht.typename d' (mem_edges.2 ⟨a, h2⟩) h3).1
          rw [h4] at this
          exact absurd this (source_not_field (.inr hp.1))

end Verif.QueryGraph
