import Verif.Schedule.Spec
import Verif.OpChecks.TableLemmas

/-! # The graph as a list of edges -/
namespace Verif.Schedule
open Verif.OpChecks

/-- The edges of a graph, with multiplicity. -/
structure IsGraph (E : List (Exe × Exe)) (g : Graph) : Prop where
  children : ∀ d, g.children d = (E.filter fun x => x.1 = d).map (·.2)
  parents : ∀ e, g.parents e = E.countP fun x => x.2 = e

theorem IsGraph.edge {E : List (Exe × Exe)} {g : Graph} (h : IsGraph E g) (d e : Exe) :
    IsGraph (E ++ [(d, e)]) (incParents (pushChild g d e) e) := by
  constructor
  · intro x
    simp only [incParents, pushChild, h.children, List.filter_append, List.map_append]
    by_cases hx : x = d
    · subst hx; simp
    · have : ¬ d = x := fun h => hx h.symm
      simp [hx, this]
  · intro x
    simp only [incParents, pushChild, h.parents, List.countP_append]
    by_cases hx : x = e
    · subst hx; simp
    · have : ¬ e = x := fun h => hx h.symm
      simp [hx, this]

theorem isGraph_nil : IsGraph [] ⟨fun _ => [], fun _ => 0⟩ := ⟨fun _ => rfl, fun _ => rfl⟩

theorem linkModifiers_graph {m : List (Option Nat)} : ∀ {l : List (Nat × Nat)} {E : List (Exe × Exe)} {g g' : Graph},
    IsGraph E g → linkModifiers m g l = .ok g' →
    ∃ N, IsGraph (E ++ N) g' ∧ (∀ d e, (d, e) ∈ N ↔ ∃ p i n, (p, i) ∈ l ∧ planOf m p = .ok n ∧ d = .plan n ∧ e = .modifier i) ∧
      ∀ x ∈ l, ∃ n, planOf m x.1 = .ok n
  | [], E, g, g', h, e => by
    cases e; exact ⟨[], by simpa using h, by simp, by simp⟩
  | (p, i) :: t, E, g, g', h, e => by
    simp only [linkModifiers] at e
    split at e
    · cases e
    · rename_i n hn
      obtain ⟨N, hN, hm, hp⟩ := linkModifiers_graph (h.edge (.plan n) (.modifier i)) e
      refine ⟨(.plan n, .modifier i) :: N, by simpa using hN, ?_, ?_⟩
      · intro d e
        simp only [List.mem_cons, hm, Prod.mk.injEq]
        constructor
        · rintro (⟨rfl, rfl⟩ | ⟨p', i', n', h1, h2, rfl, rfl⟩)
          · exact ⟨p, i, n, .inl ⟨rfl, rfl⟩, hn, rfl, rfl⟩
          · exact ⟨p', i', n', .inr h1, h2, rfl, rfl⟩
        · rintro ⟨p', i', n', (⟨rfl, rfl⟩ | h1), h2, rfl, rfl⟩
          · rw [hn] at h2; cases h2; exact .inl ⟨rfl, rfl⟩
          · exact .inr ⟨p', i', n', h1, h2, rfl, rfl⟩
      · intro x hx
        rcases List.mem_cons.1 hx with rfl | hx
        · exact ⟨n, hn⟩
        · exact hp x hx

theorem linkToModifiers_graph {n : Nat} : ∀ {l : List Nat} {E : List (Exe × Exe)} {g : Graph}, IsGraph E g →
    ∃ N, IsGraph (E ++ N) (linkToModifiers g n l) ∧ ∀ d e, (d, e) ∈ N ↔ ∃ i ∈ l, d = .modifier i ∧ e = .plan n
  | [], E, g, h => ⟨[], by simpa [linkToModifiers] using h, by simp⟩
  | i :: t, E, g, h => by
    obtain ⟨N, hN, hm⟩ := linkToModifiers_graph (l := t) (n := n) (h.edge (.modifier i) (.plan n))
    refine ⟨(.modifier i, .plan n) :: N, by simpa [linkToModifiers] using hN, ?_⟩
    intro d e
    simp only [List.mem_cons, hm, Prod.mk.injEq]
    constructor
    · rintro (⟨rfl, rfl⟩ | ⟨i', h1, rfl, rfl⟩)
      · exact ⟨i, .inl rfl, rfl, rfl⟩
      · exact ⟨i', .inr h1, rfl, rfl⟩
    · rintro ⟨i', (rfl | h1), rfl, rfl⟩
      · exact .inl ⟨rfl, rfl⟩
      · exact .inr ⟨i', h1, rfl, rfl⟩

/-- Edges of one dependency. -/
def DepEdge (m : List (Option Nat)) (byPart : List (Nat × Nat)) (x : Exe × Nat) (d e : Exe) : Prop :=
  (∃ n, planOf m x.2 = .ok n ∧ d = .plan n ∧ e = x.1) ∨
    ∃ i n, x.1 = .plan n ∧ i ∈ findAll byPart x.2 ∧ d = .modifier i ∧ e = .plan n

theorem linkDependent_graph {byPart : List (Nat × Nat)} {E : List (Exe × Exe)} {g : Graph} (h : IsGraph E g)
    (d : Exe) (p : Nat) (e : Exe) :
    ∃ N, IsGraph (E ++ N) (linkDependent byPart (pushChild g d e) p e) ∧
      ∀ a b, (a, b) ∈ N ↔ (a = d ∧ b = e) ∨ ∃ i n, e = .plan n ∧ i ∈ findAll byPart p ∧ a = .modifier i ∧ b = .plan n := by
  cases e with
  | plan n =>
    obtain ⟨N, hN, hm⟩ := linkToModifiers_graph (l := findAll byPart p) (n := n) (h.edge d (.plan n))
    refine ⟨(d, .plan n) :: N, by simpa [linkDependent] using hN, ?_⟩
    intro a b
    simp only [List.mem_cons, hm, Prod.mk.injEq]
    constructor
    · rintro (h | ⟨i, h1, rfl, rfl⟩)
      · exact .inl h
      · exact .inr ⟨i, n, rfl, h1, rfl, rfl⟩
    · rintro (h | ⟨i, n', h0, h1, rfl, rfl⟩)
      · exact .inl h
      · cases h0; exact .inr ⟨i, h1, rfl, rfl⟩
  | modifier n =>
    refine ⟨[(d, .modifier n)], by simpa [linkDependent] using h.edge d (.modifier n), ?_⟩
    intro a b
    simp

theorem linkDependencies_graph {m : List (Option Nat)} {byPart : List (Nat × Nat)} :
    ∀ {l : List (Exe × Nat)} {E : List (Exe × Exe)} {g g' : Graph},
    IsGraph E g → linkDependencies m byPart g l = .ok g' →
    ∃ N, IsGraph (E ++ N) g' ∧ (∀ d e, (d, e) ∈ N ↔ ∃ x ∈ l, DepEdge m byPart x d e) ∧
      ∀ x ∈ l, ∃ n, planOf m x.2 = .ok n
  | [], E, g, g', h, e => by
    cases e; exact ⟨[], by simpa using h, by simp, by simp⟩
  | (x, p) :: t, E, g, g', h, e => by
    simp only [linkDependencies] at e
    split at e
    · cases e
    · rename_i n hn
      obtain ⟨N₁, h₁, hm₁⟩ := linkDependent_graph (byPart := byPart) h (.plan n) p x
      obtain ⟨N, hN, hm, hp⟩ := linkDependencies_graph h₁ e
      refine ⟨N₁ ++ N, by simpa using hN, ?_, ?_⟩
      · intro d e
        simp only [List.mem_append, hm, hm₁, List.mem_cons]
        constructor
        · rintro ((⟨rfl, rfl⟩ | ⟨i, n', h0, h1, rfl, rfl⟩) | ⟨y, hy, h⟩)
          · exact ⟨_, .inl rfl, .inl ⟨n, hn, rfl, rfl⟩⟩
          · exact ⟨_, .inl rfl, .inr ⟨i, n', h0, h1, rfl, rfl⟩⟩
          · exact ⟨y, .inr hy, h⟩
        · rintro ⟨y, (rfl | hy), h⟩
          · rcases h with ⟨n', h1, rfl, rfl⟩ | h
            · rw [hn] at h1; cases h1; exact .inl (.inl ⟨rfl, rfl⟩)
            · exact .inl (.inr h)
          · exact .inr ⟨y, hy, h⟩
      · intro y hy
        rcases List.mem_cons.1 hy with rfl | hy
        · exact ⟨n, hn⟩
        · exact hp y hy

theorem linkMutations_graph {m : List (Option Nat)} : ∀ {l : List Nat} {E : List (Exe × Exe)} {g g' : Graph},
    IsGraph E g → linkMutations m g l = .ok g' →
    ∃ N, IsGraph (E ++ N) g' ∧ (∀ d e, (d, e) ∈ N ↔
      ∃ a b n k, [a, b] <:+: l ∧ planOf m a = .ok n ∧ planOf m b = .ok k ∧ d = .plan n ∧ e = .plan k) ∧
      ∀ a b, [a, b] <:+: l → ∃ n k, planOf m a = .ok n ∧ planOf m b = .ok k
  | [], E, g, g', h, e => by
    cases e
    refine ⟨[], by simpa using h, fun d e => ?_, ?_⟩ <;> simp
  | [a], E, g, g', h, e => by
    cases e
    have hno : ∀ x y, ¬ [x, y] <:+: [a] := by
      intro x y h
      have := h.length_le
      simp at this
    refine ⟨[], by simpa using h, fun d e => ?_, fun x y h => absurd h (hno x y)⟩
    simp only [List.not_mem_nil, false_iff]
    rintro ⟨a, b, n, k, h, -⟩
    exact hno _ _ h
  | a :: b :: t, E, g, g', h, e => by
    simp only [linkMutations] at e
    split at e
    · cases e
    · rename_i n hn
      split at e
      · cases e
      · rename_i k hk
        obtain ⟨N, hN, hm, hp⟩ := linkMutations_graph (h.edge (.plan n) (.plan k)) e
        refine ⟨(.plan n, .plan k) :: N, by simpa using hN, fun d e => ?_, ?_⟩
        rotate_left
        · intro x y hxy
          rw [List.infix_cons_iff] at hxy
          rcases hxy with ⟨r, hr⟩ | hxy
          · simp at hr
            obtain ⟨rfl, rfl, -⟩ := hr
            exact ⟨n, k, hn, hk⟩
          · exact hp x y hxy
        simp only [List.mem_cons, hm, Prod.mk.injEq]
        constructor
        · rintro (⟨rfl, rfl⟩ | ⟨a', b', n', k', h1, h2, h3, rfl, rfl⟩)
          · exact ⟨a, b, n, k, ⟨[], t, rfl⟩, hn, hk, rfl, rfl⟩
          · exact ⟨a', b', n', k', List.IsInfix.trans h1 ⟨[a], [], by simp⟩, h2, h3, rfl, rfl⟩
        · rintro ⟨a', b', n', k', h1, h2, h3, rfl, rfl⟩
          rw [List.infix_cons_iff] at h1
          rcases h1 with h1 | h1
          · obtain ⟨r, hr⟩ := h1
            simp at hr
            obtain ⟨rfl, rfl, -⟩ := hr
            rw [hn] at h2; rw [hk] at h3; cases h2; cases h3
            exact .inl ⟨rfl, rfl⟩
          · exact .inr ⟨a', b', n', k', h1, h2, h3, rfl, rfl⟩

theorem mem_findAll {l : List (Nat × Nat)} (hs : l.Pairwise fun a b => a.1 ≤ b.1) {id i : Nat} :
    i ∈ findAll l id ↔ (id, i) ∈ l := by
  unfold findAll
  induction l with
  | nil => simp
  | cons x t ih =>
    obtain ⟨hx, ht⟩ := List.pairwise_cons.1 hs
    by_cases h1 : x.1 < id
    · rw [List.dropWhile_cons_of_pos (by simpa using h1), ih ht]
      simp only [List.mem_cons]
      constructor
      · exact .inr
      · rintro (rfl | h)
        · simp at h1
        · exact h
    · rw [List.dropWhile_cons_of_neg (by simpa using h1)]
      by_cases h2 : x.1 = id
      · rw [List.takeWhile_cons_of_pos (by simpa using h2)]
        have hd : t.dropWhile (fun x => decide (x.1 < id)) = t := by
          cases t with
          | nil => rfl
          | cons y u =>
            refine List.dropWhile_cons_of_neg ?_
            have := hx y (by simp)
            simp; omega
        rw [hd] at ih
        simp only [List.map_cons, List.mem_cons, ih ht]
        subst h2
        constructor
        · rintro (rfl | h)
          · exact .inl rfl
          · exact .inr h
        · rintro (h | h)
          · exact .inl (by rw [← h])
          · exact .inr h
      · rw [List.takeWhile_cons_of_neg (by simpa using h2)]
        simp only [List.map_nil, List.not_mem_nil, List.mem_cons, false_iff, not_or]
        refine ⟨fun h => h2 (by rw [← h]), fun h => ?_⟩
        have := hx _ h
        simp at this; omega

theorem pairLe_trans (a b c : Nat × Nat) (h1 : pairLe a b = true) (h2 : pairLe b c = true) : pairLe a c = true := by
  simp only [pairLe] at *
  split at h1 <;> split at h2 <;> split <;> simp at * <;> omega

theorem pairLe_total (a b : Nat × Nat) : (pairLe a b || pairLe b a) = true := by
  simp only [pairLe, Bool.or_eq_true]
  split <;> split <;> simp at * <;> omega

theorem sortPairs_sorted (l : List (Nat × Nat)) : (sortBy pairLe l).Pairwise fun a b => a.1 ≤ b.1 := by
  have := sortBy_sorted pairLe_trans pairLe_total l
  refine this.imp ?_
  intro a b h
  simp only [pairLe] at h
  split at h <;> simp at h <;> omega

end Verif.Schedule
