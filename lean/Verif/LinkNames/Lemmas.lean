import Verif.LinkNames.Spec

namespace Verif.LinkNames

/-! ## Lists -/

/-- The last one with a property. -/
def lastBy {α β : Type} (f : α → Option β) (l : List α) (acc : Option β) : Option β :=
  l.foldl (fun a x => (f x).or a) acc

theorem lastBy_append {α β : Type} (f : α → Option β) (l k : List α) (acc : Option β) :
    lastBy f (l ++ k) acc = lastBy f k (lastBy f l acc) := by
  simp [lastBy, List.foldl_append]

theorem lastBy_some {α β : Type} (f : α → Option β) : ∀ (l : List α) (acc : Option β) (y : β),
    lastBy f l acc = some y ↔
      (∃ before x after, l = before ++ x :: after ∧ f x = some y ∧ ∀ z ∈ after, f z = none) ∨ (∀ z ∈ l, f z = none) ∧ acc = some y
  | [], acc, y => by simp [lastBy]
  | a :: l, acc, y => by
    have h : lastBy f (a :: l) acc = lastBy f l ((f a).or acc) := rfl
    rw [h, lastBy_some f l]
    constructor
    · rintro (⟨b, x, c, e, hx, hc⟩ | ⟨hl, e⟩)
      · exact Or.inl ⟨a :: b, x, c, by rw [e]; rfl, hx, hc⟩
      · cases ha : f a with
        | none =>
          rw [ha] at e
          refine Or.inr ⟨?_, by simpa using e⟩
          intro z hz
          rcases List.mem_cons.mp hz with rfl | hz
          · exact ha
          · exact hl z hz
        | some w =>
          rw [ha] at e
          exact Or.inl ⟨[], a, l, rfl, by rw [ha]; simpa using e, hl⟩
    · rintro (⟨b, x, c, e, hx, hc⟩ | ⟨hl, e⟩)
      · cases b with
        | nil =>
          simp only [List.nil_append, List.cons.injEq] at e
          obtain ⟨rfl, rfl⟩ := e
          exact Or.inr ⟨hc, by rw [hx]; rfl⟩
        | cons b0 b =>
          simp only [List.cons_append, List.cons.injEq] at e
          obtain ⟨rfl, rfl⟩ := e
          exact Or.inl ⟨b, x, c, rfl, hx, hc⟩
      · exact Or.inr ⟨fun z hz => hl z (List.mem_cons_of_mem _ hz), by rw [hl a List.mem_cons_self]; exact e⟩

theorem lastBy_none {α β : Type} (f : α → Option β) : ∀ (l : List α) (acc : Option β),
    lastBy f l acc = none ↔ (∀ z ∈ l, f z = none) ∧ acc = none
  | [], acc => by simp [lastBy]
  | a :: l, acc => by
    have h : lastBy f (a :: l) acc = lastBy f l ((f a).or acc) := rfl
    rw [h, lastBy_none f l]
    simp only [List.mem_cons, forall_eq_or_imp]
    cases f a <;> simp

theorem lastBy_flatMap {α β γ : Type} (f : β → Option γ) (g : α → List β) : ∀ (l : List α) (acc : Option γ),
    l.foldl (fun a x => lastBy f (g x) a) acc = lastBy f (l.flatMap g) acc
  | [], acc => rfl
  | a :: l, acc => by
    rw [List.foldl_cons, lastBy_flatMap f g l, List.flatMap_cons, lastBy_append]

/-! ## Tables -/

theorem core_eq (n : Text) : builtinByName n = coreDirectives.lookup n := by
  simp only [builtinByName, coreDirectives, List.lookup, beq_iff_eq]
  repeat' split
  all_goals first | rfl | (simp_all; done) | skip
  all_goals simp_all

theorem federation_eq (n : Text) : federationByName n = (match federationDirectives.lookup n with | some b => Match.builtin b | none => .noMatch) := by
  by_cases h0 : n = "authenticated".toList
  · subst h0; decide
  by_cases h1 : n = "composeDirective".toList
  · subst h1; decide
  by_cases h2 : n = "extends".toList
  · subst h2; decide
  by_cases h3 : n = "external".toList
  · subst h3; decide
  by_cases h4 : n = "inaccessible".toList
  · subst h4; decide
  by_cases h5 : n = "interfaceObject".toList
  · subst h5; decide
  by_cases h6 : n = "key".toList
  · subst h6; decide
  by_cases h7 : n = "override".toList
  · subst h7; decide
  by_cases h8 : n = "policy".toList
  · subst h8; decide
  by_cases h9 : n = "provides".toList
  · subst h9; decide
  by_cases h10 : n = "requires".toList
  · subst h10; decide
  by_cases h11 : n = "requiresScopes".toList
  · subst h11; decide
  by_cases h12 : n = "shareable".toList
  · subst h12; decide
  by_cases h13 : n = "tag".toList
  · subst h13; decide
  have hl : federationDirectives.lookup n = none := by
    rw [List.lookup_eq_none_iff]
    intro p hp
    simp only [federationDirectives, List.mem_cons, List.not_mem_nil, or_false] at hp
    rw [bne_iff_ne] 
    rcases hp with rfl | rfl | rfl | rfl | rfl | rfl | rfl | rfl | rfl | rfl | rfl | rfl | rfl | rfl
    all_goals first | exact h0 | exact h1 | exact h2 | exact h3 | exact h4 | exact h5 | exact h6 | exact h7 | exact h8 | exact h9 | exact h10 | exact h11 | exact h12 | exact h13
  rw [hl]
  simp only [federationByName, h0, h1, h2, h3, h4, h5, h6, h7, h8, h9, h10, h11, h12, h13, if_false]

theorem composite_eq (n : Text) : compositeByName n = (match compositeDirectives.lookup n with | some b => Match.builtin b | none => .noMatch) := by
  by_cases h0 : n = "lookup".toList
  · subst h0; decide
  by_cases h1 : n = "key".toList
  · subst h1; decide
  by_cases h2 : n = "require".toList
  · subst h2; decide
  by_cases h3 : n = "shareable".toList
  · subst h3; decide
  by_cases h4 : n = "is".toList
  · subst h4; decide
  by_cases h5 : n = "derive".toList
  · subst h5; decide
  by_cases h6 : n = "external".toList
  · subst h6; decide
  by_cases h7 : n = "override".toList
  · subst h7; decide
  by_cases h8 : n = "provides".toList
  · subst h8; decide
  by_cases h9 : n = "inaccessible".toList
  · subst h9; decide
  by_cases h10 : n = "internal".toList
  · subst h10; decide
  have hl : compositeDirectives.lookup n = none := by
    rw [List.lookup_eq_none_iff]
    intro p hp
    simp only [compositeDirectives, List.mem_cons, List.not_mem_nil, or_false] at hp
    rw [bne_iff_ne] 
    rcases hp with rfl | rfl | rfl | rfl | rfl | rfl | rfl | rfl | rfl | rfl | rfl
    all_goals first | exact h0 | exact h1 | exact h2 | exact h3 | exact h4 | exact h5 | exact h6 | exact h7 | exact h8 | exact h9 | exact h10
  rw [hl]
  simp only [compositeByName, h0, h1, h2, h3, h4, h5, h6, h7, h8, h9, h10, if_false]

end Verif.LinkNames
