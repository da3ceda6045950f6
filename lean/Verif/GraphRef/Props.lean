import Verif.GraphRef.Model

namespace Verif.GraphRef

theorem splitOnce_some {c : Char} {s a b : Str} (h : splitOnce c s = some (a, b)) : s = a ++ c :: b ∧ c ∉ a := by
  induction s generalizing a b with
  | nil => simp [splitOnce] at h
  | cons x xs ih =>
    simp only [splitOnce] at h
    split at h
    · rename_i hx
      simp at h
      obtain ⟨rfl, rfl⟩ := h
      simp [hx]
    · rename_i hx
      simp only [Option.map_eq_some_iff, Prod.mk.injEq] at h
      obtain ⟨p, hp, rfl, rfl⟩ := h
      obtain ⟨h1, h2⟩ := ih (a := p.1) (b := p.2) hp
      exact ⟨by simp [← h1], by simp [h2]; exact fun h => hx h.symm⟩

theorem splitOnce_none {c : Char} {s : Str} (h : splitOnce c s = none) : c ∉ s := by
  induction s with
  | nil => simp
  | cons x xs ih =>
    simp only [splitOnce] at h
    split at h
    · simp at h
    · rename_i hx
      simp only [Option.map_eq_none_iff] at h
      simp [ih h]; exact fun h => hx h.symm

theorem display_split (s : Str) : display (split s) = s := by
  unfold split
  split
  · rename_i g rest h1
    have e1 := (splitOnce_some h1).1
    split
    · rename_i b v h2
      have e2 := (splitOnce_some h2).1
      simp [display, GraphRef.slug, GraphRef.branch, GraphRef.version, e1, e2]
    · simp [display, GraphRef.slug, GraphRef.branch, GraphRef.version, e1]
  · simp [display, GraphRef.slug, GraphRef.branch, GraphRef.version]

theorem parse_ok {s : Str} {r : GraphRef} (h : parse s = .ok r) : r = split s := by
  unfold parse at h
  simp only at h
  split at h
  · simp at h
  · split at h
    · simp at h
    · simpa using h.symm

/-- Whatever parses is displayed as it was written: no part is lost or changed. -/
theorem C27_display_parse (s : Str) (r : GraphRef) (h : parse s = .ok r) : display r = s := by
  rw [parse_ok h, display_split]

/-- Displaying and parsing again gives the same reference. -/
theorem C27_roundtrip (s : Str) (r : GraphRef) (h : parse s = .ok r) : parse (display r) = .ok r := by
  rw [C27_display_parse s r h, h]

/-- What the parts are: the text before the first `@`, between it and the next `#`, and after that. -/
theorem C27_parts (s : Str) (r : GraphRef) (h : parse s = .ok r) :
    '@' ∉ r.slug ∧ r.slug ≠ [] ∧ '/' ∉ r.slug ∧
    (r.branch = none ↔ '@' ∉ s) ∧ (∀ b, r.branch = some b → '#' ∉ b) ∧
    (r.version = none ↔ ¬ ∃ g b v, s = g ++ '@' :: (b ++ '#' :: v)) := by
  have hr := parse_ok h
  unfold parse at h
  simp only [← hr] at h
  split at h
  · simp at h
  · rename_i hne
    split at h
    · simp at h
    · rename_i hslash
      unfold split at hr
      split at hr
      · rename_i g rest h1
        obtain ⟨e1, n1⟩ := splitOnce_some h1
        split at hr
        · rename_i b v h2
          obtain ⟨e2, n2⟩ := splitOnce_some h2
          subst hr
          refine ⟨n1, hne, hslash, by simp [GraphRef.branch, e1], by simp [GraphRef.branch, n2], ?_⟩
          simp only [GraphRef.version]
          constructor
          · simp
          · intro hn; exact absurd ⟨g, b, v, by rw [e1, e2]⟩ hn
        · rename_i h2
          have n2 := splitOnce_none h2
          subst hr
          refine ⟨n1, hne, hslash, by simp [GraphRef.branch, e1], by simp [GraphRef.branch, n2], ?_⟩
          simp only [GraphRef.version, true_iff]
          rintro ⟨g', b', v', e'⟩
          rw [e1] at e'
          have : '#' ∈ rest := by
            rcases List.append_eq_append_iff.1 e' with ⟨x, rfl, hx⟩ | ⟨x, rfl, hx⟩
            · cases x with
              | nil => simp at hx; rw [hx]; simp
              | cons y ys =>
                simp at hx; rw [hx.2]; simp
            · cases x with
              | nil => simp at hx; rw [← hx]; simp
              | cons y ys =>
                simp at hx
                exact absurd (by simp [← hx.1]) n1
          exact n2 this
      · rename_i h1
        have n1 := splitOnce_none h1
        subst hr
        refine ⟨n1, hne, hslash, by simp [GraphRef.branch, n1], by simp [GraphRef.branch], ?_⟩
        simp only [GraphRef.version, true_iff]
        rintro ⟨g, b, v, rfl⟩
        simp at n1

/-- Non-vacuity. -/
example : parse "graph@branch#version".toList =
    .ok (.id "graph".toList "branch".toList "version".toList) := rfl
example : parse "graph@a#b#c".toList = .ok (.id "graph".toList "a".toList "b#c".toList) := rfl
example : parse "acc/graph".toList = .error .accountName := rfl

/-- References that were not parsed need not survive: a branch that contains `#` moves into the version. -/
theorem C27_constructed_counterexample : ∃ r, parse (display r) ≠ .ok r := by
  refine ⟨.latestVersion "g".toList "a#b".toList, ?_⟩
  have : parse (display (.latestVersion "g".toList "a#b".toList)) = .ok (.id "g".toList "a".toList "b".toList) := rfl
  rw [this]
  simp

end Verif.GraphRef
