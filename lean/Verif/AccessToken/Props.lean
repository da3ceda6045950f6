import Verif.AccessToken.Lemmas
/-! C101: the access token. -/
namespace Verif.AccessToken

/-- C101: what is accepted, and as what: the text without the space around it, if there is any and it has no control characters but
the tab. -/
theorem C101_accepts (s t : List Nat) : new s = .ok t ↔ Inner s t ∧ t ≠ [] ∧ Clean t := by
  have key : new s = .ok t ↔ trim s = t ∧ t ≠ [] ∧ Clean t := by
    unfold new
    simp only
    split
    · rename_i h
      refine ⟨fun h => (by cases h), ?_⟩
      rintro ⟨rfl, h2, _⟩
      exact absurd (List.isEmpty_iff.mp h) h2
    · rename_i h
      split
      · rename_i hv
        rw [header_valid] at hv
        constructor
        · intro he
          injection he with he
          subst he
          exact ⟨rfl, fun e => h (by rw [e]; rfl), hv⟩
        · rintro ⟨rfl, _, _⟩
          rfl
      · rename_i hv
        rw [header_valid] at hv
        refine ⟨fun h => (by cases h), ?_⟩
        rintro ⟨rfl, _, h3⟩
        exact absurd h3 hv
  rw [key]
  exact ⟨fun h => ⟨h.1 ▸ trim_inner s, h.2⟩, fun h => ⟨inner_trim h.1, h.2⟩⟩

/-- C101: "cannot be empty" is told exactly if there is nothing but space. -/
theorem C101_empty (s : List Nat) : new s = .empty ↔ ∀ c ∈ s, c ∈ spaces := by
  have h1 : new s = .empty ↔ trim s = [] := by
    unfold new
    simp only
    split
    · rename_i h
      exact ⟨fun _ => List.isEmpty_iff.mp h, fun _ => rfl⟩
    · rename_i h
      refine ⟨?_, fun e => absurd (by rw [e]; rfl) h⟩
      split <;> (intro h; cases h)
  rw [h1]
  constructor
  · intro ht
    obtain ⟨a, b, hs, ha, hb, _⟩ := trim_inner s
    rw [ht] at hs
    intro c hc
    rw [hs] at hc
    simp only [List.append_nil, List.mem_append] at hc
    rcases hc with hc | hc
    · exact ha c hc
    · exact hb c hc
  · intro h
    exact inner_trim ⟨s, [], by simp, h, by simp, by simp, by simp⟩

/-- C101: "characters that are not allowed" is told exactly if there is a control character inside. -/
theorem C101_invalid (s : List Nat) : new s = .invalid ↔ ∃ t, Inner s t ∧ t ≠ [] ∧ ¬ Clean t := by
  have hi := trim_inner s
  constructor
  · intro h
    refine ⟨trim s, hi, ?_, ?_⟩
    · intro e
      have : new s = .empty := by simp [new, e]
      rw [h] at this
      cases this
    · intro hc
      by_cases e : trim s = []
      · have : new s = .empty := by simp [new, e]
        rw [h] at this
        cases this
      · have := (C101_accepts s (trim s)).mpr ⟨hi, e, hc⟩
        rw [h] at this
        cases this
  · rintro ⟨t, h1, h2, h3⟩
    have ht := inner_trim h1
    have hv : (headerValue t).all validByte = false := by
      rw [← Bool.not_eq_true, header_valid]
      exact h3
    unfold new
    simp only [ht, hv]
    cases t with
    | nil => exact absurd rfl h2
    | cons c t => rfl

/-- C101: with a token the header `Bearer <token>` can always be made. -/
theorem C101_header {s t : List Nat} (h : new s = .ok t) : ∀ b ∈ (bearer ++ t).flatMap utf8, (32 ≤ b ∧ b ≠ 127) ∨ b = 9 := by
  have := (header_valid t).mpr ((C101_accepts s t).mp h).2.2
  intro b hb
  have := List.all_eq_true.mp this b hb
  simpa [validByte] using this

/-- C101: a token is a token, and the same one. -/
theorem C101_again {s t : List Nat} (h : new s = .ok t) : new t = .ok t := by
  obtain ⟨⟨a, b, _, _, _, hf, hl⟩, h2, h3⟩ := (C101_accepts s t).mp h
  exact (C101_accepts t t).mpr ⟨⟨[], [], by simp, by simp, by simp, hf, hl⟩, h2, h3⟩

/-- C101: the space around the token does not matter. -/
theorem C101_space {s t a b : List Nat} (h : new s = .ok t) (ha : ∀ c ∈ a, c ∈ spaces) (hb : ∀ c ∈ b, c ∈ spaces) :
    new (a ++ s ++ b) = .ok t := by
  obtain ⟨⟨a', b', hs, ha', hb', hf, hl⟩, h2, h3⟩ := (C101_accepts s t).mp h
  refine (C101_accepts _ t).mpr ⟨⟨a ++ a', b' ++ b, by rw [hs]; simp, ?_, ?_, hf, hl⟩, h2, h3⟩
  · intro c hc
    rcases List.mem_append.mp hc with hc | hc
    · exact ha c hc
    · exact ha' c hc
  · intro c hc
    rcases List.mem_append.mp hc with hc | hc
    · exact hb' c hc
    · exact hb c hc

/-- C101: the variable of the environment (partial: if its value is Unicode): there is a result exactly if it is set, and it is the
one for its value. -/
theorem C101_env_partial (v : Var) (hv : v ≠ .other) :
    (isDefined v = true ↔ v ≠ .unset) ∧ (fromEnv v = none ↔ v = .unset) ∧ ∀ s, v = .text s → fromEnv v = some (new s) := by
  cases v with
  | unset => simp [isDefined, fromEnv]
  | text s => simp [isDefined, fromEnv]
  | other => exact absurd rfl hv

/-- C101 is false of other values: the variable is set, but there is no error and it counts as not set. -/
theorem C101_env_false : ∃ v, v ≠ .unset ∧ fromEnv v = none ∧ isDefined v = false := ⟨.other, by decide, rfl, rfl⟩

/-- " a\tb\n", a token with a tab; "a\nb"; "é" with a no-break space. -/
theorem C101_case :
    new [32, 97, 9, 98, 10] = .ok [97, 9, 98] ∧ new [97, 10, 98] = .invalid ∧ new [160, 233] = .ok [233] ∧ new [32, 12288] = .empty ∧
      headerValue [233] = [66, 101, 97, 114, 101, 114, 32, 195, 169] := by
  decide +kernel

end Verif.AccessToken
