import Verif.Literals.Spec
import Verif.Coercion.Lemmas
import Verif.Coercion.Sound
import Verif.Coercion.Props
/-!
# Values written in an operation: lemmas
-/
namespace Verif.Literals

open Verif.Common Verif.Wrapping Verif.Coercion

theorem wrap_list (n : Nat) : ∀ o, wrap n (.list [o]) = .list [wrap n o] := by
  induction n with
  | zero => intro o; rfl
  | succ n ih => intro o; unfold wrap; rw [ih]

theorem wrap_eq (n : Nat) (o : Q) : wrap n o = nest n o := by
  induction n with
  | zero => rfl
  | succ n ih => unfold wrap nest; rw [wrap_list, ih]

theorem swapRemove_some {name : Str} : ∀ {fs : List (Str × Lit)} {v : Lit} {rest}, swapRemove name fs = some (v, rest) →
    (name, v) ∈ fs ∧ (∀ p ∈ fs, p = (name, v) ∨ p ∈ rest) ∧ rest.Sublist fs ∧ ((keys fs).Nodup → name ∉ keys rest)
  | [], _, _, h => by cases h
  | (k, x) :: fs, v, rest, h => by
    unfold swapRemove at h
    by_cases hk : k = name
    · rw [if_pos hk] at h
      cases h
      subst hk
      refine ⟨List.mem_cons_self, fun p hp => ?_, List.sublist_cons_self _ _, fun hn => ?_⟩
      · rcases List.mem_cons.1 hp with h | h
        · exact Or.inl h
        · exact Or.inr h
      · exact (List.nodup_cons.1 hn).1
    · rw [if_neg hk] at h
      obtain ⟨⟨v', rest'⟩, h1, h2⟩ := Option.map_eq_some_iff.1 h
      cases h2
      obtain ⟨a, b, c, d⟩ := swapRemove_some h1
      refine ⟨List.mem_cons_of_mem _ a, fun p hp => ?_, c.cons_cons _, fun hn => ?_⟩
      · rcases List.mem_cons.1 hp with h | h
        · subst h; exact Or.inr List.mem_cons_self
        · rcases b p h with h | h
          · exact Or.inl h
          · exact Or.inr (List.mem_cons_of_mem _ h)
      · intro hc
        unfold keys at hc
        rcases List.mem_cons.1 hc with h | h
        · exact hk h.symm
        · exact d (List.nodup_cons.1 hn).2 h

theorem swapRemove_none {name : Str} : ∀ {fs : List (Str × Lit)}, swapRemove name fs = none ↔ name ∉ keys fs
  | [] => by simp [swapRemove, keys]
  | (k, x) :: fs => by
    unfold swapRemove
    by_cases hk : k = name
    · rw [if_pos hk]
      simp [keys, hk]
    · rw [if_neg hk, Option.map_eq_none_iff, swapRemove_none]
      unfold keys
      simp only [List.map_cons, List.mem_cons, not_or]
      exact ⟨fun h => ⟨fun e => hk e.symm, h⟩, fun h => h.2⟩

/-- What the loop over the fields of an input object does. -/
theorem fieldLoop_spec {co : Ty → Lit → Except Err Q} : ∀ {fields : List InputField} {fs left : List (Str × Lit)} {xs : List (Nat × Q)},
    (fields.map (·.name)).Nodup → (fields.map (·.id)).Nodup → fieldLoop co fields fs = .ok (xs, left) →
    (ids xs).Sublist ((accessible fields).map (·.id)) ∧
    (∀ p ∈ fs, p ∈ left ∨ ∃ f ∈ accessible fields, f.name = p.1) ∧
    ∀ f ∈ accessible fields,
      (∃ j o, (f.name, j) ∈ fs ∧ (f.id, o) ∈ xs ∧ co f.ty j = .ok o) ∨
      (f.name ∉ keys fs ∧ ∃ dv, f.default = some dv ∧ (f.id, Q.default dv) ∈ xs) ∨
      (f.name ∉ keys fs ∧ f.default = none ∧ f.id ∉ ids xs ∧ f.ty.wrapping.isNonNull = false)
  | [], fs, left, xs, _, _, h => by
    unfold fieldLoop at h
    cases h
    exact ⟨List.Sublist.slnil, fun p hp => Or.inl hp, fun f hf => by simp [accessible] at hf⟩
  | f :: rest, fs, left, xs, hn, hi, h => by
    unfold fieldLoop at h
    obtain ⟨hn1, hn2⟩ := List.nodup_cons.1 hn
    obtain ⟨hi1, hi2⟩ := List.nodup_cons.1 hi
    have hne : ∀ g ∈ accessible rest, g.name ≠ f.name ∧ g.id ≠ f.id := by
      intro g hg
      have := (mem_accessible.1 hg).1
      constructor
      · intro e; exact hn1 (List.mem_map.2 ⟨g, this, e⟩)
      · intro e; exact hi1 (List.mem_map.2 ⟨g, this, e⟩)
    by_cases hf : f.inaccessible = true
    · rw [if_pos hf] at h
      have e : accessible (f :: rest) = accessible rest := by
        unfold accessible
        rw [List.filter_cons_of_neg]
        simp [hf]
      rw [e]
      exact fieldLoop_spec hn2 hi2 h
    · rw [if_neg hf] at h
      have e : accessible (f :: rest) = f :: accessible rest := by
        unfold accessible
        rw [List.filter_cons_of_pos]
        simp [hf]
      rw [e]
      have hidrest : ∀ xs : List (Nat × Q), (ids xs).Sublist ((accessible rest).map (·.id)) → f.id ∉ ids xs := by
        intro xs hs hc
        have := hs.subset hc
        obtain ⟨g, hg, e⟩ := List.mem_map.1 this
        exact (hne g hg).2 e
      cases hr : swapRemove f.name fs with
      | none =>
        rw [hr] at h
        simp only at h
        have hk := swapRemove_none.1 hr
        cases hd : f.default with
        | some dv =>
          rw [hd] at h
          cases hl : fieldLoop co rest fs with
          | error e => rw [hl] at h; cases h
          | ok r =>
            rw [hl] at h
            cases h
            obtain ⟨a, b, c⟩ := fieldLoop_spec hn2 hi2 hl
            refine ⟨a.cons_cons _, fun p hp => ?_, ?_⟩
            · rcases b p hp with h | ⟨g, hg, e⟩
              · exact Or.inl h
              · exact Or.inr ⟨g, List.mem_cons_of_mem _ hg, e⟩
            · intro g hg
              rcases List.mem_cons.1 hg with rfl | hg
              · exact Or.inr (Or.inl ⟨hk, dv, hd, List.mem_cons_self⟩)
              · rcases c g hg with ⟨j, o, h1, h2, h3⟩ | ⟨h1, dv', h2, h3⟩ | ⟨h1, h2, h3, h4⟩
                · exact Or.inl ⟨j, o, h1, List.mem_cons_of_mem _ h2, h3⟩
                · exact Or.inr (Or.inl ⟨h1, dv', h2, List.mem_cons_of_mem _ h3⟩)
                · refine Or.inr (Or.inr ⟨h1, h2, ?_, h4⟩)
                  unfold ids
                  rw [List.map_cons, List.mem_cons, not_or]
                  exact ⟨(hne g hg).2, h3⟩
        | none =>
          rw [hd] at h
          simp only at h
          by_cases hnn : f.ty.wrapping.isNonNull = true
          · rw [if_pos hnn] at h; cases h
          · rw [if_neg hnn] at h
            obtain ⟨a, b, c⟩ := fieldLoop_spec hn2 hi2 h
            refine ⟨a.cons _, fun p hp => ?_, ?_⟩
            · rcases b p hp with h | ⟨g, hg, e⟩
              · exact Or.inl h
              · exact Or.inr ⟨g, List.mem_cons_of_mem _ hg, e⟩
            · intro g hg
              rcases List.mem_cons.1 hg with rfl | hg
              · exact Or.inr (Or.inr ⟨hk, hd, hidrest _ a, by simpa using hnn⟩)
              · exact c g hg
      | some r =>
        obtain ⟨v, fs'⟩ := r
        rw [hr] at h
        simp only at h
        obtain ⟨s1, s2, s3, _⟩ := swapRemove_some hr
        cases hc : co f.ty v with
        | error e => rw [hc] at h; cases h
        | ok o =>
          cases hl : fieldLoop co rest fs' with
          | error e => rw [hc, hl] at h; cases h
          | ok r =>
            rw [hc, hl] at h
            cases h
            obtain ⟨a, b, c⟩ := fieldLoop_spec hn2 hi2 hl
            refine ⟨a.cons_cons _, fun p hp => ?_, ?_⟩
            · rcases s2 p hp with h | h
              · subst h; exact Or.inr ⟨f, List.mem_cons_self, rfl⟩
              · rcases b p h with h | ⟨g, hg, e⟩
                · exact Or.inl h
                · exact Or.inr ⟨g, List.mem_cons_of_mem _ hg, e⟩
            · intro g hg
              rcases List.mem_cons.1 hg with rfl | hg
              · exact Or.inl ⟨v, o, s1, List.mem_cons_self, hc⟩
              · have hkeys : g.name ∉ keys fs' → g.name ∉ keys fs := by
                  intro hk hc
                  obtain ⟨p, hp, e⟩ := List.mem_map.1 hc
                  rcases s2 p hp with h | h
                  · subst h; exact (hne g hg).1 e.symm
                  · exact hk (List.mem_map.2 ⟨p, h, e⟩)
                rcases c g hg with ⟨j, o, h1, h2, h3⟩ | ⟨h1, dv', h2, h3⟩ | ⟨h1, h2, h3, h4⟩
                · exact Or.inl ⟨j, o, s3.subset h1, List.mem_cons_of_mem _ h2, h3⟩
                · exact Or.inr (Or.inl ⟨hkeys h1, dv', h2, List.mem_cons_of_mem _ h3⟩)
                · refine Or.inr (Or.inr ⟨hkeys h1, h2, ?_, h4⟩)
                  unfold ids
                  rw [List.map_cons, List.mem_cons, not_or]
                  exact ⟨(hne g hg).2, h3⟩

/-- The loop succeeds when everything given is declared and coercible and everything required is given. -/
theorem fieldLoop_total {co : Ty → Lit → Except Err Q} : ∀ {fields : List InputField} {fs : List (Str × Lit)},
    (fields.map (·.name)).Nodup → (keys fs).Nodup →
    (∀ k ∈ keys fs, ∃ f ∈ accessible fields, f.name = k) →
    (∀ f ∈ accessible fields, ∀ j, (f.name, j) ∈ fs → ∃ o, co f.ty j = .ok o) →
    (∀ f ∈ accessible fields, f.name ∉ keys fs → f.default = none → f.ty.wrapping.isNonNull = false) →
    ∃ xs, fieldLoop co fields fs = .ok (xs, [])
  | [], fs, _, _, hk, _, _ => by
    cases fs with
    | nil => exact ⟨[], rfl⟩
    | cons p fs =>
      obtain ⟨f, hf, _⟩ := hk p.1 (by unfold keys; simp)
      simp [accessible] at hf
  | f :: rest, fs, hn, hfs, hk, hc, hreq => by
    unfold fieldLoop
    obtain ⟨hn1, hn2⟩ := List.nodup_cons.1 hn
    by_cases hf : f.inaccessible = true
    · rw [if_pos hf]
      have e : accessible (f :: rest) = accessible rest := by
        unfold accessible
        rw [List.filter_cons_of_neg]
        simp [hf]
      rw [e] at hk hc hreq
      exact fieldLoop_total hn2 hfs hk hc hreq
    · rw [if_neg hf]
      have e : accessible (f :: rest) = f :: accessible rest := by
        unfold accessible
        rw [List.filter_cons_of_pos]
        simp [hf]
      rw [e] at hk hc hreq
      have hne : ∀ g ∈ accessible rest, g.name ≠ f.name := by
        intro g hg e
        exact hn1 (List.mem_map.2 ⟨g, (mem_accessible.1 hg).1, e⟩)
      cases hr : swapRemove f.name fs with
      | none =>
        simp only
        have hkn := swapRemove_none.1 hr
        have hk' : ∀ k ∈ keys fs, ∃ f ∈ accessible rest, f.name = k := by
          intro k hkk
          obtain ⟨g, hg, ek⟩ := hk k hkk
          rcases List.mem_cons.1 hg with rfl | hg
          · subst ek; exact absurd hkk hkn
          · exact ⟨g, hg, ek⟩
        obtain ⟨xs, hxs⟩ := fieldLoop_total hn2 hfs hk' (fun g hg => hc g (List.mem_cons_of_mem _ hg))
          (fun g hg => hreq g (List.mem_cons_of_mem _ hg))
        cases hd : f.default with
        | some dv =>
          simp only
          rw [hxs]
          exact ⟨_, rfl⟩
        | none =>
          simp only
          have := hreq f List.mem_cons_self hkn hd
          rw [this]
          exact ⟨xs, hxs⟩
      | some r =>
        obtain ⟨v, fs'⟩ := r
        simp only
        obtain ⟨s1, s2, s3, s4⟩ := swapRemove_some hr
        obtain ⟨o, ho⟩ := hc f List.mem_cons_self v s1
        have hsub : ∀ p ∈ fs', p ∈ fs := fun p hp => s3.subset hp
        have hfs' : (keys fs').Nodup := List.Nodup.sublist (s3.map _) hfs
        have hkn := s4 hfs
        obtain ⟨xs, hxs⟩ := fieldLoop_total (co := co) (fields := rest) (fs := fs') hn2 hfs' (by
          intro k hkk
          obtain ⟨p, hp, e⟩ := List.mem_map.1 hkk
          obtain ⟨g, hg, e'⟩ := hk k (List.mem_map.2 ⟨p, hsub p hp, e⟩)
          rcases List.mem_cons.1 hg with rfl | hg
          · subst e'; exact absurd hkk hkn
          · exact ⟨g, hg, e'⟩)
          (fun g hg j hj => hc g (List.mem_cons_of_mem _ hg) j (hsub _ hj))
          (fun g hg hng hd => hreq g (List.mem_cons_of_mem _ hg) (by
            intro hcc
            obtain ⟨p, hp, e⟩ := List.mem_map.1 hcc
            rcases s2 p hp with h | h
            · subst h; exact hne g hg e.symm
            · exact hng (List.mem_map.2 ⟨p, h, e⟩)) hd)
        rw [ho]
        simp only [bind, Except.bind]
        rw [hxs]
        exact ⟨_, rfl⟩

theorem fieldLoop_error {co : Ty → Lit → Except Err Q} {e : Err} : ∀ {fields : List InputField} {fs : List (Str × Lit)},
    fieldLoop co fields fs = .error e → e = .unexpectedNull ∨ ∃ f ∈ fields, ∃ j, (f.name, j) ∈ fs ∧ co f.ty j = .error e
  | [], fs, h => by cases h
  | f :: rest, fs, h => by
    unfold fieldLoop at h
    have up : ∀ fs' : List (Str × Lit), fs'.Sublist fs → (e = .unexpectedNull ∨ ∃ f ∈ rest, ∃ j, (f.name, j) ∈ fs' ∧ co f.ty j = .error e) →
        (e = .unexpectedNull ∨ ∃ g ∈ f :: rest, ∃ j, (g.name, j) ∈ fs ∧ co g.ty j = .error e) := by
      rintro fs' hs (h | ⟨g, hg, j, h1, h2⟩)
      · exact Or.inl h
      · exact Or.inr ⟨g, List.mem_cons_of_mem _ hg, j, hs.subset h1, h2⟩
    by_cases hf : f.inaccessible = true
    · rw [if_pos hf] at h
      exact up fs (List.Sublist.refl _) (fieldLoop_error h)
    · rw [if_neg hf] at h
      cases hr : swapRemove f.name fs with
      | none =>
        rw [hr] at h
        simp only at h
        cases hd : f.default with
        | some dv =>
          rw [hd] at h
          cases hl : fieldLoop co rest fs with
          | error e' =>
            rw [hl] at h
            cases h
            exact up fs (List.Sublist.refl _) (fieldLoop_error hl)
          | ok r => rw [hl] at h; cases h
        | none =>
          rw [hd] at h
          simp only at h
          by_cases hnn : f.ty.wrapping.isNonNull = true
          · rw [if_pos hnn] at h; cases h; exact Or.inl rfl
          · rw [if_neg hnn] at h
            exact up fs (List.Sublist.refl _) (fieldLoop_error h)
      | some r =>
        obtain ⟨v, fs'⟩ := r
        rw [hr] at h
        simp only at h
        obtain ⟨s1, _, s3, _⟩ := swapRemove_some hr
        cases hc : co f.ty v with
        | error e' => rw [hc] at h; cases h; exact Or.inr ⟨f, List.mem_cons_self, v, s1, hc⟩
        | ok o =>
          cases hl : fieldLoop co rest fs' with
          | error e' =>
            rw [hc, hl] at h
            cases h
            exact up fs' s3 (fieldLoop_error hl)
          | ok r => rw [hc, hl] at h; cases h

/-! ## Heights and fuel -/

theorem height_pos : ∀ j : Lit, 1 ≤ height j
  | .null => by simp [height]
  | .bool _ => by simp [height]
  | .int _ => by simp [height]
  | .float _ => by simp [height]
  | .var _ => by simp [height]
  | .enum _ => by simp [height]
  | .str _ => by simp [height]
  | .list xs => by simp [height]
  | .obj fs => by simp [height]

theorem height_item {xs : List Lit} {x : Lit} (h : x ∈ xs) : height x + 1 ≤ height (.list xs) := by
  have : height x ≤ heightItems xs := by
    induction xs with
    | nil => cases h
    | cons y ys ih =>
      unfold heightItems
      rcases List.mem_cons.1 h with rfl | h
      · exact Nat.le_max_left _ _
      · exact Nat.le_trans (ih h) (Nat.le_max_right _ _)
  show height x + 1 ≤ heightItems xs + 1
  omega

theorem height_field {fs : List (Str × Lit)} {p : Str × Lit} (h : p ∈ fs) : height p.2 + 1 ≤ height (.obj fs) := by
  have : height p.2 ≤ heightFields fs := by
    induction fs with
    | nil => cases h
    | cons q qs ih =>
      obtain ⟨k, v⟩ := q
      unfold heightFields
      rcases List.mem_cons.1 h with rfl | h
      · exact Nat.le_max_left _ _
      · exact Nat.le_trans (ih h) (Nat.le_max_right _ _)
  show height p.2 + 1 ≤ heightFields fs + 1
  omega



theorem swapRemove_perm {name : Str} : ∀ {fs : List (Str × Lit)} {v : Lit} {rest}, swapRemove name fs = some (v, rest) →
    (keys fs).Perm (name :: keys rest)
  | [], _, _, h => by cases h
  | (k, x) :: fs, v, rest, h => by
    unfold swapRemove at h
    by_cases hk : k = name
    · rw [if_pos hk] at h
      cases h
      subst hk
      exact List.Perm.refl _
    · rw [if_neg hk] at h
      obtain ⟨⟨v', rest'⟩, h1, h2⟩ := Option.map_eq_some_iff.1 h
      cases h2
      exact ((swapRemove_perm h1).cons k).trans (List.Perm.swap _ _ _)

/-- Nothing is left only if no name is given twice. -/
theorem fieldLoop_nodup {co : Ty → Lit → Except Err Q} : ∀ {fields : List InputField} {fs : List (Str × Lit)} {xs : List (Nat × Q)},
    (fields.map (·.name)).Nodup → fieldLoop co fields fs = .ok (xs, []) →
    (keys fs).Nodup ∧ ∀ k ∈ keys fs, k ∈ fields.map (·.name)
  | [], fs, xs, _, h => by
    unfold fieldLoop at h
    cases h
    simp [keys]
  | f :: rest, fs, xs, hn, h => by
    unfold fieldLoop at h
    obtain ⟨hn1, hn2⟩ := List.nodup_cons.1 hn
    have up : (keys fs).Nodup ∧ (∀ k ∈ keys fs, k ∈ rest.map (·.name)) →
        (keys fs).Nodup ∧ ∀ k ∈ keys fs, k ∈ (f :: rest).map (·.name) :=
      fun h => ⟨h.1, fun k hk => List.mem_cons_of_mem _ (h.2 k hk)⟩
    by_cases hf : f.inaccessible = true
    · rw [if_pos hf] at h
      exact up (fieldLoop_nodup hn2 h)
    · rw [if_neg hf] at h
      cases hr : swapRemove f.name fs with
      | none =>
        rw [hr] at h
        simp only at h
        cases hd : f.default with
        | some dv =>
          rw [hd] at h
          cases hl : fieldLoop co rest fs with
          | error e => rw [hl] at h; cases h
          | ok r =>
            rw [hl] at h
            obtain ⟨r1, r2⟩ := r
            cases h
            exact up (fieldLoop_nodup hn2 hl)
        | none =>
          rw [hd] at h
          simp only at h
          by_cases hnn : f.ty.wrapping.isNonNull = true
          · rw [if_pos hnn] at h; cases h
          · rw [if_neg hnn] at h
            exact up (fieldLoop_nodup hn2 h)
      | some r =>
        obtain ⟨v, fs'⟩ := r
        rw [hr] at h
        simp only at h
        cases hc : co f.ty v with
        | error e => rw [hc] at h; cases h
        | ok o =>
          cases hl : fieldLoop co rest fs' with
          | error e => rw [hc, hl] at h; cases h
          | ok r =>
            rw [hc, hl] at h
            obtain ⟨r1, r2⟩ := r
            cases h
            obtain ⟨a, b⟩ := fieldLoop_nodup hn2 hl
            have hp := swapRemove_perm hr
            refine ⟨hp.nodup_iff.2 (List.nodup_cons.2 ⟨fun hc => hn1 (b _ hc), a⟩), fun k hk => ?_⟩
            rcases List.mem_cons.1 (hp.subset hk) with h | h
            · subst h; exact List.mem_cons_self
            · exact List.mem_cons_of_mem _ (b k h)

end Verif.Literals
