import Verif.EntityCache.Model

namespace Verif.EntityCache

/-- Limits of `http::HeaderMap`: at most 2^15 entries, names of 1 to 2^16-1 bytes without NUL, values that
fit in memory. -/
structure WfHeaders (hs : Headers) : Prop where
  count : hs.length < 2 ^ 15
  names : ∀ p ∈ hs, p.1 ≠ [] ∧ p.1.length < 2 ^ 16 ∧ ∀ b ∈ p.1, b ≠ 0
  values : ∀ p ∈ hs, p.2.length < 2 ^ 64

theorem hashHeaders_inj {hs hs' : Headers} {x y : Bytes} (hl : hs.length = hs'.length)
    (h1 : ∀ p ∈ hs, p.1.length < 2 ^ 64 ∧ p.2.length < 2 ^ 64)
    (h2 : ∀ p ∈ hs', p.1.length < 2 ^ 64 ∧ p.2.length < 2 ^ 64)
    (h : hashHeaders hs ++ x = hashHeaders hs' ++ y) : hs = hs' ∧ x = y := by
  induction hs generalizing hs' with
  | nil =>
    cases hs' with
    | nil => exact ⟨rfl, h⟩
    | cons _ _ => simp at hl
  | cons p hs ih =>
    cases hs' with
    | nil => simp at hl
    | cons p' hs' =>
      obtain ⟨n, v⟩ := p
      obtain ⟨n', v'⟩ := p'
      have a := h1 (n, v) (by simp)
      have b := h2 (n', v') (by simp)
      simp only at a b
      simp only [hashHeaders, List.append_assoc] at h
      obtain ⟨hn, h⟩ := le_append_inj (by omega) (by omega) h
      obtain ⟨hn, h⟩ := List.append_inj h hn
      obtain ⟨hv, h⟩ := le_append_inj (by omega) (by omega) h
      obtain ⟨hv, h⟩ := List.append_inj h hv
      obtain ⟨hhs, hxy⟩ := ih (by simpa using hl) (fun q hq => h1 q (by simp [hq]))
        (fun q hq => h2 q (by simp [hq])) h
      subst hn hv hhs
      exact ⟨rfl, hxy⟩

theorem le8_small {n : Nat} (h : n < 2 ^ 16) : le 8 n = [n % 256, n / 256, 0, 0, 0, 0, 0, 0] := by
  have e : n / 256 / 256 = 0 := by omega
  have e2 : n / 256 % 256 = n / 256 := by omega
  simp [le, e, e2]

/-- What follows the name in a key. -/
def rest (hs : Headers) (payload : Bytes) : Bytes :=
  le 8 hs.length ++ (hashHeaders hs ++ (le 8 0 ++ payload))

theorem cacheKey_eq (name : Bytes) (hs : Headers) (payload : Bytes) :
    cacheKey name hs payload = [118, 49] ++ (name ++ rest hs payload) := by
  simp [cacheKey, prepareKeyHasher, rest, hashScopes]

/-- After the header count comes the length of the first header name, or the number of scopes. -/
theorem after_count {hs : Headers} (wf : WfHeaders hs) (payload : Bytes) :
    ∃ k x, k < 2 ^ 16 ∧ hashHeaders hs ++ (le 8 0 ++ payload) = le 8 k ++ x ∧
      (hs ≠ [] → ∃ z w, z ≠ 0 ∧ x = z :: w ∧ k ≠ 0) := by
  cases hs with
  | nil => exact ⟨0, payload, by decide, rfl, fun h => (h rfl).elim⟩
  | cons p hs =>
    obtain ⟨n, v⟩ := p
    obtain ⟨h1, h2, h3⟩ := wf.names (n, v) (by simp)
    simp only at h1 h2 h3
    refine ⟨n.length, n ++ le 8 v.length ++ v ++ hashHeaders hs ++ (le 8 0 ++ payload), h2, ?_, fun _ => ?_⟩
    · simp [hashHeaders]
    · cases n with
      | nil => exact (h1 rfl).elim
      | cons z n => exact ⟨z, n ++ le 8 v.length ++ v ++ hashHeaders hs ++ (le 8 0 ++ payload), h3 z (by simp), by simp, by simp⟩

theorem no_shift {name : Bytes} {d : Nat} {r : Bytes} {hs hs' : Headers} {b b' : Bytes} (hd : d ≠ 0)
    (hr : ∀ x ∈ r, x ≠ 0) (wf : WfHeaders hs) (wf' : WfHeaders hs')
    (h : name ++ rest hs b = (name ++ d :: r) ++ rest hs' b') : False := by
  rw [List.append_assoc, List.append_right_inj] at h
  obtain ⟨k, x, hk, e, hne⟩ := after_count wf b
  obtain ⟨k', x', hk', e', _⟩ := after_count wf' b'
  have hc := wf.count
  have hc' := wf'.count
  rw [rest, rest, e, e', le8_small (n := hs.length) (by omega), le8_small (n := hs'.length) (by omega),
    le8_small hk, le8_small hk'] at h
  have hhs : hs ≠ [] := by
    intro h0
    subst h0
    simp at h
    exact hd h.1.symm
  obtain ⟨z, w, hz, hx, hk0⟩ := hne hhs
  subst hx
  cases r with
  | nil =>
    simp only [List.cons_append, List.nil_append, List.cons.injEq] at h
    omega
  | cons a r =>
    cases r with
    | nil =>
      simp only [List.cons_append, List.nil_append, List.cons.injEq] at h
      omega
    | cons c r =>
      simp only [List.cons_append, List.nil_append, List.cons.injEq] at h
      exact hr c (by simp) h.2.2.1.symm

theorem rest_inj {hs hs' : Headers} {b b' : Bytes} (wf : WfHeaders hs) (wf' : WfHeaders hs')
    (h : rest hs b = rest hs' b') : hs = hs' ∧ b = b' := by
  have hc := wf.count
  have hc' := wf'.count
  obtain ⟨hl, h⟩ := le_append_inj (by omega) (by omega) h
  obtain ⟨h1, h⟩ := hashHeaders_inj hl
    (fun p hp => ⟨by have := (wf.names p hp).2.1; omega, wf.values p hp⟩)
    (fun p hp => ⟨by have := (wf'.names p hp).2.1; omega, wf'.values p hp⟩) h
  exact ⟨h1, (List.append_right_inj _).1 h⟩

/-- Keys are injective on well-formed requests. -/
theorem cacheKey_inj {n n' : Bytes} {hs hs' : Headers} {b b' : Bytes}
    (hn : ∀ x ∈ n, x ≠ 0) (hn' : ∀ x ∈ n', x ≠ 0) (wf : WfHeaders hs) (wf' : WfHeaders hs')
    (h : cacheKey n hs b = cacheKey n' hs' b') : n = n' ∧ hs = hs' ∧ b = b' := by
  rw [cacheKey_eq, cacheKey_eq, List.append_right_inj] at h
  rcases List.append_eq_append_iff.1 h with ⟨m, hm, hr⟩ | ⟨m, hm, hr⟩
  · cases m with
    | nil =>
      simp at hm hr
      exact ⟨hm.symm, rest_inj wf wf' hr⟩
    | cons d m =>
      rw [hm] at h
      exact (no_shift (hn' d (by simp [hm])) (fun x hx => hn' x (by simp [hm, hx])) wf wf' h).elim
  · cases m with
    | nil =>
      simp at hm hr
      exact ⟨hm, rest_inj wf wf' hr.symm⟩
    | cons d m =>
      rw [hm] at h
      exact (no_shift (hn d (by simp [hm])) (fun x hx => hn x (by simp [hm, hx])) wf' wf h.symm).elim

end Verif.EntityCache
