import Verif.RespAuth.Lemmas

/-!
# Values at paths
-/
namespace Verif.RespAuth

open Verif.NullProp
open Verif.DefaultMerge (Key)

/-- Values at the same key. -/
theorem findKey_same {D : List Seg → Prop} {p : List Seg} {k : Nat} : ∀ {fs fs' : List (Nat × Out)},
    fs.map (·.1) = fs'.map (·.1) →
    (∀ (i : Nat) k o o', fs[i]? = some (k, o) → fs'[i]? = some (k, o') → Without D (.key k :: p) o o') →
    (findKey k fs = none ∧ findKey k fs' = none) ∨
      ∃ o o', findKey k fs = some o ∧ findKey k fs' = some o' ∧ Without D (.key k :: p) o o'
  | [], [], _, _ => .inl ⟨rfl, rfl⟩
  | [], _ :: _, h, _ => by simp at h
  | _ :: _, [], h, _ => by simp at h
  | (k1, o1) :: fs, (k2, o2) :: fs', h, hw => by
    simp only [List.map_cons, List.cons.injEq] at h
    obtain ⟨rfl, h⟩ := h
    by_cases hk : k1 = k
    · subst hk
      exact .inr ⟨o1, o2, by simp [findKey], by simp [findKey], hw 0 k1 o1 o2 rfl rfl⟩
    · simp only [findKey, if_neg hk]
      exact findKey_same h fun i k o o' h1 h2 => hw (i + 1) k o o' (by simpa using h1) (by simpa using h2)

/-- At a denied position, and inside it, nothing is left. -/
theorem valueAt_denied {D : List Seg → Prop} {q : List Seg} : ∀ {p : List Seg} {o o' : Out}, Without D p o o' →
    D (q.reverse ++ p) → valueAt q o' = none ∨ valueAt q o' = some .null := by
  induction q with
  | nil =>
    intro p o o' h hd
    right
    cases h with
    | denied _ => rfl
    | null => rfl
    | leaf hn => exact absurd hd hn
    | list hn _ _ => exact absurd hd hn
    | obj hn _ _ => exact absurd hd hn
  | cons s q ih =>
    intro p o o' h hd
    rw [List.reverse_cons, List.append_assoc] at hd
    cases h with
    | denied _ => left; cases s <;> rfl
    | null => left; cases s <;> rfl
    | leaf hn => left; cases s <;> rfl
    | @list _ os os' hn hl hi =>
      cases s with
      | key k => left; rfl
      | ix i =>
        simp only [valueAt]
        cases hx : os'[i]? with
        | none => left; rfl
        | some x =>
          have hlt : i < os.length := hl ▸ (List.getElem?_eq_some_iff.1 hx).1
          exact ih (hi i _ x (List.getElem?_eq_getElem hlt) hx) hd
    | @obj _ fs fs' hn hl hi =>
      cases s with
      | ix i => left; rfl
      | key k =>
        simp only [valueAt]
        rcases findKey_same (k := k) hl hi with ⟨_, h2⟩ | ⟨o, o', _, h2, hw⟩
        · rw [h2]; left; rfl
        · rw [h2]
          exact ih hw hd

/-- Where nothing on the way is denied, the value is what it was: a leaf or null is the same, an object
has the same keys, a list has as many items. -/
theorem valueAt_granted {D : List Seg → Prop} {q : List Seg} : ∀ {p : List Seg} {o o' : Out}, Without D p o o' →
    (∀ q1 q2, q = q1 ++ q2 → ¬ D (q1.reverse ++ p)) →
    (valueAt q o = none ∧ valueAt q o' = none) ∨
      ∃ x x', valueAt q o = some x ∧ valueAt q o' = some x' ∧ Without D (q.reverse ++ p) x x' := by
  induction q with
  | nil =>
    intro p o o' h hd
    exact .inr ⟨o, o', rfl, rfl, h⟩
  | cons s q ih =>
    intro p o o' h hd
    have hd0 := hd [] (s :: q) rfl
    have step : ∀ q1 q2, q = q1 ++ q2 → ¬ D (q1.reverse ++ (s :: p)) := by
      intro q1 q2 he
      have := hd (s :: q1) q2 (by rw [he]; rfl)
      rwa [List.reverse_cons, List.append_assoc] at this
    have heq : (s :: q).reverse ++ p = q.reverse ++ (s :: p) := by simp
    cases h with
    | denied hp => exact absurd hp hd0
    | null => left; cases s <;> exact ⟨rfl, rfl⟩
    | leaf hn => left; cases s <;> exact ⟨rfl, rfl⟩
    | @list _ os os' hn hl hi =>
      cases s with
      | key k => left; exact ⟨rfl, rfl⟩
      | ix i =>
        simp only [valueAt]
        cases hx : os'[i]? with
        | none =>
          have : os[i]? = none := by
            rw [List.getElem?_eq_none_iff] at hx ⊢
            omega
          rw [this]
          left; exact ⟨rfl, rfl⟩
        | some x =>
          have hlt : i < os.length := hl ▸ (List.getElem?_eq_some_iff.1 hx).1
          rw [List.getElem?_eq_getElem hlt, heq]
          exact ih (hi i _ x (List.getElem?_eq_getElem hlt) hx) step
    | @obj _ fs fs' hn hl hi =>
      cases s with
      | ix i => left; exact ⟨rfl, rfl⟩
      | key k =>
        simp only [valueAt]
        rcases findKey_same (k := k) hl hi with ⟨h1, h2⟩ | ⟨o, o', h1, h2, hw⟩
        · rw [h1, h2]; left; exact ⟨rfl, rfl⟩
        · rw [h1, h2, heq]
          exact ih hw step

/-- Modifiers that do not panic have denials. -/
theorem allDenials_of_run {sets : Sets} : ∀ {ms : List (Rule × Target × Decisions)} {s s' : St},
    runModifiers sets ms s = some s' → ∃ dens, AllDenials sets ms dens
  | [], _, _, _ => ⟨[], .nil⟩
  | (rule, t, d) :: ms, s, s', h => by
    rw [runModifiers] at h
    cases hr : runTarget sets rule t d s with
    | none => rw [hr] at h; simp at h
    | some s1 =>
      rw [hr] at h
      obtain ⟨dens, hd⟩ := allDenials_of_run h
      cases ha : sets.refs t.set with
      | none => exact ⟨dens, .skip ha hd⟩
      | some all =>
        have hc : Concerns sets t (parents sets t) := ⟨all, ha, by unfold parents; rw [ha]⟩
        by_cases he : parents sets t = []
        · exact ⟨dens, .empty (he ▸ hc) hd⟩
        · have hds : ∃ rs, Denies (parents sets t) d rs := by
            cases d with
            | grantAll => exact ⟨_, .grantAll⟩
            | denyAll e => exact ⟨_, .denyAll⟩
            | failed e => exact ⟨_, .failed⟩
            | denySome els errors =>
              have hne : (parents sets t).isEmpty = false := by
                cases hp : parents sets t with
                | nil => exact absurd hp he
                | cons _ _ => rfl
              simp only [runTarget, hne, Bool.false_eq_true, if_false] at hr
              have : ∀ (els : List (Nat × Nat)) (s : St), denyElements rule t (parents sets t) errors els s = some s1 →
                  ∃ ds, Denies (parents sets t) (.denySome els errors) ds := by
                intro els
                induction els with
                | nil => intro s _; exact ⟨[], .denySome rfl (by simp)⟩
                | cons el els ih =>
                  intro s hs
                  obtain ⟨i, e⟩ := el
                  rw [denyElements] at hs
                  cases h1 : (parents sets t)[i]? with
                  | none => rw [h1] at hs; simp at hs
                  | some ref =>
                    cases h2 : errors[e]? with
                    | none => rw [h1, h2] at hs; simp at hs
                    | some err =>
                      rw [h1, h2] at hs
                      simp only at hs
                      cases h3 : denyOne rule t ref err s with
                      | none => rw [h3] at hs; simp at hs
                      | some s2 =>
                        rw [h3] at hs
                        obtain ⟨ds, hds⟩ := ih s2 hs
                        cases hds with
                        | denySome hl hi =>
                          refine ⟨(ref, err) :: ds, .denySome (by simp [hl]) ?_⟩
                          intro n el d hel hd
                          cases n with
                          | zero =>
                            simp only [List.getElem?_cons_zero, Option.some.injEq] at hel hd
                            subst hel hd
                            exact ⟨h1, h2⟩
                          | succ n =>
                            simp only [List.getElem?_cons_succ] at hel hd
                            exact hi n el d hel hd
              exact this els s hr
          obtain ⟨rs, hrs⟩ := hds
          exact ⟨_, .cons hc he hrs hd⟩

end Verif.RespAuth
