import Verif.Entities.Batch

/-!
The answer as a whole.
-/
namespace Verif.Entities

open Verif.NullProp

variable {hid : Nat → Bool} {shape : RootShape} {env : Env} {items : List Item}

/-- The elements of the value of `_entities`. -/
def listed : Json → List Json
  | .list js => toList js
  | _ => []

theorem elements_eq (body : Json) : elements body = listed (bodyValue body) := by
  cases body with
  | map es =>
    simp only [elements, bodyValue]
    cases es.lookup dataKey with
    | none => rfl
    | some d =>
      cases d with
      | map ds =>
        simp only [Option.map_some, Option.getD_some, dataValue]
        cases ds.lookup entitiesKey with
        | none => rfl
        | some v => cases v <;> rfl
      | null => rfl
      | bad => rfl
      | leaf l => rfl
      | list js => rfl
  | null => rfl
  | bad => rfl
  | leaf l => rfl
  | list js => rfl

theorem listSeed_ran (j : Json) (s : St) : listSeed hid shape j s = (false, s) ∨
    Ran hid shape (s.todo.map (·.ref)) (listed j) s (listSeed hid shape j s).1 (listSeed hid shape j s).2 := by
  cases j with
  | null => exact .inr (batch_ran _ .nil _)
  | list js => exact .inr (batch_ran _ _ _)
  | bad => exact .inl rfl
  | leaf l => exact .inl rfl
  | map es => exact .inl rfl

theorem rawListSeed_ran (j : Json) (s : St) : rawListSeed hid shape j s = (false, s) ∨
    Ran hid shape (s.todo.map (·.ref)) (listed j) { s with todo := [] } (rawListSeed hid shape j s).1 (rawListSeed hid shape j s).2 := by
  cases j with
  | list js => exact .inr (batchRaw_ran _ _ _)
  | null => exact .inl rfl
  | bad => exact .inl rfl
  | leaf l => exact .inl rfl
  | map es => exact .inl rfl

theorem Same.bubbling {a b : St} (h : Same a b) : a.part.bubbling = b.part.bubbling := by rw [h.part]

theorem calm_calm (p : Part) : calm { p with bubbling := false } = calm p := rfl

/-- What each object got if the answer comes without the cache. -/
theorem plain_log {parents : List Ref} {answer : Option Json} (st : St) (hp : ∀ i ∈ items, i.ref ∈ parents) :
    ∃ log, calm (ingestPlain env shape parents items answer st).2.part = calm (giveAll env.hid shape st.part log) ∧
      (∀ r a, (r, a) ∈ log → r ∈ parents ∧ ∀ j, a = .entity j → ∃ body, answer = some body ∧
        ∃ i : Nat, (items.map (·.ref))[i]? = some r ∧ (elements body)[i]? = some j) ∧
      Complete (items.map (·.ref)) log := by
  have hc : Complete (items.map (·.ref)) (without parents) := by
    intro r hr
    obtain ⟨i, hi, rfl⟩ := List.mem_map.1 hr
    exact complete_without _ (hp i hi)
  have hw : ∀ (P : Json → Ref → Prop) r a, (r, a) ∈ without parents → r ∈ parents ∧ ∀ j, a = .entity j → P j r := by
    intro P r a h
    obtain ⟨r', h', heq⟩ := List.mem_map.1 h
    obtain ⟨rfl, rfl⟩ := Prod.mk.injEq .. ▸ heq
    exact ⟨h', fun j hj => nomatch hj⟩
  cases answer with
  | none =>
    refine ⟨without parents, ?_, hw _, hc⟩
    rw [ingestPlain, errorAll_part (hid := env.hid)]
  | some body =>
    have hran := response_ran (env := env) (items := items) (listSeed env.hid shape) body
      { st with part := { st.part with bubbling := false }, todo := items }
    simp only [ingestPlain]
    simp only at hran
    generalize responseSeed (dataSeed (listSeed env.hid shape)) (errorsSeed env items) body
      { st with part := { st.part with bubbling := false }, todo := items } = res at hran ⊢
    obtain ⟨o, s⟩ := res
    simp only at hran
    have hfail : s.part = { st.part with bubbling := false } →
        ∃ log, calm (if s.part.bubbling = true then s else s.errorAll shape .invalid parents).part =
            calm (giveAll env.hid shape st.part log) ∧
          (∀ r a, (r, a) ∈ log → r ∈ parents ∧ ∀ j, a = .entity j → ∃ body', some body = some body' ∧
            ∃ i : Nat, (items.map (·.ref))[i]? = some r ∧ (elements body')[i]? = some j) ∧
          Complete (items.map (·.ref)) log := by
      intro hs
      refine ⟨without parents, ?_, hw _, hc⟩
      rw [hs]
      simp only [Bool.false_eq_true, if_false]
      rw [errorAll_part (hid := env.hid), hs]
      exact giveAll_calm _ rfl
    rcases hran with ⟨hsame, ho⟩ | ⟨s1, hs1, hsame, hok⟩
    · subst ho
      exact hfail hsame.part
    · rcases listSeed_ran (hid := env.hid) (shape := shape) (bodyValue body) s1 with h | h
      · rw [h] at hsame hok
        cases o with
        | none => exact hfail (hsame.part.trans hs1.part)
        | some st' =>
          rcases hok (by simp) with h' | h'
          · simp at h'
          · rw [h'] at h
            simp only [listSeed] at h
            have hr := batch_ran (hid := env.hid) (shape := shape) (s1.todo.map (·.ref)) .nil s1
            have hb : (batch env.hid shape (s1.todo.map (·.ref)) .nil s1).1 = false := by rw [h]
            cases hl : s1.todo.map (·.ref) <;> rw [hl] at hb <;> simp [batch, Jsons.broken] at hb
      · have ht : s1.todo = items := hs1.todo
        have hb : s1.part.bubbling = false := hs1.bubbling
        rw [ht] at h
        obtain ⟨log, h1, h2, h3⟩ := h.log
        have h2' : ∀ r a, (r, a) ∈ log → r ∈ parents ∧ ∀ j, a = .entity j → ∃ body', some body = some body' ∧
            ∃ i : Nat, (items.map (·.ref))[i]? = some r ∧ (elements body')[i]? = some j := by
          intro r a hm
          obtain ⟨h4, h5⟩ := h2 r a hm
          refine ⟨?_, fun j hj => ⟨body, rfl, ?_⟩⟩
          · obtain ⟨i, hi, rfl⟩ := List.mem_map.1 h4
            exact hp i hi
          · rw [elements_eq]
            exact h5 j hj
        have h1' : calm s.part = calm (giveAll env.hid shape st.part log) := by
          rw [hsame.part, h1, hs1.part]
          exact giveAll_calm _ rfl
        cases o with
        | some st' => exact ⟨log, h1', h2', h3 hb⟩
        | none =>
          simp only
          split
          · exact ⟨log, h1', h2', h3 hb⟩
          · refine ⟨log ++ without parents, ?_, ?_, (h3 hb).append_left _⟩
            · rw [errorAll_part (hid := env.hid), giveAll_append]
              exact giveAll_calm _ h1'
            · intro r a hm
              rcases List.mem_append.1 hm with hm | hm
              · exact h2' r a hm
              · exact ⟨(hw (fun _ _ => False) r a hm).1, fun j hj => ((hw (fun _ _ => False) r a hm).2 j hj).elim⟩

/-- What each object got if some entities come from the cache. -/
theorem cached_log {parents : List Ref} {hits : List (Ref × Json)} {answer : Option Json} {cacheable : Bool} (st : St)
    (hp : ∀ i ∈ items, i.ref ∈ parents) (hh : ∀ h ∈ hits, h.1 ∈ parents) :
    ∃ log, calm (ingestCached env shape parents hits items answer cacheable st).2.1.part =
        calm (giveAll env.hid shape st.part log) ∧
      (∀ r a, (r, a) ∈ log → r ∈ parents ∧ ∀ j, a = .entity j → (r, j) ∈ hits ∨ ∃ body, answer = some body ∧
        ∃ i : Nat, (items.map (·.ref))[i]? = some r ∧ (elements body)[i]? = some j) ∧
      ((∀ h ∈ hits, h.2.Readable) → Complete (items.map (·.ref) ++ hits.map (·.1)) log) := by
  have hw : ∀ (rs : List Ref) (P : Json → Ref → Prop), (∀ r ∈ rs, r ∈ parents) → ∀ r a, (r, a) ∈ without rs → r ∈ parents ∧ ∀ j, a = .entity j → P j r := by
    intro rs P hrs r a h
    obtain ⟨r', h', heq⟩ := List.mem_map.1 h
    obtain ⟨rfl, rfl⟩ := Prod.mk.injEq .. ▸ heq
    exact ⟨hrs _ h', fun j hj => nomatch hj⟩
  have hrefs : ∀ r ∈ items.map (·.ref), r ∈ parents := by
    intro r hr
    obtain ⟨i, hi, rfl⟩ := List.mem_map.1 hr
    exact hp i hi
  cases answer with
  | none =>
    refine ⟨without parents, ?_, hw parents _ (fun _ h => h), fun _ => ?_⟩
    · rw [ingestCached, errorAll_part (hid := env.hid)]
    · intro r hr
      refine complete_without _ ?_
      rcases List.mem_append.1 hr with hr | hr
      · exact hrefs r hr
      · obtain ⟨h, hm, rfl⟩ := List.mem_map.1 hr
        exact hh h hm
  | some body =>
    simp only [ingestCached]
    have hs := hits_spec (shape := shape) env hits { st with part := { st.part with bubbling := false } }
    have hflag : (∀ h ∈ hits, h.2.Readable) → _ := fun h =>
      hits_flag (shape := shape) env hits { st with part := { st.part with bubbling := false } } h rfl
    generalize ingestHits env shape hits { st with part := { st.part with bubbling := false } } = sh at hs hflag ⊢
    obtain ⟨hs, _, _⟩ := hs
    have hran := response_ran (env := env) (items := items) (rawListSeed env.hid shape) body
      { sh with todo := items, stored := [] }
    simp only at hran
    generalize responseSeed (dataSeed (rawListSeed env.hid shape)) (errorsSeed env items) body
      { sh with todo := items, stored := [] } = res at hran ⊢
    obtain ⟨o, s⟩ := res
    simp only at hran
    have hfound : ∀ r a, (r, a) ∈ found hits → r ∈ parents ∧ ∀ j, a = .entity j → (r, j) ∈ hits ∨ ∃ body', some body = some body' ∧
        ∃ i : Nat, (items.map (·.ref))[i]? = some r ∧ (elements body')[i]? = some j := by
      intro r a hm
      obtain ⟨h, hm', heq⟩ := List.mem_map.1 hm
      obtain ⟨rfl, rfl⟩ := Prod.mk.injEq .. ▸ heq
      refine ⟨hh h hm', fun j hj => .inl ?_⟩
      cases hj
      exact hm'
    have hfc : Complete (hits.map (·.1)) (found hits) := by
      intro r hr
      obtain ⟨h, hm, rfl⟩ := List.mem_map.1 hr
      exact ⟨.entity h.2, List.mem_map.2 ⟨h, hm, rfl⟩, by simp⟩
    have hjoin : ∀ log s', calm s' = calm (giveAll env.hid shape sh.part log) →
        (∀ r a, (r, a) ∈ log → r ∈ parents ∧ ∀ j, a = .entity j → ∃ i : Nat, (items.map (·.ref))[i]? = some r ∧ (elements body)[i]? = some j) →
        (sh.part.bubbling = false → Complete (items.map (·.ref)) log) →
        ∃ log, calm s' = calm (giveAll env.hid shape st.part log) ∧
        (∀ r a, (r, a) ∈ log → r ∈ parents ∧ ∀ j, a = .entity j → (r, j) ∈ hits ∨ ∃ body', some body = some body' ∧
          ∃ i : Nat, (items.map (·.ref))[i]? = some r ∧ (elements body')[i]? = some j) ∧
        ((∀ h ∈ hits, h.2.Readable) → Complete (items.map (·.ref) ++ hits.map (·.1)) log) := by
      intro log s' h1 h2 h3
      refine ⟨found hits ++ log, ?_, ?_, ?_⟩
      · rw [h1, hs, giveAll_append]
        exact giveAll_calm _ (giveAll_calm _ rfl)
      · intro r a hm
        rcases List.mem_append.1 hm with hm | hm
        · exact hfound r a hm
        · exact ⟨(h2 r a hm).1, fun j hj => .inr ⟨body, rfl, (h2 r a hm).2 j hj⟩⟩
      · intro hr r hm
        rcases List.mem_append.1 hm with hm | hm
        · exact (h3 (hflag hr)).append_right _ r hm
        · exact hfc.append_left _ r hm
    have hfail : s.part = sh.part → s.todo = items →
        ∃ log, calm (if s.part.bubbling = true then s else s.errorAll shape .invalid (s.todo.map (·.ref))).part = calm (giveAll env.hid shape sh.part log) ∧
        (∀ r a, (r, a) ∈ log → r ∈ parents ∧ ∀ j, a = .entity j → ∃ i : Nat, (items.map (·.ref))[i]? = some r ∧ (elements body)[i]? = some j) ∧
        (sh.part.bubbling = false → Complete (items.map (·.ref)) log) := by
      intro h1 h2
      cases hb : s.part.bubbling with
      | true =>
        refine ⟨[], ?_, by simp, ?_⟩
        · simp only [if_true]
          rw [h1]
          rfl
        · intro hb'
          rw [← h1, hb] at hb'
          simp at hb'
      | false =>
        refine ⟨without (items.map (·.ref)), ?_, hw _ _ hrefs, fun _ => complete_without⟩
        simp only [Bool.false_eq_true, if_false]
        rw [errorAll_part (hid := env.hid), h1, h2]
    rcases hran with ⟨hsame, ho⟩ | ⟨s1, hs1, hsame, hok⟩
    · subst ho
      obtain ⟨log, h1, h2, h3⟩ := hfail hsame.part hsame.todo
      exact hjoin log _ h1 h2 h3
    · rcases rawListSeed_ran (hid := env.hid) (shape := shape) (bodyValue body) s1 with h | h
      · rw [h] at hsame hok
        cases o with
        | none =>
          obtain ⟨log, h1, h2, h3⟩ := hfail (hsame.part.trans hs1.part) (hsame.todo.trans hs1.todo)
          exact hjoin log _ h1 h2 h3
        | some st' =>
          rcases hok (by simp) with h' | h'
          · simp at h'
          · rw [h'] at h
            simp only [rawListSeed] at h
            have hb : (batchRaw env.hid shape s1.todo .nil { s1 with todo := [] }).1 = false := by rw [h]
            cases hl : s1.todo <;> rw [hl] at hb <;> simp [batchRaw, Jsons.broken] at hb
      · have ht : s1.todo = items := hs1.todo
        have hb : s1.part.bubbling = sh.part.bubbling := hs1.bubbling
        rw [ht] at h
        obtain ⟨log, h1, h2, h3⟩ := h.log
        have h2' : ∀ r a, (r, a) ∈ log → r ∈ parents ∧ ∀ j, a = .entity j →
            ∃ i : Nat, (items.map (·.ref))[i]? = some r ∧ (elements body)[i]? = some j := by
          intro r a hm
          obtain ⟨h4, h5⟩ := h2 r a hm
          refine ⟨hrefs _ h4, fun j hj => ?_⟩
          rw [elements_eq]
          exact h5 j hj
        have h1' : calm s.part = calm (giveAll env.hid shape sh.part log) := by
          rw [hsame.part, h1, hs1.part]
        have h3' : sh.part.bubbling = false → Complete (items.map (·.ref)) log := fun h => h3 (hb.trans h)
        cases o with
        | some st' => exact hjoin log _ h1' h2' h3'
        | none =>
          have htodo : s.todo = [] := by rw [hsame.todo, h.todo]
          simp only [htodo, List.map_nil, St.errorAll, ite_self]
          exact hjoin log _ h1' h2' h3'

end Verif.Entities
