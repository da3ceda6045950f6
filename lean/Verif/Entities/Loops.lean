import Verif.Entities.Flag

/-!
The loops over the keys of the response and of `data`: the list of entities is read at most once, and
with the value found under `data._entities`.
-/
namespace Verif.Entities

open Verif.NullProp

/-- The states differ in the errors of the subgraph only. -/
structure Same (a b : St) : Prop where
  part : a.part = b.part
  todo : a.todo = b.todo
  stored : a.stored = b.stored
  errors : a.errors.filter (fun e => !ofSubgraph e) = b.errors.filter (fun e => !ofSubgraph e)

theorem Same.refl (a : St) : Same a a := ⟨rfl, rfl, rfl, rfl⟩

theorem Same.trans {a b c : St} (h : Same a b) (h' : Same b c) : Same a c :=
  ⟨h.part.trans h'.part, h.todo.trans h'.todo, h.stored.trans h'.stored, h.errors.trans h'.errors⟩

/-- The value of `_entities`, an empty list if there is none. -/
def dataValue : Json → Json
  | .map ds => (ds.lookup entitiesKey).getD (.list .nil)
  | _ => .list .nil

def bodyValue : Json → Json
  | .map es => ((es.lookup dataKey).map dataValue).getD (.list .nil)
  | _ => .list .nil

theorem entries_taken (inner : Json → St → Bool × St) : ∀ (es : Entries) (st : St),
    (entriesLoop inner es true st).2 = st ∧ (entriesLoop inner es true st).1 ≠ some false
  | .nil, st => by simp [entriesLoop]
  | .bad, st => by simp [entriesLoop]
  | .cons k j es, st => by
    rw [entriesLoop]
    split
    · simp
    · split
      · simp
      · exact entries_taken inner es st

theorem entries_open (inner : Json → St → Bool × St) : ∀ (es : Entries) (st : St),
    ((entriesLoop inner es false st).2 = st ∧
      ((entriesLoop inner es false st).1 = none ∨ (entriesLoop inner es false st).1 = some false ∧ es.lookup entitiesKey = none)) ∨
    ∃ v, es.lookup entitiesKey = some v ∧ (entriesLoop inner es false st).2 = (inner v st).2 ∧
      (entriesLoop inner es false st).1 ≠ some false ∧ ((entriesLoop inner es false st).1 ≠ none → (inner v st).1 = true)
  | .nil, st => by simp [entriesLoop, Entries.lookup]
  | .bad, st => by simp [entriesLoop]
  | .cons k j es, st => by
    rw [entriesLoop, Entries.lookup]
    split
    · refine .inr ⟨j, rfl, ?_⟩
      cases h : inner j st with
      | mk b s =>
        cases b with
        | false => simp [h]
        | true =>
          simp only [h, Bool.false_eq_true, if_false]
          have := entries_taken inner es s
          exact ⟨this.1, this.2, fun _ => trivial⟩
    · split
      · exact .inl ⟨rfl, .inl rfl⟩
      · exact entries_open inner es st

/-- `data` is read without touching anything, or the list of entities is read once. -/
theorem data_ran (inner : Json → St → Bool × St) (j : Json) (st : St) :
    (dataSeed inner j st = (false, st)) ∨
    ((dataSeed inner j st).2 = (inner (dataValue j) st).2 ∧
      ((dataSeed inner j st).1 = true → (inner (dataValue j) st).1 = true ∨ dataValue j = .list .nil)) := by
  unfold dataSeed
  cases j with
  | null => exact .inr ⟨rfl, fun _ => .inr rfl⟩
  | leaf l => exact .inr ⟨rfl, fun _ => .inr rfl⟩
  | bad => exact .inl rfl
  | list js =>
    simp only
    split
    · exact .inl rfl
    · exact .inr ⟨rfl, fun _ => .inr rfl⟩
  | map es =>
    have h := entries_open inner es st
    simp only [dataValue]
    generalize entriesLoop inner es false st = r at h
    obtain ⟨o, s⟩ := r
    simp only at h
    rcases h with ⟨rfl, h | ⟨h, h'⟩⟩ | ⟨v, h, h1, h2, h3⟩
    · subst h
      exact .inl rfl
    · subst h
      rw [h']
      exact .inr ⟨rfl, fun _ => .inr rfl⟩
    · rw [h]
      subst h1
      refine .inr ?_
      cases o with
      | none => exact ⟨rfl, fun h => by simp at h⟩
      | some b =>
        cases b with
        | false => exact absurd rfl h2
        | true => exact ⟨rfl, fun _ => .inl (h3 (by simp))⟩

variable {env : Env} {items : List Item}

theorem errors_same (j : Json) (st : St) : Same (errorsSeed env items j st).2 st := by
  unfold errorsSeed
  split
  · exact .refl _
  · split
    · exact .refl _
    · refine ⟨rfl, rfl, rfl, ?_⟩
      simp only [List.filter_append, List.append_right_eq_self]
      rw [List.filter_eq_nil_iff]
      intro e he
      obtain ⟨x, _, rfl⟩ := List.mem_map.1 he
      simp [ofSubgraph]
  · exact .refl _

theorem loop_taken (D : Json → St → Bool × St) : ∀ (es : Entries) (seenE : Bool) (s : Status) (st : St),
    s.dataNull.isSome = true → Same (responseLoop D (errorsSeed env items) es seenE s st).2 st ∧
      ∀ s', (responseLoop D (errorsSeed env items) es seenE s st).1 = some s' → s'.dataNull.isSome = true
  | .nil, seenE, s, st, h => by
    simp only [responseLoop]
    refine ⟨.refl _, fun s' h' => ?_⟩
    rw [← Option.some.inj h']
    exact h
  | .bad, seenE, s, st, h => by
    simp only [responseLoop]
    exact ⟨.refl _, fun s' h' => by simp at h'⟩
  | .cons k j es, seenE, s, st, h => by
    rw [responseLoop]
    split
    · simp only [h, if_true]
      exact ⟨.refl _, fun s' h' => by simp at h'⟩
    · split
      · split
        · exact ⟨.refl _, fun s' h' => by simp at h'⟩
        · have hs := errors_same (env := env) (items := items) j st
          split
          · next n st1 heq =>
            rw [heq] at hs
            have := loop_taken D es true { s with errors := n } st1 h
            exact ⟨this.1.trans hs, this.2⟩
          · next heq =>
            rw [heq] at hs
            exact ⟨hs, fun s' h' => by simp at h'⟩
      · split
        · exact ⟨.refl _, fun s' h' => by simp at h'⟩
        · exact loop_taken D es seenE s st h

theorem loop_open (D : Json → St → Bool × St) : ∀ (es : Entries) (seenE : Bool) (s : Status) (st : St),
    s.dataNull = none →
    (Same (responseLoop D (errorsSeed env items) es seenE s st).2 st ∧
      ∀ s', (responseLoop D (errorsSeed env items) es seenE s st).1 = some s' → s'.dataNull = none ∧ es.lookup dataKey = none) ∨
    ∃ j s1, es.lookup dataKey = some j ∧ Same s1 st ∧
      Same (responseLoop D (errorsSeed env items) es seenE s st).2 (D j s1).2 ∧
      ∀ s', (responseLoop D (errorsSeed env items) es seenE s st).1 = some s' → s'.dataNull.isSome = true ∧ (D j s1).1 = true
  | .nil, seenE, s, st, h => by
    simp only [responseLoop, Entries.lookup]
    refine .inl ⟨.refl _, fun s' h' => ⟨?_, trivial⟩⟩
    rw [← Option.some.inj h']
    exact h
  | .bad, seenE, s, st, h => by
    simp only [responseLoop]
    exact .inl ⟨.refl _, fun s' h' => by simp at h'⟩
  | .cons k j es, seenE, s, st, h => by
    rw [responseLoop, Entries.lookup]
    split
    · refine .inr ⟨j, st, rfl, .refl _, ?_⟩
      simp only [h, Option.isSome_none, Bool.false_eq_true, if_false]
      cases hd : D j st with
      | mk b s1 =>
        cases b with
        | false => exact ⟨.refl _, fun s' h' => by simp at h'⟩
        | true =>
          have := loop_taken (env := env) (items := items) D es seenE { s with dataNull := some (isNull j) } s1 rfl
          exact ⟨this.1, fun s' h' => ⟨this.2 s' h', rfl⟩⟩
    · split
      · split
        · exact .inl ⟨.refl _, fun s' h' => by simp at h'⟩
        · have hs := errors_same (env := env) (items := items) j st
          split
          · next n st1 heq =>
            rw [heq] at hs
            rcases loop_open D es true { s with errors := n } st1 h with ⟨h1, h2⟩ | ⟨j', s1, h1, h2, h3⟩
            · exact .inl ⟨h1.trans hs, h2⟩
            · exact .inr ⟨j', s1, h1, h2.trans hs, h3⟩
          · next heq =>
            rw [heq] at hs
            exact .inl ⟨hs, fun s' h' => by simp at h'⟩
      · split
        · exact .inl ⟨.refl _, fun s' h' => by simp at h'⟩
        · exact loop_open D es seenE s st h

/-- The response is read without touching the objects, or the list of entities is read once. -/
theorem response_ran (inner : Json → St → Bool × St) (body : Json) (st : St) :
    let r := responseSeed (dataSeed inner) (errorsSeed env items) body st
    (Same r.2 st ∧ r.1 = none) ∨
    ∃ s1, Same s1 st ∧ Same r.2 (inner (bodyValue body) s1).2 ∧
      (r.1 ≠ none → (inner (bodyValue body) s1).1 = true ∨ bodyValue body = .list .nil) := by
  simp only
  unfold responseSeed
  cases body with
  | map es =>
    have h := loop_open (env := env) (items := items) (dataSeed inner) es false {} st rfl
    simp only [bodyValue]
    generalize responseLoop (dataSeed inner) (errorsSeed env items) es false {} st = r at h
    obtain ⟨o, s⟩ := r
    simp only at h
    rcases h with ⟨h1, h2⟩ | ⟨j, s1, h1, h2, h3, h4⟩
    · cases o with
      | none => exact .inl ⟨h1, rfl⟩
      | some s' =>
        obtain ⟨h3, h4⟩ := h2 s' rfl
        refine .inr ⟨s, h1, ?_⟩
        rw [h4]
        simp only [h3, Option.isNone_none, if_true]
        exact ⟨.refl _, fun _ => .inr rfl⟩
    · rw [h1]
      simp only [Option.map_some, Option.getD_some]
      rcases data_ran inner j s1 with hd | ⟨hd, hd'⟩
      · rw [hd] at h3 h4
        cases o with
        | none => exact .inl ⟨h3.trans h2, rfl⟩
        | some s' => exact absurd (h4 s' rfl).2 (by simp)
      · rw [hd] at h3
        cases o with
        | none => exact .inr ⟨s1, h2, h3, fun h => absurd rfl h⟩
        | some s' =>
          obtain ⟨h5, h6⟩ := h4 s' rfl
          refine .inr ⟨s1, h2, ?_, fun _ => hd' h6⟩
          have : s'.dataNull.isNone = false := by
            cases h : s'.dataNull <;> simp_all
          simp only [this, Bool.false_eq_true, if_false]
          exact h3
  | null => exact .inl ⟨.refl _, rfl⟩
  | bad => exact .inl ⟨.refl _, rfl⟩
  | leaf l => exact .inl ⟨.refl _, rfl⟩
  | list js => exact .inl ⟨.refl _, rfl⟩

end Verif.Entities
