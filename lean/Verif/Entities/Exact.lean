import Verif.Entities.Plan

/-!
Exactly what happens with a good answer.
-/
namespace Verif.Entities

open Verif.NullProp

variable {hid : Nat → Bool} {shape : RootShape} {env : Env} {items : List Item}

/-! ## The subgraph's errors are left alone while entities are read -/

theorem error_subgraph (st : St) (r : Ref) :
    (st.error shape .invalid r).errors.filter ofSubgraph = st.errors.filter ofSubgraph := by
  rw [(error_spec st _ r).1]
  cases silent shape <;> simp [ofSubgraph]

theorem empties_subgraph (st : St) (rs : List Ref) :
    (st.empties shape rs).errors.filter ofSubgraph = st.errors.filter ofSubgraph := by
  rw [(empties_spec (hid := fun _ => false) rs st).2.1]

theorem fail_subgraph (st : St) (r : Ref) :
    (st.fail shape r).errors.filter ofSubgraph = st.errors.filter ofSubgraph := by
  unfold St.fail
  split
  · rfl
  · exact error_subgraph _ _

theorem objectSeed_subgraph (r : Ref) (j : Json) (st : St) :
    (objectSeed hid shape r j st).2.errors.filter ofSubgraph = st.errors.filter ofSubgraph := by
  unfold objectSeed
  split
  · rfl
  · rfl
  · exact error_subgraph _ _
  · exact fail_subgraph _ _

theorem batch_subgraph : ∀ (refs : List Ref) (js : Jsons) (st : St),
    (batch hid shape refs js st).2.errors.filter ofSubgraph = st.errors.filter ofSubgraph
  | [], js, st => rfl
  | r :: rs, .nil, st => by rw [batch, empties_subgraph, error_subgraph]
  | r :: rs, .bad, st => by rw [batch, empties_subgraph, fail_subgraph]
  | r :: rs, .cons j js, st => by
    have h := objectSeed_subgraph (hid := hid) (shape := shape) r j st
    rw [batch]
    cases heq : objectSeed hid shape r j st with
    | mk b s =>
      rw [heq] at h
      cases b with
      | true => simp only; rw [batch_subgraph rs js s, h]
      | false => simp only; rw [empties_subgraph, fail_subgraph, h]

theorem batchRaw_subgraph : ∀ (is : List Item) (js : Jsons) (st : St),
    (batchRaw hid shape is js st).2.errors.filter ofSubgraph = st.errors.filter ofSubgraph
  | [], js, st => rfl
  | i :: is, .nil, st => by rw [batchRaw, empties_subgraph, error_subgraph]
  | i :: is, .bad, st => by rw [batchRaw, empties_subgraph, fail_subgraph]
  | i :: is, .cons j js, st => by
    have h := objectSeed_subgraph (hid := hid) (shape := shape) i.ref j st
    rw [batchRaw]
    split
    · rw [empties_subgraph, fail_subgraph]
    cases heq : objectSeed hid shape i.ref j st with
    | mk b s =>
      rw [heq] at h
      cases b with
      | true => simp only; rw [batchRaw_subgraph is js _]; exact h
      | false => simp only; rw [empties_subgraph, fail_subgraph, h]

theorem listSeed_subgraph (j : Json) (s : St) :
    (listSeed hid shape j s).2.errors.filter ofSubgraph = s.errors.filter ofSubgraph := by
  unfold listSeed
  split
  · exact batch_subgraph _ _ _
  · exact batch_subgraph _ _ _
  · rfl

theorem rawListSeed_subgraph (j : Json) (s : St) :
    (rawListSeed hid shape j s).2.errors.filter ofSubgraph = s.errors.filter ofSubgraph := by
  unfold rawListSeed
  split
  · exact batchRaw_subgraph _ _ _
  · rfl

/-! ## Good answers -/

theorem bodyValue_good {body : Json} (h : Good body) :
    bodyValue body = .null ∨ ∃ js, bodyValue body = .list js ∧ js.Readable := by
  obtain ⟨hr, es, rfl, _, hd, _⟩ := h
  have hr : es.Readable := hr
  simp only [bodyValue]
  cases hl : es.lookup dataKey with
  | none => exact .inr ⟨.nil, rfl, trivial⟩
  | some d =>
    have hdr := lookup_readable hr hl
    cases d with
    | map ds =>
      simp only [Option.map_some, Option.getD_some, dataValue]
      cases hl' : ds.lookup entitiesKey with
      | none => exact .inr ⟨.nil, rfl, trivial⟩
      | some v =>
        have hvr := lookup_readable (es := ds) hdr hl'
        rcases (hd ds hl).2 v hl' with rfl | ⟨js, rfl⟩
        · exact .inl rfl
        · exact .inr ⟨js, rfl, hvr⟩
    | null => exact .inr ⟨.nil, rfl, trivial⟩
    | bad => exact .inr ⟨.nil, rfl, trivial⟩
    | leaf l => exact .inr ⟨.nil, rfl, trivial⟩
    | list js => exact .inr ⟨.nil, rfl, trivial⟩

theorem response_data {inner : Json → St → Bool × St} {body : Json} {st : St} {s : Status} {st' : St}
    (h : responseSeed (dataSeed inner) (errorsSeed env items) body st = (some s, st')) :
    s.dataNull.isSome = hasData body := by
  unfold responseSeed at h
  cases body with
  | map es =>
    have hl := loop_open (env := env) (items := items) (dataSeed inner) es false {} st rfl
    simp only at h
    split at h
    · simp at h
    · next s1 st1 heq =>
      simp only [Prod.mk.injEq, Option.some.injEq] at h
      obtain ⟨rfl, rfl⟩ := h
      rw [heq] at hl
      rcases hl with ⟨_, hl⟩ | ⟨j, s2, h1, _, _, h4⟩
      · rw [hasData, (hl _ rfl).1, (hl _ rfl).2]
        rfl
      · rw [hasData, h1, (h4 _ rfl).1]
        rfl
  | null => simp at h
  | bad => simp at h
  | leaf l => simp at h
  | list js => simp at h

/-- What is known after a good answer. -/
structure Done (env : Env) (shape : RootShape) (items : List Item) (body : Json) (st : St) (s : Status) (st' : St) : Prop where
  part : st'.part = giveAll env.hid shape st.part (matched (items.map (·.ref)) (elements body))
  own : st'.errors.filter (fun e => !ofSubgraph e) = st.errors.filter (fun e => !ofSubgraph e) ++
    (if silent shape then [] else objectErrors (items.map (·.ref)) (elements body))
  theirs : st'.errors.filter ofSubgraph = st.errors.filter ofSubgraph ++ (sentErrors body).map (placed env items)
  count : s.errors = (sentErrors body).length
  data : s.dataNull.isSome = hasData body

theorem objectErrors_own (rs : List Ref) (js : List Json) :
    (objectErrors rs js).filter (fun e => !ofSubgraph e) = objectErrors rs js := by
  rw [List.filter_eq_self]
  intro e he
  obtain ⟨l, hl, he⟩ := List.mem_flatten.1 he
  obtain ⟨i, hi, rfl⟩ := List.mem_mapIdx.1 hl
  split at he
  · simp only [List.mem_singleton] at he
    rw [he]
    rfl
  · simp at he

theorem response_done {inner : Json → St → Bool × St} {body : Json} {st : St}
    (hsub : ∀ j s, (inner j s).2.errors.filter ofSubgraph = s.errors.filter ofSubgraph) (hg : Good body)
    (hok : ∀ s, (inner (bodyValue body) s).1 = true)
    (hin : ∀ s, s.todo = items → Read env.hid shape (items.map (·.ref)) (elements body) s (inner (bodyValue body) s))
    (ht : st.todo = items) :
    ∃ s st', responseSeed (dataSeed inner) (errorsSeed env items) body st = (some s, st') ∧ Done env shape items body st s st' ∧
      ∃ s1, Same s1 st ∧ st'.stored = (inner (bodyValue body) s1).2.stored := by
  have htot := response_total (env := env) (items := items) st hg hok
  have hran := response_ran (env := env) (items := items) inner body st
  cases heq : responseSeed (dataSeed inner) (errorsSeed env items) body st with
  | mk o st' =>
    rw [heq] at htot hran
    cases o with
    | none => exact absurd rfl htot
    | some s =>
      refine ⟨s, st', rfl, ?_⟩
      have hs := response_subgraph hsub heq
      rcases hran with ⟨_, h⟩ | ⟨s1, h1, h2, _⟩
      · simp at h
      · have hr := hin s1 (h1.todo.trans ht)
        refine ⟨⟨?_, ?_, readErrors_good hg ▸ hs.1, readErrors_good hg ▸ hs.2, response_data heq⟩, s1, h1, h2.stored⟩
        · rw [h2.part, hr.part, h1.part]
        · have hf : ∀ l : List Err, (if silent shape then [] else l).filter (fun e => !ofSubgraph e) =
              if silent shape then [] else l.filter (fun e => !ofSubgraph e) := by
            intro l
            cases silent shape <;> rfl
          rw [h2.errors, hr.errors, List.filter_append, h1.errors, hf, objectErrors_own]

theorem plain_good {parents : List Ref} {body : Json} (st : St) (hg : Good body) :
    ∃ s, (ingestPlain env shape parents items (some body) st).1 = some s ∧
      Done env shape items body { st with part := { st.part with bubbling := false } } s
        (ingestPlain env shape parents items (some body) st).2 := by
  have key := response_done (env := env) (shape := shape) (items := items) (inner := listSeed env.hid shape) (body := body)
    (st := { st with part := { st.part with bubbling := false }, todo := items }) listSeed_subgraph hg ?_ ?_ rfl
  · obtain ⟨s, st', heq, hd, _⟩ := key
    refine ⟨s, ?_⟩
    rw [ingestPlain]
    simp only [heq]
    exact ⟨trivial, hd.part, hd.own, hd.theirs, hd.count, hd.data⟩
  · intro s
    rcases bodyValue_good hg with h | ⟨js, h, hr⟩
    · rw [h]
      exact (batch_read (hid := env.hid) (shape := shape) (s.todo.map (·.ref)) .nil s trivial).1.ok
    · rw [h]
      exact (batch_read (hid := env.hid) (shape := shape) (s.todo.map (·.ref)) js s hr).1.ok
  · intro s hs
    rw [elements_eq, ← hs]
    rcases bodyValue_good hg with h | ⟨js, h, hr⟩
    · rw [h]
      exact (batch_read (hid := env.hid) (shape := shape) (s.todo.map (·.ref)) .nil s trivial).1
    · rw [h]
      exact (batch_read (hid := env.hid) (shape := shape) (s.todo.map (·.ref)) js s hr).1

theorem bodyValue_listed {body : Json} (hg : Good body) (h : Listed body) :
    ∃ js, bodyValue body = .list js ∧ js.Readable := by
  rcases bodyValue_good hg with h' | h'
  · exfalso
    obtain ⟨_, es, rfl, _, hd, _⟩ := hg
    simp only [bodyValue] at h'
    cases hl : es.lookup dataKey with
    | none => simp [hl] at h'
    | some d =>
      rw [hl] at h'
      simp only [Option.map_some, Option.getD_some] at h'
      cases d with
      | map ds =>
        simp only [dataValue] at h'
        cases hl' : ds.lookup entitiesKey with
        | none => simp [hl'] at h'
        | some v =>
          rw [hl'] at h'
          simp only [Option.getD_some] at h'
          exact h es ds rfl hl (h' ▸ hl')
      | null => simp [dataValue] at h'
      | bad => simp [dataValue] at h'
      | leaf l => simp [dataValue] at h'
      | list js => simp [dataValue] at h'
  · exact h'

theorem cached_good {parents : List Ref} {hits : List (Ref × Json)} {body : Json} {cacheable : Bool} (st : St)
    (hg : Good body) (hl : Listed body) :
    ∃ s, (ingestCached env shape parents hits items (some body) cacheable st).1 = some s ∧
      Done env shape items body (ingestHits env shape hits { st with part := { st.part with bubbling := false } }) s
        (ingestCached env shape parents hits items (some body) cacheable st).2.1 ∧
      (ingestCached env shape parents hits items (some body) cacheable st).2.2 =
        if s.success && cacheable then (items.map (·.repr)).zip (elements body) else [] := by
  obtain ⟨js, hv, hr⟩ := bodyValue_listed hg hl
  have key := response_done (env := env) (shape := shape) (items := items) (inner := rawListSeed env.hid shape) (body := body)
    (st := { ingestHits env shape hits { st with part := { st.part with bubbling := false } } with todo := items, stored := [] })
    rawListSeed_subgraph hg ?_ ?_ rfl
  · obtain ⟨s, st', heq, hd, s1, h1, h2⟩ := key
    refine ⟨s, ?_⟩
    rw [ingestCached]
    simp only [heq]
    refine ⟨trivial, ⟨hd.part, hd.own, hd.theirs, hd.count, hd.data⟩, ?_⟩
    have ht : s1.todo = items := h1.todo
    have hst : s1.stored = [] := h1.stored
    have : st'.stored = (items.map (·.repr)).zip (elements body) := by
      rw [h2, hv, elements_eq, hv, rawListSeed, (batchRaw_read _ _ _ hr).2, hst, ht]
      rfl
    rw [this]
  · intro s
    rw [hv]
    exact (batchRaw_read (hid := env.hid) (shape := shape) s.todo js _ hr).1.ok
  · intro s hs
    rw [elements_eq, hv, ← hs]
    have := (batchRaw_read (hid := env.hid) (shape := shape) s.todo js { s with todo := [] } hr).1
    exact ⟨this.ok, this.part, this.errors⟩

/-! ## The cache -/

theorem batchRaw_stored : ∀ (is : List Item) (js : Jsons) (st : St), (batchRaw hid shape is js st).1 = true →
    (batchRaw hid shape is js st).2.stored = st.stored ++ (is.map (·.repr)).zip (toList js)
  | [], js, st, _ => by simp [batchRaw]
  | i :: is, .nil, st, _ => by
    rw [batchRaw, (empties_spec (hid := fun _ => false) _ _).2.2.2.1, (error_spec _ _ _).2.2]; simp [toList]
  | i :: is, .bad, st, h => by simp [batchRaw] at h
  | i :: is, .cons j js, st, h => by
    have ht := objectSeed_todo (hid := hid) (shape := shape) i.ref j st
    rw [batchRaw] at h ⊢
    split at h
    · simp at h
    · next hb =>
      rw [if_neg hb]
      cases heq : objectSeed hid shape i.ref j st with
      | mk b s =>
        rw [heq] at h ht
        cases b with
        | false => simp at h
        | true =>
          simp only at h ht ⊢
          rw [batchRaw_stored is js _ h]
          simp [ht.2, toList]

theorem cached_stored {parents : List Ref} {hits : List (Ref × Json)} {answer : Option Json} {cacheable : Bool} (st : St)
    (h : (ingestCached env shape parents hits items answer cacheable st).2.2 ≠ []) :
    cacheable = true ∧ ∃ body s, answer = some body ∧ (ingestCached env shape parents hits items answer cacheable st).1 = some s ∧
      s.errors = 0 ∧ hasData body = true ∧ sentErrors body = [] ∧
      (ingestCached env shape parents hits items answer cacheable st).2.2 = (items.map (·.repr)).zip (elements body) := by
  cases answer with
  | none => exact absurd rfl h
  | some body =>
    rw [ingestCached] at h ⊢
    simp only at h ⊢
    generalize hst : { ingestHits env shape hits { st with part := { st.part with bubbling := false } } with todo := items, stored := [] } = s0 at h ⊢
    have ht : s0.todo = items := by rw [← hst]
    have hs : s0.stored = [] := by rw [← hst]
    have hran := response_ran (env := env) (items := items) (rawListSeed env.hid shape) body s0
    cases heq : responseSeed (dataSeed (rawListSeed env.hid shape)) (errorsSeed env items) body s0 with
    | mk o s' =>
      rw [heq] at h hran
      cases o with
      | none => simp at h
      | some s =>
        simp only at h hran ⊢
        split at h
        · next hc =>
          rw [if_pos hc]
          simp only [Status.success, Bool.and_eq_true, beq_iff_eq] at hc
          have hd := response_data heq
          have hsub := response_count rawListSeed_subgraph heq
          refine ⟨hc.2, body, s, rfl, rfl, hc.1.2, ?_, ?_, ?_⟩
          · rw [← hd, hc.1.1]
          · have := hsub
            rw [hc.1.2] at this
            exact List.length_eq_zero_iff.1 this.symm
          · rcases hran with ⟨_, h'⟩ | ⟨s1, h1, h2, h3⟩
            · simp at h'
            · have h4 : ∃ js, bodyValue body = .list js ∧ (rawListSeed env.hid shape (bodyValue body) s1).1 = true := by
                rcases h3 (by simp) with h3 | h3
                · cases hb : bodyValue body with
                  | list js => exact ⟨js, rfl, hb ▸ h3⟩
                  | null => rw [hb] at h3; simp [rawListSeed] at h3
                  | bad => rw [hb] at h3; simp [rawListSeed] at h3
                  | leaf l => rw [hb] at h3; simp [rawListSeed] at h3
                  | map es => rw [hb] at h3; simp [rawListSeed] at h3
                · refine ⟨.nil, h3, ?_⟩
                  rw [h3, rawListSeed]
                  cases s1.todo <;> simp [batchRaw, Jsons.broken]
              obtain ⟨js, hv, h4⟩ := h4
              have := batchRaw_stored (hid := env.hid) (shape := shape) s1.todo js { s1 with todo := [] } (by rw [hv] at h4; exact h4)
              rw [h2.stored, elements_eq, hv, rawListSeed, this, h1.stored, h1.todo, hs, ht]
              rfl
        · simp at h

end Verif.Entities
