import Verif.Entities.Good

/-!
Reading the list of entities.
-/
namespace Verif.Entities

open Verif.NullProp

variable {hid : Nat → Bool} {shape : RootShape}

/-! ## Objects without an entity -/

theorem empties_spec (rs : List Ref) : ∀ st : St, (st.empties shape rs).part = giveAll hid shape st.part (without rs) ∧
    (st.empties shape rs).errors = st.errors ∧ (st.empties shape rs).todo = st.todo ∧
    (st.empties shape rs).stored = st.stored ∧ (st.empties shape rs).part.bubbling = st.part.bubbling := by
  induction rs with
  | nil => exact fun st => ⟨rfl, rfl, rfl, rfl, rfl⟩
  | cons r rs ih =>
    intro st
    have := ih (st.empty shape r)
    refine ⟨this.1, this.2.1, this.2.2.1, this.2.2.2.1, this.2.2.2.2.trans ?_⟩
    exact emptyUpdate_bubbling _ _ _

theorem empties_part (st : St) (rs : List Ref) : (st.empties shape rs).part = giveAll hid shape st.part (without rs) :=
  (empties_spec rs st).1

theorem empties_flag (st : St) (rs : List Ref) : (st.empties shape rs).part.bubbling = st.part.bubbling :=
  (empties_spec (hid := fun _ => false) rs st).2.2.2.2

theorem error_spec (st : St) (mk : List VId → Err) (r : Ref) :
    (st.error shape mk r).errors = st.errors ++ (if silent shape then [] else [mk r.path]) ∧
    (st.error shape mk r).todo = st.todo ∧ (st.error shape mk r).stored = st.stored := by
  unfold St.error St.empty silent
  cases h : shape.onError <;> simp

theorem errorAll_part (st : St) (mk : List VId → Err) (rs : List Ref) :
    (st.errorAll shape mk rs).part = giveAll hid shape st.part (without rs) := by
  cases rs with
  | nil => rfl
  | cons r rs =>
    rw [St.errorAll, empties_part (hid := hid), error_part]
    rfl

theorem errorAll_errors (st : St) (mk : List VId → Err) (rs : List Ref) : (st.errorAll shape mk rs).errors =
    st.errors ++ (if silent shape then [] else (rs.take 1).map fun r => mk r.path) := by
  cases rs with
  | nil => simp [St.errorAll]
  | cons r rs =>
    rw [St.errorAll, (empties_spec (hid := fun _ => false) rs _).2.1, (error_spec st mk r).1]
    simp

theorem errorAll_todo (st : St) (mk : List VId → Err) (rs : List Ref) : (st.errorAll shape mk rs).todo = st.todo ∧
    (st.errorAll shape mk rs).stored = st.stored := by
  cases rs with
  | nil => exact ⟨rfl, rfl⟩
  | cons r rs =>
    have := empties_spec (hid := fun _ => false) (shape := shape) rs (st.error shape mk r)
    rw [St.errorAll, this.2.2.1, this.2.2.2.1]
    exact (error_spec st mk r).2

/-! ## What each object got -/

/-- Objects that were given an entity were given the one at their position. -/
def Sound (refs : List Ref) (js : List Json) (log : List (Ref × Answer)) : Prop :=
  ∀ r a, (r, a) ∈ log → r ∈ refs ∧ ∀ j, a = .entity j → ∃ i : Nat, refs[i]? = some r ∧ js[i]? = some j

theorem Sound.append {refs : List Ref} {js : List Json} {l1 l2 : List (Ref × Answer)} (h1 : Sound refs js l1)
    (h2 : Sound refs js l2) : Sound refs js (l1 ++ l2) := by
  intro r a h
  rcases List.mem_append.1 h with h | h
  · exact h1 r a h
  · exact h2 r a h

theorem sound_without {refs rs : List Ref} {js : List Json} (h : ∀ r ∈ rs, r ∈ refs) : Sound refs js (without rs) := by
  intro r a hm
  obtain ⟨r', h', heq⟩ := List.mem_map.1 hm
  obtain ⟨rfl, rfl⟩ := Prod.mk.injEq .. ▸ heq
  exact ⟨h _ h', fun j hj => nomatch hj⟩

theorem Sound.cons {r : Ref} {refs : List Ref} {j : Json} {js : List Json} {log : List (Ref × Answer)}
    (h : Sound refs js log) : Sound (r :: refs) (j :: js) ((r, .entity j) :: log) := by
  intro r' a hm
  rcases List.mem_cons.1 hm with heq | hm
  · obtain ⟨rfl, rfl⟩ := Prod.mk.injEq .. ▸ heq
    refine ⟨by simp, fun j' hj => ⟨0, rfl, ?_⟩⟩
    cases hj
    rfl
  · obtain ⟨h1, h2⟩ := h r' a hm
    refine ⟨by simp [h1], fun j' hj => ?_⟩
    obtain ⟨i, hi⟩ := h2 j' hj
    exact ⟨i + 1, by simpa using hi⟩

theorem complete_without {rs : List Ref} : Complete rs (without rs) := by
  intro r h
  exact ⟨.nothing, List.mem_map.2 ⟨r, h, rfl⟩, by simp⟩

theorem Complete.append_left {rs : List Ref} {l1 : List (Ref × Answer)} (l2 : List (Ref × Answer)) (h : Complete rs l1) :
    Complete rs (l1 ++ l2) := by
  intro r hr
  obtain ⟨a, ha, hn⟩ := h r hr
  exact ⟨a, List.mem_append.2 (.inl ha), hn⟩

theorem Complete.append_right {rs : List Ref} (l1 : List (Ref × Answer)) {l2 : List (Ref × Answer)} (h : Complete rs l2) :
    Complete rs (l1 ++ l2) := by
  intro r hr
  obtain ⟨a, ha, hn⟩ := h r hr
  exact ⟨a, List.mem_append.2 (.inr ha), hn⟩

theorem Complete.cons {r : Ref} {a : Answer} {rs : List Ref} {log : List (Ref × Answer)} (ha : a ≠ .again)
    (h : Complete rs log) : Complete (r :: rs) ((r, a) :: log) := by
  intro r' hr
  rcases List.mem_cons.1 hr with rfl | hr
  · exact ⟨a, by simp, ha⟩
  · obtain ⟨a', ha', hn⟩ := h r' hr
    exact ⟨a', by simp [ha'], hn⟩

/-- After a failure at an object: what it got, and nothing for the others. -/
theorem fail_log (st : St) (r : Ref) (rs : List Ref) : ∃ a, (a = .again → st.part.bubbling = true) ∧ (∀ j, a ≠ .entity j) ∧
    calm ((st.fail shape r).empties shape rs).part = calm (giveAll hid shape st.part ((r, a) :: without rs)) ∧
    ((st.fail shape r).empties shape rs).part.bubbling = true := by
  cases hb : st.part.bubbling with
  | true =>
    refine ⟨.again, fun _ => rfl, by simp, ?_, ?_⟩
    · rw [empties_part (hid := hid), fail_part, if_pos hb]
      rfl
    · rw [empties_flag, fail_flag]
  | false =>
    refine ⟨.nothing, by simp, by simp, ?_, ?_⟩
    · rw [empties_part (hid := hid), fail_part, if_neg (by simp [hb])]
      exact giveAll_calm _ (calm_empty _ _ rfl)
    · rw [empties_flag, fail_flag]

/-- What both ways of reading the list do: `batch` and `batchRaw`. -/
structure Ran (hid : Nat → Bool) (shape : RootShape) (refs : List Ref) (js : List Json) (st : St) (b : Bool) (st' : St) : Prop where
  log : ∃ log, calm st'.part = calm (giveAll hid shape st.part log) ∧ Sound refs js log ∧
    (st.part.bubbling = false → Complete refs log)
  flag : b = true → st.part.bubbling = false → st'.part.bubbling = false
  todo : st'.todo = st.todo

theorem fail_todo (st : St) (r : Ref) (rs : List Ref) : ((st.fail shape r).empties shape rs).todo = st.todo := by
  rw [(empties_spec (hid := fun _ => false) rs _).2.2.1]
  unfold St.fail
  split
  · rfl
  · exact (error_spec _ _ _).2.1

theorem fail_ran {r : Ref} {rs : List Ref} {js : List Json} (st : St) :
    Ran hid shape (r :: rs) js st false ((st.fail shape r).empties shape rs) := by
  obtain ⟨a, h1, h2, h3, h4⟩ := fail_log (hid := hid) (shape := shape) st r rs
  refine ⟨⟨_, h3, ?_, ?_⟩, by simp, fail_todo _ _ _⟩
  · intro r' a' hm
    rcases List.mem_cons.1 hm with heq | hm
    · obtain ⟨rfl, rfl⟩ := Prod.mk.injEq .. ▸ heq
      exact ⟨by simp, fun j hj => absurd hj (h2 j)⟩
    · exact sound_without (by intro r hr; simp [hr]) r' a' hm
  · intro hb
    refine Complete.cons ?_ complete_without
    intro ha
    rw [h1 ha] at hb
    simp at hb

theorem short_ran {r : Ref} {rs : List Ref} (st : St) (mk : List VId → Err) :
    Ran hid shape (r :: rs) [] st true ((st.error shape mk r).empties shape rs) := by
  refine ⟨⟨without (r :: rs), ?_, sound_without (fun _ h => h), fun _ => complete_without⟩, ?_, ?_⟩
  · rw [empties_part (hid := hid), error_part]
    rfl
  · intro _ h
    rw [empties_flag, error_part, emptyUpdate_bubbling, h]
  · rw [(empties_spec (hid := fun _ => false) rs _).2.2.1]
    exact (error_spec _ _ _).2.1

theorem objectSeed_todo (r : Ref) (j : Json) (st : St) : (objectSeed hid shape r j st).2.todo = st.todo ∧
    (objectSeed hid shape r j st).2.stored = st.stored := by
  unfold objectSeed
  split
  · exact ⟨rfl, rfl⟩
  · exact ⟨rfl, rfl⟩
  · exact (error_spec _ _ _).2
  · unfold St.fail
    split
    · exact ⟨rfl, rfl⟩
    · exact (error_spec _ _ _).2

/-- Reading one object, then the rest. -/
theorem Ran.step {r : Ref} {rs : List Ref} {j : Json} {js : List Json} {st : St} {s2 st' : St} {b : Bool}
    (hs : (objectSeed hid shape r j st).2.part = s2.part) (ht : (objectSeed hid shape r j st).2.todo = s2.todo)
    (ho : (objectSeed hid shape r j st).1 = true)
    (h : Ran hid shape rs js s2 b st') : Ran hid shape (r :: rs) (j :: js) st b st' := by
  have hf : s2.part.bubbling = false := by rw [← hs, objectSeed_flag, ho]; rfl
  obtain ⟨log, h1, h2, h3⟩ := h.log
  refine ⟨⟨(r, .entity j) :: log, ?_, h2.cons, fun _ => Complete.cons (by simp) (h3 hf)⟩, fun hb _ => h.flag hb hf, ?_⟩
  · rw [h1, ← hs, objectSeed_part]
    rfl
  · rw [h.todo, ← ht, (objectSeed_todo _ _ _).1]

theorem Ran.broke {r : Ref} {rs : List Ref} {j : Json} {js : List Json} {st : St}
    (ho : (objectSeed hid shape r j st).1 = false) :
    Ran hid shape (r :: rs) (j :: js) st false (((objectSeed hid shape r j st).2.fail shape r).empties shape rs) := by
  obtain ⟨a, h1, h2, h3, h4⟩ := fail_log (hid := hid) (shape := shape) (objectSeed hid shape r j st).2 r rs
  refine ⟨⟨(r, .entity j) :: (r, a) :: without rs, ?_, ?_, ?_⟩, by simp, ?_⟩
  · rw [h3, objectSeed_part]
    rfl
  · intro r' a' hm
    rcases List.mem_cons.1 hm with heq | hm
    · obtain ⟨rfl, rfl⟩ := Prod.mk.injEq .. ▸ heq
      refine ⟨by simp, fun j' hj => ⟨0, rfl, ?_⟩⟩
      cases hj
      rfl
    · rcases List.mem_cons.1 hm with heq | hm
      · obtain ⟨rfl, rfl⟩ := Prod.mk.injEq .. ▸ heq
        exact ⟨by simp, fun j hj => absurd hj (h2 j)⟩
      · exact sound_without (by intro r hr; simp [hr]) r' a' hm
  · intro _
    refine Complete.cons (by simp) ?_
    exact Complete.append_right [(r, a)] complete_without
  · rw [fail_todo, (objectSeed_todo _ _ _).1]

theorem batch_ran : ∀ (refs : List Ref) (js : Jsons) (st : St),
    Ran hid shape refs (toList js) st (batch hid shape refs js st).1 (batch hid shape refs js st).2
  | [], js, st => ⟨⟨[], rfl, (by intro r a h; cases h), fun _ => (by intro r h; cases h)⟩, fun _ h => h, rfl⟩
  | r :: rs, .nil, st => short_ran st .invalid
  | r :: rs, .bad, st => fail_ran st
  | r :: rs, .cons j js, st => by
    rw [batch]
    cases heq : objectSeed hid shape r j st with
    | mk b s =>
      cases b with
      | true =>
        refine Ran.step (s2 := s) ?_ ?_ ?_ (batch_ran rs js s)
        · rw [heq]
        · rw [heq]
        · rw [heq]
      | false =>
        have := Ran.broke (hid := hid) (shape := shape) (r := r) (rs := rs) (j := j) (js := toList js) (st := st) (by rw [heq])
        rw [heq] at this
        exact this

theorem batchRaw_ran : ∀ (is : List Item) (js : Jsons) (st : St),
    Ran hid shape (is.map (·.ref)) (toList js) st (batchRaw hid shape is js st).1 (batchRaw hid shape is js st).2
  | [], js, st => ⟨⟨[], rfl, (by intro r a h; cases h), fun _ => (by intro r h; cases h)⟩, fun _ h => h, rfl⟩
  | i :: is, .nil, st => short_ran st .invalid
  | i :: is, .bad, st => fail_ran st
  | i :: is, .cons j js, st => by
    rw [batchRaw]
    split
    · exact fail_ran st
    · cases heq : objectSeed hid shape i.ref j st with
      | mk b s =>
        cases b with
        | true =>
          refine Ran.step (s2 := { s with stored := s.stored ++ [(i.repr, j)] }) ?_ ?_ ?_ (batchRaw_ran is js _)
          · rw [heq]
          · rw [heq]
          · rw [heq]
        | false =>
          have := Ran.broke (hid := hid) (shape := shape) (r := i.ref) (rs := is.map (·.ref)) (j := j) (js := toList js) (st := st) (by rw [heq])
          rw [heq] at this
          exact this

/-! ## Entities of the cache -/

theorem hits_spec (env : Env) : ∀ (hits : List (Ref × Json)) (st : St),
    (ingestHits env shape hits st).part = giveAll env.hid shape st.part (found hits) ∧
    (ingestHits env shape hits st).todo = st.todo ∧ (ingestHits env shape hits st).stored = st.stored
  | [], st => ⟨rfl, rfl, rfl⟩
  | (r, j) :: hits, st => by
    have hp := objectSeed_part (hid := env.hid) (shape := shape) r j st
    have hf := objectSeed_flag (hid := env.hid) (shape := shape) r j st
    have ht := objectSeed_todo (hid := env.hid) (shape := shape) r j st
    have hc : ∀ p, giveAll env.hid shape p (found ((r, j) :: hits)) = giveAll env.hid shape (rootSeed env.hid shape r j p) (found hits) :=
      fun _ => rfl
    rw [ingestHits, hc, ← hp]
    cases heq : objectSeed env.hid shape r j st with
    | mk b s =>
      rw [heq] at hp hf ht
      simp only at hp hf ht
      cases b with
      | true =>
        have := hits_spec env hits s
        rw [ht.1, ht.2] at this
        exact this
      | false =>
        have := hits_spec env hits s
        rw [ht.1, ht.2] at this
        simp only [hf, Bool.not_false, if_true]
        exact this

theorem hits_flag (env : Env) : ∀ (hits : List (Ref × Json)) (st : St), (∀ h ∈ hits, h.2.Readable) →
    st.part.bubbling = false → (ingestHits env shape hits st).part.bubbling = false
  | [], st, _, hf => hf
  | (r, j) :: hits, st, h, _ => by
    have ho := objectSeed_total (hid := env.hid) (shape := shape) (r := r) (j := j) st (h (r, j) (by simp))
    have hf := objectSeed_flag (hid := env.hid) (shape := shape) r j st
    rw [ingestHits]
    cases heq : objectSeed env.hid shape r j st with
    | mk b s =>
      rw [heq] at ho hf
      simp only at ho hf
      subst ho
      exact hits_flag env hits s (fun h' hm => h h' (by simp [hm])) hf

/-! ## Readable lists -/

theorem objectSeed_errors {r : Ref} {j : Json} (st : St) (h : j.Readable) : (objectSeed hid shape r j st).2.errors =
    st.errors ++ (if silent shape then [] else if odd j then [.invalid r.path] else []) := by
  unfold objectSeed
  cases j with
  | map es =>
    have hv : ∃ o p, readObject hid shape r (.map es) { st.part with bubbling := false } = (some o, p) ∧ o ≠ .error ∧ o ≠ .null := by
      unfold readObject
      simp only
      split
      · next heq => exact absurd (congrArg (·.1) heq) (visit_total es _ _ _ _ _ _ _ h)
      · next F d p heq =>
        refine ⟨_, _, rfl, ?_⟩
        unfold finishMap
        simp only
        split
        · simp
        · simp [objTy]
    obtain ⟨o, p, ho, hn⟩ := hv
    rw [ho]
    cases o with
    | some t F => simp [odd]
    | error => exact absurd rfl hn.1
    | null => exact absurd rfl hn.2
  | null => simp [readObject, St.empty, odd]
  | bad => exact h.elim
  | leaf l =>
    simp only [readObject, odd, if_true]
    exact (error_spec _ _ _).1
  | list js =>
    simp only [readObject, Jsons.Readable.not_broken (js := js) h, odd, if_true]
    exact (error_spec _ _ _).1

theorem matched_cons (r : Ref) (rs : List Ref) (j : Json) (js : List Json) :
    matched (r :: rs) (j :: js) = (r, .entity j) :: matched rs js := by
  simp [matched, List.mapIdx_cons]

theorem matched_nil (rs : List Ref) : matched rs [] = without rs := by
  simp only [matched, without, List.getElem?_nil]
  exact List.mapIdx_eq_iff.2 (by intro i; simp)

theorem objectErrors_cons (r : Ref) (rs : List Ref) (j : Json) (js : List Json) :
    objectErrors (r :: rs) (j :: js) = (if odd j then [.invalid r.path] else []) ++ objectErrors rs js := by
  have h0 : wrong (j :: js) 0 = odd j := rfl
  have h1 : ∀ i, wrong (j :: js) (i + 1) = wrong js i := by
    intro i
    simp only [wrong, List.getElem?_cons_succ, List.length_cons]
    cases js[i]? <;> simp
  simp only [objectErrors, List.mapIdx_cons, List.flatten_cons, h0, h1]

theorem objectErrors_none (rs : List Ref) : (rs.mapIdx fun i r => if wrong [] (i + 1) then [Err.invalid r.path] else []).flatten = [] := by
  simp [wrong]

theorem objectErrors_nil (r : Ref) (rs : List Ref) : objectErrors (r :: rs) [] = [.invalid r.path] := by
  simp only [objectErrors, List.mapIdx_cons, List.flatten_cons, objectErrors_none]
  simp [wrong]

/-- What reading a list without broken elements does. -/
structure Read (hid : Nat → Bool) (shape : RootShape) (refs : List Ref) (js : List Json) (st : St) (res : Bool × St) : Prop where
  ok : res.1 = true
  part : res.2.part = giveAll hid shape st.part (matched refs js)
  errors : res.2.errors = st.errors ++ (if silent shape then [] else objectErrors refs js)

theorem short_read {r : Ref} {rs : List Ref} (st : St) :
    Read hid shape (r :: rs) [] st (true, ((st.error shape .invalid r).empties shape rs)) := by
  refine ⟨rfl, ?_, ?_⟩
  · rw [empties_part (hid := hid), error_part, matched_nil]
    rfl
  · rw [(empties_spec (hid := fun _ => false) rs _).2.1, (error_spec _ _ _).1, objectErrors_nil]

theorem Read.step {r : Ref} {rs : List Ref} {j : Json} {js : List Json} {st s2 : St} {res : Bool × St} (hj : j.Readable)
    (hs : (objectSeed hid shape r j st).2.part = s2.part) (he : (objectSeed hid shape r j st).2.errors = s2.errors)
    (h : Read hid shape rs js s2 res) : Read hid shape (r :: rs) (j :: js) st res := by
  refine ⟨h.ok, ?_, ?_⟩
  · rw [h.part, ← hs, objectSeed_part, matched_cons]
    rfl
  · rw [h.errors, ← he, objectSeed_errors st hj, objectErrors_cons]
    cases silent shape <;> simp

theorem batch_read : ∀ (refs : List Ref) (js : Jsons) (st : St), js.Readable →
    Read hid shape refs (toList js) st (batch hid shape refs js st) ∧ (batch hid shape refs js st).2.stored = st.stored
  | [], js, st, h => by
    rw [batch]
    refine ⟨⟨by simp [h.not_broken], rfl, ?_⟩, rfl⟩
    cases silent shape <;> simp [objectErrors]
  | r :: rs, .nil, st, _ => ⟨short_read st, by
      rw [batch, (empties_spec (hid := fun _ => false) rs _).2.2.2.1]; exact (error_spec _ _ _).2.2⟩
  | r :: rs, .bad, st, h => h.elim
  | r :: rs, .cons j js, st, h => by
    have ho := objectSeed_total (hid := hid) (shape := shape) (r := r) (j := j) st h.1
    have ht := objectSeed_todo (hid := hid) (shape := shape) r j st
    rw [batch]
    cases heq : objectSeed hid shape r j st with
    | mk b s =>
      rw [heq] at ho ht
      simp only at ho
      subst ho
      have := batch_read rs js s h.2
      refine ⟨Read.step h.1 (s2 := s) ?_ ?_ this.1, this.2.trans ht.2⟩
      · rw [heq]
      · rw [heq]

theorem batchRaw_read : ∀ (is : List Item) (js : Jsons) (st : St), js.Readable →
    Read hid shape (is.map (·.ref)) (toList js) st (batchRaw hid shape is js st) ∧
    (batchRaw hid shape is js st).2.stored = st.stored ++ (is.map (·.repr)).zip (toList js)
  | [], js, st, h => by
    rw [batchRaw]
    refine ⟨⟨by simp [h.not_broken], rfl, ?_⟩, by simp⟩
    cases silent shape <;> simp [objectErrors]
  | i :: is, .nil, st, _ => ⟨short_read st, by
      rw [batchRaw, (empties_spec (hid := fun _ => false) _ _).2.2.2.1, (error_spec _ _ _).2.2]; simp [toList]⟩
  | i :: is, .bad, st, h => h.elim
  | i :: is, .cons j js, st, h => by
    have ho := objectSeed_total (hid := hid) (shape := shape) (r := i.ref) (j := j) st h.1
    have ht := objectSeed_todo (hid := hid) (shape := shape) i.ref j st
    rw [batchRaw, if_neg (by simp [Json.Readable.not_broken h.1])]
    cases heq : objectSeed hid shape i.ref j st with
    | mk b s =>
      rw [heq] at ho ht
      simp only at ho
      subst ho
      have := batchRaw_read is js { s with stored := s.stored ++ [(i.repr, j)] } h.2
      refine ⟨Read.step h.1 (s2 := { s with stored := s.stored ++ [(i.repr, j)] }) ?_ ?_ this.1, ?_⟩
      · rw [heq]
      · rw [heq]
      · rw [this.2]
        have := ht.2
        simp only at this
        simp [this, toList]

theorem hits_errors (env : Env) : ∀ (hits : List (Ref × Json)) (st : St), (∀ h ∈ hits, h.2.Readable) →
    (ingestHits env shape hits st).errors = st.errors ++
      (if silent shape then [] else ((hits.filter fun h => odd h.2).map fun h => .invalid h.1.path))
  | [], st, _ => by cases silent shape <;> simp [ingestHits]
  | (r, j) :: hits, st, h => by
    have ho := objectSeed_total (hid := env.hid) (shape := shape) (r := r) (j := j) st (h (r, j) (by simp))
    have he := objectSeed_errors (hid := env.hid) (shape := shape) (r := r) (j := j) st (h (r, j) (by simp))
    rw [ingestHits]
    cases heq : objectSeed env.hid shape r j st with
    | mk b s =>
      rw [heq] at ho he
      simp only at ho he
      subst ho
      simp only
      rw [hits_errors env hits s (fun h' hm => h h' (by simp [hm])), he]
      cases silent shape
      · cases hd : odd j <;> simp [hd]
      · simp

end Verif.Entities
