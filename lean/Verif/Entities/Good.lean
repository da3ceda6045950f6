import Verif.Entities.Loops

/-!
What is read of an answer that is as it should be, and the errors of the subgraph.
-/
namespace Verif.Entities

open Verif.NullProp

variable {env : Env} {items : List Item}

theorem lookup_none : ∀ {es : Entries} {k : Nat}, k ∉ es.keys → es.lookup k = none
  | .nil, k, _ => rfl
  | .bad, k, _ => rfl
  | .cons k' j es, k, h => by
    simp only [Entries.keys, List.mem_cons, not_or] at h
    rw [Entries.lookup, if_neg (fun h' => h.1 h'.symm)]
    exact lookup_none h.2

theorem entries_total {inner : Json → St → Bool × St} : ∀ {es : Entries} {taken : Bool} (st : St), es.Readable → es.keys.Nodup →
    (taken = true → entitiesKey ∉ es.keys) → (∀ v s, es.lookup entitiesKey = some v → (inner v s).1 = true) →
    (entriesLoop inner es taken st).1 ≠ none
  | .nil, taken, st, _, _, _, _ => by simp [entriesLoop]
  | .bad, taken, st, h, _, _, _ => h.elim
  | .cons k j es, taken, st, h, hn, ht, hi => by
    rw [entriesLoop]
    simp only [Entries.keys, List.nodup_cons] at hn
    split
    · next hk =>
      cases taken with
      | true => exact absurd (ht rfl) (by simp [Entries.keys, hk])
      | false =>
        simp only [Bool.false_eq_true, if_false]
        have := hi j st (by rw [Entries.lookup, if_pos hk])
        cases hin : inner j st with
        | mk b s =>
          rw [hin] at this
          simp only at this
          subst this
          refine entries_total s h.2.2 hn.2 (fun _ => hk ▸ hn.1) ?_
          intro v s hv
          rw [lookup_none (hk ▸ hn.1)] at hv
          exact absurd hv (by simp)
    · next hk =>
      rw [h.1.not_broken, if_neg (by simp)]
      refine entries_total st h.2.2 hn.2 ?_ ?_
      · intro h' hm
        exact ht h' (by simp [Entries.keys, hm])
      · intro v s hv
        exact hi v s (by rw [Entries.lookup, if_neg hk]; exact hv)

theorem data_total {inner : Json → St → Bool × St} {j : Json} (st : St) (h : j.Readable)
    (hn : ∀ ds, j = .map ds → ds.keys.Nodup) (hi : ∀ s, (inner (dataValue j) s).1 = true) :
    (dataSeed inner j st).1 = true := by
  unfold dataSeed
  cases j with
  | null => rfl
  | leaf l => rfl
  | bad => exact h.elim
  | list js => simp [Jsons.Readable.not_broken (js := js) h]
  | map es =>
    have := entries_total (inner := inner) (taken := false) st h (hn es rfl) (by simp) (by
      intro v s hv
      have := hi s
      rw [dataValue, hv] at this
      exact this)
    simp only
    split
    · next heq => rw [heq] at this; exact absurd rfl this
    · rfl
    · rfl

theorem response_loop_total {D : Json → St → Bool × St} : ∀ {es : Entries} {seenE : Bool} {s : Status} (st : St),
    es.Readable → es.keys.Nodup → (s.dataNull.isSome = true → dataKey ∉ es.keys) → (seenE = true → errorsKey ∉ es.keys) →
    (∀ v s, es.lookup dataKey = some v → (D v s).1 = true) →
    (∀ v, es.lookup errorsKey = some v → v = .null ∨ ∃ js, v = .list js ∧ parseErrors js ≠ none) →
    (responseLoop D (errorsSeed env items) es seenE s st).1 ≠ none
  | .nil, seenE, s, st, _, _, _, _, _, _ => by simp [responseLoop]
  | .bad, seenE, s, st, h, _, _, _, _, _ => h.elim
  | .cons k j es, seenE, s, st, h, hn, hs, ht, hi, he => by
    rw [responseLoop]
    simp only [Entries.keys, List.nodup_cons] at hn
    have hlook : ∀ {k' v}, k' ≠ k → es.lookup k' = some v → (Entries.cons k j es).lookup k' = some v := by
      intro k' v h1 h2
      rw [Entries.lookup, if_neg (fun h => h1 h.symm)]
      exact h2
    split
    · next hk =>
      have hd : s.dataNull.isSome = false := by
        cases h' : s.dataNull.isSome with
        | false => rfl
        | true => exact absurd (hs h') (by simp [Entries.keys, hk])
      rw [hd, if_neg (by simp)]
      have := hi j st (by rw [Entries.lookup, if_pos hk])
      cases hin : D j st with
      | mk b s1 =>
        rw [hin] at this
        simp only at this
        subst this
        refine response_loop_total s1 h.2.2 hn.2 (fun _ => hk ▸ hn.1) ?_ ?_ ?_
        · intro h' hm
          exact ht h' (by simp [Entries.keys, hm])
        · intro v s hv
          rw [lookup_none (hk ▸ hn.1)] at hv
          exact absurd hv (by simp)
        · intro v hv
          exact he v (hlook (by rw [hk]; decide) hv)
    · next hk =>
      split
      · next hk' =>
        have hd : seenE = false := by
          cases h' : seenE with
          | false => rfl
          | true => exact absurd (ht h') (by simp [Entries.keys, hk'])
        rw [hd, if_neg (by simp)]
        have hj := he j (by rw [Entries.lookup, if_pos hk'])
        have : (errorsSeed env items j st).1 ≠ none := by
          rcases hj with rfl | ⟨js, rfl, hp⟩
          · simp [errorsSeed]
          · unfold errorsSeed
            simp only
            split
            · next h' => exact absurd h' hp
            · simp
        split
        · next n s1 heq =>
          refine response_loop_total s1 h.2.2 hn.2 ?_ (fun _ => hk' ▸ hn.1) ?_ ?_
          · intro h' hm
            exact hs h' (by simp [Entries.keys, hm])
          · intro v s hv
            exact hi v s (hlook (by rw [hk']; decide) hv)
          · intro v hv
            rw [lookup_none (hk' ▸ hn.1)] at hv
            exact absurd hv (by simp)
        · next heq =>
          rw [heq] at this
          exact absurd rfl this
      · next hk' =>
        rw [h.1.not_broken, if_neg (by simp)]
        refine response_loop_total st h.2.2 hn.2 ?_ ?_ ?_ ?_
        · intro h' hm
          exact hs h' (by simp [Entries.keys, hm])
        · intro h' hm
          exact ht h' (by simp [Entries.keys, hm])
        · intro v s hv
          exact hi v s (hlook (fun h => hk h.symm) hv)
        · intro v hv
          exact he v (hlook (fun h => hk' h.symm) hv)

theorem lookup_readable : ∀ {es : Entries} {k : Nat} {v : Json}, es.Readable → es.lookup k = some v → v.Readable
  | .nil, k, v, _, h => by simp [Entries.lookup] at h
  | .bad, k, v, h, _ => h.elim
  | .cons k' j es, k, v, h, hv => by
    rw [Entries.lookup] at hv
    split at hv
    · rw [← Option.some.inj hv]
      exact h.1
    · exact lookup_readable h.2.2 hv

/-- What is left to find of an error. -/
theorem parseError_good : ∀ {ds : Entries} (message : Option Nat) (path : Option Json) (ext : Bool), ds.Readable → ds.keys.Nodup →
    (message.isSome = true → messageKey ∉ ds.keys) → (path.isSome = true → pathKey ∉ ds.keys) → (ext = true → extensionsKey ∉ ds.keys) →
    (∀ v, ds.lookup messageKey = some v → ∃ m, v = .leaf ⟨true, m⟩) →
    (∀ v, ds.lookup extensionsKey = some v → v = .null ∨ ∃ xs, v = .map xs) →
    (message.isSome = true ∨ (ds.lookup messageKey).isSome = true) →
    parseError ds message path ext = some
      ⟨match ds.lookup messageKey with
        | some (.leaf ⟨true, m⟩) => m
        | _ => message.getD 0, ((ds.lookup pathKey).or path).getD .null⟩
  | .nil, message, path, ext, _, _, _, _, _, _, _, h => by
    cases message with
    | none => simp [Entries.lookup] at h
    | some m => simp [parseError, Entries.lookup]
  | .bad, message, path, ext, h, _, _, _, _, _, _, _ => h.elim
  | .cons k j ds, message, path, ext, hr, hn, hm, hp, he, hml, hel, h => by
    simp only [Entries.keys, List.nodup_cons] at hn
    rw [parseError.eq_def]
    simp only
    have hk : ∀ {k' : Nat}, k' ∉ (Entries.cons k j ds).keys → k' ∉ ds.keys := by
      intro k' h hm
      exact h (by simp [Entries.keys, hm])
    have hl : ∀ {k' : Nat}, k ≠ k' → (Entries.cons k j ds).lookup k' = ds.lookup k' := by
      intro k' h
      rw [Entries.lookup, if_neg h]
    split
    · next hkm =>
      have hself : (Entries.cons k j ds).lookup messageKey = some j := by rw [Entries.lookup, if_pos hkm]
      have hmn : message = none := by
        cases message with
        | none => rfl
        | some m => exact absurd (by simp [Entries.keys, hkm]) (hm rfl)
      subst hmn
      obtain ⟨m, rfl⟩ := hml j hself
      simp only
      rw [parseError_good (some m) path ext hr.2.2 hn.2 (fun _ => hkm ▸ hn.1) (fun h => hk (hp h)) (fun h => hk (he h))]
      · rw [hself, hl (by rw [hkm]; decide), lookup_none (hkm ▸ hn.1)]
        rfl
      · intro v hv
        rw [lookup_none (hkm ▸ hn.1)] at hv
        exact absurd hv (by simp)
      · intro v hv
        exact hel v (by rw [hl (by rw [hkm]; decide)]; exact hv)
      · exact .inl rfl
    · next hkm =>
      split
      · next hkp =>
        have hself : (Entries.cons k j ds).lookup pathKey = some j := by rw [Entries.lookup, if_pos hkp]
        have hpn : path = none := by
          cases path with
          | none => rfl
          | some m => exact absurd (by simp [Entries.keys, hkp]) (hp rfl)
        subst hpn
        rw [hr.1.not_broken]
        simp only [Option.isSome_none, Bool.or_self, Bool.false_eq_true, if_false]
        rw [hl hkm] at hml h
        rw [hl (by rw [hkp]; decide)] at hel
        rw [parseError_good message (some j) ext hr.2.2 hn.2 (fun h => hk (hm h)) (fun _ => hkp ▸ hn.1) (fun h => hk (he h)) hml hel h]
        rw [hself, hl hkm, lookup_none (k := pathKey) (hkp ▸ hn.1)]
        simp
      · next hkp =>
        split
        · next hke =>
          have hself : (Entries.cons k j ds).lookup extensionsKey = some j := by rw [Entries.lookup, if_pos hke]
          have hen : ext = false := by
            cases ext with
            | false => rfl
            | true => exact absurd (by simp [Entries.keys, hke]) (he rfl)
          subst hen
          simp only [Bool.false_eq_true, if_false]
          have hrest : parseError ds message path true = some
              ⟨match (Entries.cons k j ds).lookup messageKey with
                | some (.leaf ⟨true, m⟩) => m
                | _ => message.getD 0, (((Entries.cons k j ds).lookup pathKey).or path).getD .null⟩ := by
            rw [hl hkm, hl hkp]
            rw [hl hkm] at hml h
            refine parseError_good message path true hr.2.2 hn.2 (fun h => hk (hm h)) (fun h => hk (hp h)) (fun _ => hke ▸ hn.1) hml ?_ h
            intro v hv
            rw [lookup_none (hke ▸ hn.1)] at hv
            exact absurd hv (by simp)
          rcases hel j hself with rfl | ⟨xs, rfl⟩
          · exact hrest
          · simp only
            rw [Entries.Readable.not_broken (es := xs) hr.1, if_neg (by simp)]
            exact hrest
        · next hke =>
          rw [hr.1.not_broken, if_neg (by simp), hl hkm, hl hkp]
          rw [hl hkm] at hml h
          rw [hl hke] at hel
          exact parseError_good message path ext hr.2.2 hn.2 (fun h => hk (hm h)) (fun h => hk (hp h)) (fun h => hk (he h)) hml hel h

theorem parseErrors_good : ∀ {js : Jsons}, js.Readable → (∀ e ∈ toList js, IsError e) →
    parseErrors js = some ((toList js).map errorOf)
  | .nil, _, _ => rfl
  | .bad, h, _ => h.elim
  | .cons j js, hr, h => by
    obtain ⟨ds, m, rfl, hn, hm, he⟩ := h j (by simp [toList])
    rw [parseErrors, parseErrors_good hr.2 (fun e he => h e (by simp [toList, he]))]
    have hr1 : ds.Readable := hr.1
    have := parseError_good (ds := ds) none none false hr1 hn (by simp) (by simp) (by simp)
      (by intro v hv; rw [hm] at hv; exact ⟨m, (Option.some.inj hv).symm⟩) he (.inr (by rw [hm]; rfl))
    rw [this]
    simp only [toList, List.map_cons, errorOf, Option.or_none, hm]

/-- A good answer is read to the end. -/
theorem response_total {inner : Json → St → Bool × St} {body : Json} (st : St) (h : Good body)
    (hi : ∀ s, (inner (bodyValue body) s).1 = true) :
    (responseSeed (dataSeed inner) (errorsSeed env items) body st).1 ≠ none := by
  obtain ⟨hr, es, rfl, hn, hd, he⟩ := h
  have hr : es.Readable := hr
  have := response_loop_total (env := env) (items := items) (D := dataSeed inner) (seenE := false) (s := {}) st hr hn (by simp)
    (by simp) (by
      intro v s hv
      refine data_total s (lookup_readable hr hv) (fun ds h => (hd ds (h ▸ hv)).1) ?_
      intro s
      have := hi s
      rw [bodyValue, hv] at this
      exact this) (by
      intro v hv
      rcases he v hv with h | ⟨js, h, hj⟩
      · exact .inl h
      · refine .inr ⟨js, h, ?_⟩
        subst h
        rw [parseErrors_good (lookup_readable hr hv) hj]
        simp)
  unfold responseSeed
  simp only
  split
  · next heq => rw [heq] at this; exact absurd rfl this
  · simp

/-! ## The errors of the subgraph -/

def errsOf (es : Entries) : List SubErr :=
  match es.lookup errorsKey with
  | some (.list js) => (parseErrors js).getD []
  | _ => []

/-- The same of the value of `errors`. -/
def errsIn : Json → List SubErr
  | .list js => (parseErrors js).getD []
  | _ => []

/-- The same of the response. -/
def readErrors : Json → List SubErr
  | .map es => errsOf es
  | _ => []

/-- The error as it is sent to the client. -/
def placed (env : Env) (items : List Item) (e : SubErr) : Err := .subgraph e.message (convertPath env.asU64 items e.path)

theorem errorsSeed_subgraph {j : Json} {st st' : St} {n : Nat} (h : errorsSeed env items j st = (some n, st')) :
    st'.errors.filter ofSubgraph = st.errors.filter ofSubgraph ++
      (errsIn j).map (placed env items) ∧
    n = (errsIn j).length := by
  unfold errorsSeed at h
  cases j with
  | null => simp only [Prod.mk.injEq, Option.some.injEq] at h; obtain ⟨rfl, rfl⟩ := h; simp [errsIn]
  | list js =>
    simp only at h
    split at h
    · simp at h
    · next es heq =>
      simp only [Prod.mk.injEq, Option.some.injEq] at h
      obtain ⟨rfl, rfl⟩ := h
      simp only [errsIn, heq, Option.getD_some, List.filter_append]
      refine ⟨?_, trivial⟩
      congr 1
      rw [List.filter_eq_self.2]
      · rfl
      · intro e he
        obtain ⟨x, _, rfl⟩ := List.mem_map.1 he
        rfl
  | bad => simp at h
  | leaf l => simp at h
  | map es => simp at h

theorem loop_subgraph {D : Json → St → Bool × St}
    (hD : ∀ j s, (D j s).2.errors.filter ofSubgraph = s.errors.filter ofSubgraph) :
    ∀ {es : Entries} {seenE : Bool} {s s' : Status} {st st' : St},
    responseLoop D (errorsSeed env items) es seenE s st = (some s', st') →
    if seenE then st'.errors.filter ofSubgraph = st.errors.filter ofSubgraph ∧ s'.errors = s.errors
    else st'.errors.filter ofSubgraph = st.errors.filter ofSubgraph ++ (errsOf es).map (placed env items) ∧
      (s.errors = 0 → s'.errors = (errsOf es).length)
  | .nil, seenE, s, s', st, st', h => by
    simp only [responseLoop, Prod.mk.injEq, Option.some.injEq] at h
    obtain ⟨rfl, rfl⟩ := h
    cases seenE <;> simp [errsOf, Entries.lookup]
  | .bad, seenE, s, s', st, st', h => by simp [responseLoop] at h
  | .cons k j es, seenE, s, s', st, st', h => by
    rw [responseLoop] at h
    have hsame : k ≠ errorsKey → errsOf (.cons k j es) = errsOf es := by
      intro hk
      unfold errsOf
      rw [Entries.lookup, if_neg hk]
    split at h
    · next hk =>
      rw [hsame (by rw [hk]; decide)]
      split at h
      · simp at h
      · split at h
        · next s1 heq =>
          have := loop_subgraph hD h
          have hd := hD j st
          rw [heq] at hd
          simp only at hd this
          rw [hd] at this
          exact this
        · simp at h
    · split at h
      · next hk' =>
        split at h
        · simp at h
        · next hse =>
          have hse : seenE = false := by simpa using hse
          subst hse
          simp only [Bool.false_eq_true, if_false]
          split at h
          · next n s1 heq =>
            have := loop_subgraph hD h
            simp only [if_true] at this
            have he := errorsSeed_subgraph heq
            rw [this.1, this.2]
            have : errsOf (.cons k j es) = errsIn j := by
              unfold errsOf
              rw [Entries.lookup, if_pos hk']
              cases j <;> rfl
            rw [this]
            exact ⟨he.1, fun _ => he.2⟩
          · simp at h
      · next hk' =>
        rw [hsame hk']
        split at h
        · simp at h
        · exact loop_subgraph hD h

theorem data_subgraph {inner : Json → St → Bool × St}
    (hi : ∀ j s, (inner j s).2.errors.filter ofSubgraph = s.errors.filter ofSubgraph) (j : Json) (s : St) :
    (dataSeed inner j s).2.errors.filter ofSubgraph = s.errors.filter ofSubgraph := by
  rcases data_ran inner j s with h | ⟨h, _⟩
  · rw [h]
  · rw [h, hi]

/-- If the response is read to the end, all errors of the subgraph are there. -/
theorem response_subgraph {inner : Json → St → Bool × St}
    (hi : ∀ j s, (inner j s).2.errors.filter ofSubgraph = s.errors.filter ofSubgraph) {body : Json} {st st' : St} {s : Status}
    (h : responseSeed (dataSeed inner) (errorsSeed env items) body st = (some s, st')) :
    st'.errors.filter ofSubgraph = st.errors.filter ofSubgraph ++ (readErrors body).map (placed env items) ∧
      s.errors = (readErrors body).length := by
  unfold responseSeed at h
  cases body with
  | map es =>
    simp only at h
    split at h
    · simp at h
    · next s1 st1 heq =>
      simp only [Prod.mk.injEq, Option.some.injEq] at h
      obtain ⟨rfl, rfl⟩ := h
      have := loop_subgraph (data_subgraph hi) heq
      simp only [Bool.false_eq_true, if_false] at this
      rw [readErrors]
      refine ⟨?_, this.2 trivial⟩
      split
      · rw [data_subgraph hi]
        exact this.1
      · exact this.1
  | null => simp at h
  | bad => simp at h
  | leaf l => simp at h
  | list js => simp at h

theorem readErrors_good {body : Json} (h : Good body) : readErrors body = sentErrors body := by
  obtain ⟨hr, es, rfl, _, _, he⟩ := h
  have hr : es.Readable := hr
  simp only [readErrors, errsOf, sentErrors]
  cases hl : es.lookup errorsKey with
  | none => rfl
  | some v =>
    rcases he v hl with rfl | ⟨js, rfl, hj⟩
    · rfl
    · have hjr : js.Readable := lookup_readable hr hl
      simp only
      rw [parseErrors_good hjr hj]
      rfl

/-- If the response is read to the end, the errors could be read. -/
theorem loop_parsed {D : Json → St → Bool × St} : ∀ {es : Entries} {seenE : Bool} {s s' : Status} {st st' : St},
    responseLoop D (errorsSeed env items) es seenE s st = (some s', st') →
    ∀ v, es.lookup errorsKey = some v → v = .null ∨ ∃ js, v = .list js ∧ parseErrors js ≠ none
  | .nil, seenE, s, s', st, st', h => by simp [Entries.lookup]
  | .bad, seenE, s, s', st, st', h => by simp [responseLoop] at h
  | .cons k j es, seenE, s, s', st, st', h => by
    intro v hv
    rw [responseLoop] at h
    rw [Entries.lookup] at hv
    split at h
    · next hk =>
      rw [if_neg (by rw [hk]; decide)] at hv
      split at h
      · simp at h
      · split at h
        · exact loop_parsed h v hv
        · simp at h
    · split at h
      · next hk' =>
        rw [if_pos hk'] at hv
        cases hv
        split at h
        · simp at h
        · split at h
          · next n s1 heq =>
            unfold errorsSeed at heq
            cases j with
            | null => exact .inl rfl
            | list js =>
              refine .inr ⟨js, rfl, ?_⟩
              intro hn
              simp [hn] at heq
            | bad => simp at heq
            | leaf l => simp at heq
            | map es => simp at heq
          · simp at h
      · next hk' =>
        rw [if_neg hk'] at hv
        split at h
        · simp at h
        · exact loop_parsed h v hv

theorem parseErrors_length : ∀ {js : Jsons} {es : List SubErr}, parseErrors js = some es → es.length = (toList js).length
  | .nil, es, h => by simp only [parseErrors, Option.some.injEq] at h; rw [← h]; rfl
  | .bad, es, h => by simp [parseErrors] at h
  | .cons j js, es, h => by
    cases j with
    | map ds =>
      rw [parseErrors] at h
      split at h
      · next e es' h1 h2 =>
        rw [← Option.some.inj h]
        simp [toList, parseErrors_length h2]
      · simp at h
    | null => simp [parseErrors] at h
    | bad => simp [parseErrors] at h
    | leaf l => simp [parseErrors] at h
    | list js => simp [parseErrors] at h

theorem response_count {inner : Json → St → Bool × St}
    (hi : ∀ j s, (inner j s).2.errors.filter ofSubgraph = s.errors.filter ofSubgraph) {body : Json} {st st' : St} {s : Status}
    (h : responseSeed (dataSeed inner) (errorsSeed env items) body st = (some s, st')) :
    s.errors = (sentErrors body).length := by
  rw [(response_subgraph hi h).2]
  unfold responseSeed at h
  cases body with
  | map es =>
    simp only at h
    split at h
    · simp at h
    · next s1 st1 heq =>
      have hp := loop_parsed heq
      simp only [readErrors, errsOf, sentErrors]
      cases hl : es.lookup errorsKey with
      | none => rfl
      | some v =>
        rcases hp v hl with rfl | ⟨js, rfl, hj⟩
        · rfl
        · simp only
          cases hpe : parseErrors js with
          | none => exact absurd hpe hj
          | some l => simp [parseErrors_length hpe]
  | null => simp at h
  | bad => simp at h
  | leaf l => simp at h
  | list js => simp at h

/-! ## Paths of errors -/

theorem segments_spec {asU64 : Nat → Option Nat} : ∀ {js : Jsons} {ss : List Seg}, segments asU64 js = some ss ↔ SegsOf asU64 js ss
  | .nil, ss => by
    simp only [segments, Option.some.injEq]
    constructor
    · rintro rfl; exact .nil
    · intro h; cases h; rfl
  | .bad, ss => by
    simp only [segments]
    constructor
    · simp
    · intro h; cases h
  | .cons j js, ss => by
    cases j with
    | leaf l =>
      obtain ⟨b, n⟩ := l
      cases b with
      | true =>
        simp only [segments, Option.map_eq_some_iff]
        constructor
        · rintro ⟨ss', h, rfl⟩
          exact .field (segments_spec.1 h)
        · intro h
          cases h with
          | field h => exact ⟨_, segments_spec.2 h, rfl⟩
      | false =>
        simp only [segments]
        cases hn : asU64 n with
        | none =>
          simp only
          constructor
          · simp
          · intro h
            cases h with
            | index hi _ => rw [hn] at hi; simp at hi
        | some i =>
          simp only [Option.map_eq_some_iff]
          constructor
          · rintro ⟨ss', h, rfl⟩
            exact .index hn (segments_spec.1 h)
          · intro h
            cases h with
            | index hi h =>
              rw [hn] at hi
              cases hi
              exact ⟨_, segments_spec.2 h, rfl⟩
    | null => simp only [segments]; constructor; simp; intro h; cases h
    | bad => simp only [segments]; constructor; simp; intro h; cases h
    | list js => simp only [segments]; constructor; simp; intro h; cases h
    | map es => simp only [segments]; constructor; simp; intro h; cases h

theorem convertPath_spec {asU64 : Nat → Option Nat} {j : Json} {p : List VId × List Seg} :
    convertPath asU64 items j = some p ↔ PathOf asU64 (items.map (·.ref)) j p := by
  unfold convertPath
  constructor
  · intro h
    split at h
    · next n i rest =>
      split at h
      · next hn =>
        subst hn
        split at h
        · simp at h
        · next it hit =>
          obtain ⟨ss, hs, rfl⟩ := Option.map_eq_some_iff.1 h
          obtain ⟨k, hk, hi⟩ := Option.bind_eq_some_iff.1 hit
          exact ⟨i, k, it.ref, rest, rfl, hk, by simp [hi], rfl, segments_spec.1 hs⟩
      · simp at h
    · simp at h
  · rintro ⟨n, k, r, js, rfl, hk, hr, hp, hs⟩
    simp only [if_true]
    rw [List.getElem?_map, Option.map_eq_some_iff] at hr
    obtain ⟨it, hi, rfl⟩ := hr
    simp only [hk, Option.bind_some, hi, segments_spec.2 hs, Option.map_some]
    rw [← hp]

theorem placed_spec (e : SubErr) : Reported env.asU64 (items.map (·.ref)) e (placed env items e) :=
  ⟨_, rfl, fun _ => convertPath_spec⟩

end Verif.Entities
