import Verif.Entities.Witness

/-!
# C68: every object gets the entity fetched for it
-/
namespace Verif.Entities

open Verif.NullProp

/-! ## What is asked for -/

theorem unfit_eq (repr : Ref → Option Nat) (parents : List Ref) : lacking repr parents = unfit repr parents := rfl

theorem toFetch_eq (repr : Ref → Option Nat) (parents : List Ref) : toFetch repr parents = asked repr none parents := by
  unfold toFetch asked
  congr 1
  funext r
  cases repr r <;> rfl

theorem served_none (repr : Ref → Option Nat) (parents : List Ref) : served repr none parents = [] := by
  unfold served
  rw [List.filterMap_eq_nil_iff]
  intro r _
  cases repr r <;> rfl

theorem lookup_eq (repr : Ref → Option Nat) (c : Nat → Option Json) (parents : List Ref) :
    lookup c (toFetch repr parents) = (served repr (some c) parents, asked repr (some c) parents) := by
  unfold lookup toFetch served asked
  rw [List.filterMap_filterMap, List.filter_filterMap]
  congr 1
  · congr 1
    funext r
    cases repr r <;> rfl
  · congr 1
    funext r
    cases repr r with
    | none => rfl
    | some n => simp [Option.filter]

theorem asked_mem {repr : Ref → Option Nat} {cache : Option (Nat → Option Json)} {parents : List Ref} :
    ∀ i ∈ asked repr cache parents, i.ref ∈ parents := by
  intro i hi
  obtain ⟨r, hr, h⟩ := List.mem_filterMap.1 hi
  split at h
  · simp at h
  · split at h
    · rw [← Option.some.inj h]
      exact hr
    · simp at h

theorem served_mem {repr : Ref → Option Nat} {cache : Option (Nat → Option Json)} {parents : List Ref} :
    ∀ h ∈ served repr cache parents, h.1 ∈ parents := by
  intro i hi
  obtain ⟨r, hr, h⟩ := List.mem_filterMap.1 hi
  split at h
  · simp at h
  · obtain ⟨j, _, rfl⟩ := Option.map_eq_some_iff.1 h
    exact hr

theorem covers {repr : Ref → Option Nat} {cache : Option (Nat → Option Json)} {parents : List Ref} :
    ∀ r ∈ parents, r ∈ unfit repr parents ∨ r ∈ (asked repr cache parents).map (·.ref) ++ (served repr cache parents).map (·.1) := by
  intro r hr
  cases h : repr r with
  | none => exact .inl (List.mem_filter.2 ⟨hr, by simp [h]⟩)
  | some n =>
    right
    cases hc : cache.bind (· n) with
    | none =>
      refine List.mem_append.2 (.inl (List.mem_map.2 ⟨⟨r, n⟩, List.mem_filterMap.2 ⟨r, hr, ?_⟩, rfl⟩))
      simp [h, hc]
    | some j =>
      refine List.mem_append.2 (.inr (List.mem_map.2 ⟨(r, j), List.mem_filterMap.2 ⟨r, hr, ?_⟩, rfl⟩))
      simp [h, hc]

theorem asked_nil {repr : Ref → Option Nat} {c : Nat → Option Json} {parents : List Ref}
    (h : asked repr none parents = []) : asked repr (some c) parents = [] ∧ served repr (some c) parents = [] := by
  have hn : ∀ r ∈ parents, repr r = none := by
    intro r hr
    have := List.filterMap_eq_nil_iff.1 h r hr
    cases h' : repr r with
    | none => rfl
    | some n => rw [h'] at this; simp at this
  constructor
  · refine List.filterMap_eq_nil_iff.2 fun r hr => ?_
    rw [hn r hr]
  · refine List.filterMap_eq_nil_iff.2 fun r hr => ?_
    rw [hn r hr]

variable {env : Env} {shape : RootShape} {repr : Ref → Option Nat} {parents : List Ref}
  {cache : Option (Nat → Option Json)} {answer : List Nat → Option Json} {cacheable : Bool}

/-- **C68** The request has the representations of the objects that have one which is not in the
cache, in their order; there is no request if there are none. -/
theorem C68_requests (st : St) : (execute env shape repr parents cache answer cacheable st).sent =
    if (asked repr cache parents).isEmpty then none else some ((asked repr cache parents).map (·.repr)) := by
  unfold execute
  rw [toFetch_eq]
  simp only
  split
  · next h =>
    have h : asked repr none parents = [] := List.isEmpty_iff.1 h
    cases cache with
    | none => simp [h]
    | some c => simp [(asked_nil (c := c) h).1]
  · next h =>
    cases cache with
    | none => simp only [if_neg h]
    | some c =>
      simp only
      rw [← toFetch_eq, lookup_eq]
      simp only
      split
      · rfl
      · rfl

/-- The part of the execution after the objects without representation. -/
def begun (shape : RootShape) (repr : Ref → Option Nat) (parents : List Ref) (st : St) : St :=
  st.empties shape (unfit repr parents)

/-- The three ways to go on. -/
theorem execute_cases (st : St) :
    (asked repr cache parents = [] ∧
      execute env shape repr parents cache answer cacheable st = ⟨none, none, begun shape repr parents st, []⟩ ∧
        served repr cache parents = []) ∨
    (asked repr cache parents = [] ∧ cache ≠ none ∧
      execute env shape repr parents cache answer cacheable st = ⟨none, none, ingestHits env shape (served repr cache parents)
        { begun shape repr parents st with part := { (begun shape repr parents st).part with bubbling := false } }, []⟩) ∨
    (asked repr cache parents ≠ [] ∧ cache = none ∧ execute env shape repr parents cache answer cacheable st =
      let a := answer ((asked repr cache parents).map (·.repr))
      let r := ingestPlain env shape parents (asked repr cache parents) a (begun shape repr parents st)
      ⟨some ((asked repr cache parents).map (·.repr)), r.1, r.2, []⟩) ∨
    (asked repr cache parents ≠ [] ∧ cache ≠ none ∧ execute env shape repr parents cache answer cacheable st =
      let a := answer ((asked repr cache parents).map (·.repr))
      let r := ingestCached env shape parents (served repr cache parents) (asked repr cache parents) a cacheable (begun shape repr parents st)
      ⟨some ((asked repr cache parents).map (·.repr)), r.1, r.2.1, r.2.2⟩) := by
  unfold execute
  rw [toFetch_eq]
  simp only
  by_cases h : (asked repr none parents).isEmpty = true
  · rw [if_pos h]
    have h : asked repr none parents = [] := List.isEmpty_iff.1 h
    left
    cases cache with
    | none => exact ⟨h, rfl, served_none _ _⟩
    | some c => exact ⟨(asked_nil (c := c) h).1, rfl, (asked_nil (c := c) h).2⟩
  · rw [if_neg h]
    right
    cases cache with
    | none =>
      right; left
      exact ⟨fun h' => h (by rw [h']; rfl), rfl, rfl⟩
    | some c =>
      simp only
      rw [← toFetch_eq, lookup_eq]
      simp only
      by_cases h' : (asked repr (some c) parents).isEmpty = true
      · left
        rw [if_pos h']
        exact ⟨List.isEmpty_iff.1 h', by simp, rfl⟩
      · right; right
        rw [if_neg h']
        exact ⟨fun h'' => h' (by rw [h'']; rfl), by simp, rfl⟩

theorem begun_part (st : St) : (begun shape repr parents st).part = giveAll env.hid shape st.part (without (unfit repr parents)) :=
  empties_part st _

theorem begun_errors (st : St) : (begun shape repr parents st).errors = st.errors :=
  (empties_spec (hid := fun _ => false) _ st).2.1

/-- **C68** Whatever the answer is, an object is given only the entity in the cache for its
representation or the element of `data._entities` at the position of its representation in the
request.  If all that was found in the cache is JSON every object is given something: an entity, or
nothing, which makes its fields null (or the object, for a required one). -/
theorem C68_answers_partial (st : St) :
    ∃ log, calm (execute env shape repr parents cache answer cacheable st).st.part = calm (giveAll env.hid shape st.part log) ∧
      (∀ r a, (r, a) ∈ log → r ∈ parents ∧ ∀ j, a = .entity j → (r, j) ∈ served repr cache parents ∨
        ∃ body, answer ((asked repr cache parents).map (·.repr)) = some body ∧
          ∃ i : Nat, ((asked repr cache parents).map (·.ref))[i]? = some r ∧ (elements body)[i]? = some j) ∧
      ((∀ h ∈ served repr cache parents, h.2.Readable) → Complete parents log) := by
  have hu : ∀ (P : Ref → Json → Prop) r a, (r, a) ∈ without (unfit repr parents) → r ∈ parents ∧ ∀ j, a = .entity j → P r j := by
    intro P r a h
    obtain ⟨r', h', heq⟩ := List.mem_map.1 h
    obtain ⟨rfl, rfl⟩ := Prod.mk.injEq .. ▸ heq
    exact ⟨(List.mem_filter.1 h').1, fun j hj => nomatch hj⟩
  have join : ∀ (p : Part) log, calm p = calm (giveAll env.hid shape (begun shape repr parents st).part log) →
      (∀ r a, (r, a) ∈ log → r ∈ parents ∧ ∀ j, a = .entity j → (r, j) ∈ served repr cache parents ∨
        ∃ body, answer ((asked repr cache parents).map (·.repr)) = some body ∧
          ∃ i : Nat, ((asked repr cache parents).map (·.ref))[i]? = some r ∧ (elements body)[i]? = some j) →
      ((∀ h ∈ served repr cache parents, h.2.Readable) →
        Complete ((asked repr cache parents).map (·.ref) ++ (served repr cache parents).map (·.1)) log) →
      ∃ log, calm p = calm (giveAll env.hid shape st.part log) ∧
      (∀ r a, (r, a) ∈ log → r ∈ parents ∧ ∀ j, a = .entity j → (r, j) ∈ served repr cache parents ∨
        ∃ body, answer ((asked repr cache parents).map (·.repr)) = some body ∧
          ∃ i : Nat, ((asked repr cache parents).map (·.ref))[i]? = some r ∧ (elements body)[i]? = some j) ∧
      ((∀ h ∈ served repr cache parents, h.2.Readable) → Complete parents log) := by
    intro p log h1 h2 h3
    refine ⟨without (unfit repr parents) ++ log, ?_, ?_, ?_⟩
    · rw [h1, begun_part (env := env), giveAll_append]
    · intro r a hm
      rcases List.mem_append.1 hm with hm | hm
      · exact ⟨(hu (fun _ _ => False) r a hm).1, fun j hj => ((hu (fun _ _ => False) r a hm).2 j hj).elim⟩
      · exact h2 r a hm
    · intro hr r hm
      rcases covers (repr := repr) (cache := cache) r hm with h | h
      · exact complete_without.append_left _ r h
      · exact (h3 hr).append_right _ r h
  have hfound : ∀ r a, (r, a) ∈ found (served repr cache parents) → r ∈ parents ∧ ∀ j, a = .entity j → (r, j) ∈ served repr cache parents := by
    intro r a hm
    obtain ⟨h, hm', heq⟩ := List.mem_map.1 hm
    obtain ⟨rfl, rfl⟩ := Prod.mk.injEq .. ▸ heq
    refine ⟨served_mem h hm', fun j hj => ?_⟩
    cases hj
    exact hm'
  rcases execute_cases (env := env) (shape := shape) (repr := repr) (parents := parents) (cache := cache) (answer := answer)
    (cacheable := cacheable) st with ⟨h, he, hs⟩ | ⟨h, _, he⟩ | ⟨h, hn, he⟩ | ⟨h, _, he⟩
  · rw [he]
    refine join _ [] rfl (by simp) ?_
    intro _
    rw [h, hs]
    intro r hr
    simp at hr
  · rw [he]
    refine join _ (found (served repr cache parents)) ?_ ?_ ?_
    · simp only
      rw [(hits_spec env _ _).1]
      exact giveAll_calm _ rfl
    · intro r a hm
      exact ⟨(hfound r a hm).1, fun j hj => .inl ((hfound r a hm).2 j hj)⟩
    · intro _ r hr
      rw [h] at hr
      simp only [List.map_nil, List.nil_append] at hr
      obtain ⟨x, hm, rfl⟩ := List.mem_map.1 hr
      exact ⟨.entity x.2, List.mem_map.2 ⟨x, hm, rfl⟩, by simp⟩
  · rw [he]
    obtain ⟨log, h1, h2, h3⟩ := plain_log (env := env) (shape := shape) (answer := answer ((asked repr cache parents).map (·.repr)))
      (begun shape repr parents st) (asked_mem (repr := repr) (cache := cache) (parents := parents))
    refine join _ log h1 ?_ ?_
    · intro r a hm
      exact ⟨(h2 r a hm).1, fun j hj => .inr ((h2 r a hm).2 j hj)⟩
    · intro _
      have : served repr cache parents = [] := by rw [hn]; exact served_none _ _
      rw [this]
      simpa using h3
  · rw [he]
    obtain ⟨log, h1, h2, h3⟩ := cached_log (env := env) (shape := shape) (cacheable := cacheable)
      (answer := answer ((asked repr cache parents).map (·.repr)))
      (begun shape repr parents st) (asked_mem (repr := repr) (cache := cache) (parents := parents)) served_mem
    exact join _ log h1 h2 h3

/-- **C68** With a good answer, objects get the element of `data._entities` at the position of their
representation, or nothing if there is none; objects of the cache get what is in there; objects
without a representation get nothing. -/
theorem C68_positions_partial {body : Json} (st : St) (ha : asked repr cache parents ≠ [])
    (hb : answer ((asked repr cache parents).map (·.repr)) = some body) (hg : Good body) (hl : cache ≠ none → Listed body) :
    calm (execute env shape repr parents cache answer cacheable st).st.part =
      calm (giveAll env.hid shape st.part (without (unfit repr parents) ++ found (served repr cache parents) ++
        matched ((asked repr cache parents).map (·.ref)) (elements body))) := by
  rw [giveAll_append, giveAll_append, ← begun_part (repr := repr) (parents := parents)]
  rcases execute_cases (env := env) (shape := shape) (repr := repr) (parents := parents) (cache := cache) (answer := answer)
    (cacheable := cacheable) st with ⟨h, _⟩ | ⟨h, _⟩ | ⟨_, hn, he⟩ | ⟨_, hn, he⟩
  · exact absurd h ha
  · exact absurd h ha
  · rw [he]
    simp only [hb]
    obtain ⟨s, _, hd⟩ := plain_good (env := env) (shape := shape) (items := asked repr cache parents) (parents := parents)
      (begun shape repr parents st) hg
    have : served repr cache parents = [] := by rw [hn]; exact served_none _ _
    rw [hd.part, this]
    exact giveAll_calm _ rfl
  · rw [he]
    simp only [hb]
    obtain ⟨s, _, hd, _⟩ := cached_good (env := env) (shape := shape) (items := asked repr cache parents) (parents := parents)
      (hits := served repr cache parents) (cacheable := cacheable) (begun shape repr parents st) hg (hl hn)
    rw [hd.part, (hits_spec env _ _).1]
    exact giveAll_calm _ (giveAll_calm _ rfl)

/-- **C68** With a good answer all errors of the subgraph are reported in their order, each at the path of the
object its entity was fetched for; their number is the one in the status. -/
theorem C68_errors_partial {body : Json} (st : St) (ha : asked repr cache parents ≠ [])
    (hb : answer ((asked repr cache parents).map (·.repr)) = some body) (hg : Good body) (hl : cache ≠ none → Listed body)
    (hc : ∀ h ∈ served repr cache parents, h.2.Readable) :
    let r := execute env shape repr parents cache answer cacheable st
    (∃ reported, r.st.errors.filter ofSubgraph = st.errors.filter ofSubgraph ++ reported ∧
      reported.length = (sentErrors body).length ∧
      ∀ (i : Nat) e x, (sentErrors body)[i]? = some e → reported[i]? = some x →
        Reported env.asU64 ((asked repr cache parents).map (·.ref)) e x) ∧
    (∃ s, r.status = some s ∧ s.errors = (sentErrors body).length ∧ s.success = (hasData body && (sentErrors body).isEmpty)) ∧
    r.st.errors.filter (fun e => !ofSubgraph e) = st.errors.filter (fun e => !ofSubgraph e) ++
      (if silent shape then [] else
        ((served repr cache parents).filter fun h => odd h.2).map (fun h => .invalid h.1.path) ++
        objectErrors ((asked repr cache parents).map (·.ref)) (elements body)) := by
  have key : ∀ (s0 : St) s st', Done env shape (asked repr cache parents) body s0 s st' →
      s0.errors = st.errors ++ (if silent shape then [] else
        ((served repr cache parents).filter fun h => odd h.2).map (fun h => .invalid h.1.path)) →
      (∃ reported, st'.errors.filter ofSubgraph = st.errors.filter ofSubgraph ++ reported ∧
        reported.length = (sentErrors body).length ∧
        ∀ (i : Nat) e x, (sentErrors body)[i]? = some e → reported[i]? = some x →
          Reported env.asU64 ((asked repr cache parents).map (·.ref)) e x) ∧
      (s.errors = (sentErrors body).length ∧ s.success = (hasData body && (sentErrors body).isEmpty)) ∧
      st'.errors.filter (fun e => !ofSubgraph e) = st.errors.filter (fun e => !ofSubgraph e) ++
        (if silent shape then [] else
          ((served repr cache parents).filter fun h => odd h.2).map (fun h => .invalid h.1.path) ++
          objectErrors ((asked repr cache parents).map (·.ref)) (elements body)) := by
    intro s0 s st' hd h0
    have hf : ∀ l : List (Ref × Json), (l.map (fun h => Err.invalid h.1.path)).filter ofSubgraph = [] := by
      intro l
      rw [List.filter_eq_nil_iff]
      intro e he
      obtain ⟨x, _, rfl⟩ := List.mem_map.1 he
      simp [ofSubgraph]
    have hf' : ∀ l : List (Ref × Json), (l.map (fun h => Err.invalid h.1.path)).filter (fun e => !ofSubgraph e) =
        l.map (fun h => Err.invalid h.1.path) := by
      intro l
      rw [List.filter_eq_self]
      intro e he
      obtain ⟨x, _, rfl⟩ := List.mem_map.1 he
      rfl
    refine ⟨⟨(sentErrors body).map (placed env (asked repr cache parents)), ?_, by simp, ?_⟩, ⟨hd.count, ?_⟩, ?_⟩
    · rw [hd.theirs, h0]
      cases silent shape
      · simp only [Bool.false_eq_true, if_false, List.filter_append, hf, List.append_nil]
      · simp
    · intro i e x h1 h2
      rw [List.getElem?_map, h1] at h2
      cases h2
      exact placed_spec e
    · rw [Status.success, hd.data, hd.count]
      cases sentErrors body <;> rfl
    · rw [hd.own, h0]
      cases silent shape
      · simp only [Bool.false_eq_true, if_false, List.filter_append, hf', List.append_assoc]
      · simp
  simp only
  rcases execute_cases (env := env) (shape := shape) (repr := repr) (parents := parents) (cache := cache) (answer := answer)
    (cacheable := cacheable) st with ⟨h, _⟩ | ⟨h, _⟩ | ⟨_, hn, he⟩ | ⟨_, hn, he⟩
  · exact absurd h ha
  · exact absurd h ha
  · rw [he]
    simp only [hb]
    obtain ⟨s, hs, hd⟩ := plain_good (env := env) (shape := shape) (items := asked repr cache parents) (parents := parents)
      (begun shape repr parents st) hg
    have : served repr cache parents = [] := by rw [hn]; exact served_none _ _
    obtain ⟨k1, k2, k3⟩ := key _ s _ hd (by simp only [begun_errors]; rw [this]; cases silent shape <;> simp)
    exact ⟨k1, ⟨s, hs, k2⟩, k3⟩
  · rw [he]
    simp only [hb]
    obtain ⟨s, hs, hd, _⟩ := cached_good (env := env) (shape := shape) (items := asked repr cache parents) (parents := parents)
      (hits := served repr cache parents) (cacheable := cacheable) (begun shape repr parents st) hg (hl hn)
    obtain ⟨k1, k2, k3⟩ := key _ s _ hd (by rw [hits_errors env _ _ hc]; simp only [begun_errors])
    exact ⟨k1, ⟨s, hs, k2⟩, k3⟩

/-- **C68** What is put in the cache is the element at the position of the representation, and only if
the response may be cached, has data and no errors. -/
theorem C68_stored (st : St) (h : (execute env shape repr parents cache answer cacheable st).stored ≠ []) :
    cache ≠ none ∧ cacheable = true ∧ ∃ body, answer ((asked repr cache parents).map (·.repr)) = some body ∧
      hasData body = true ∧ sentErrors body = [] ∧ (execute env shape repr parents cache answer cacheable st).stored =
        ((asked repr cache parents).map (·.repr)).zip (elements body) := by
  rcases execute_cases (env := env) (shape := shape) (repr := repr) (parents := parents) (cache := cache) (answer := answer)
    (cacheable := cacheable) st with ⟨_, he, _⟩ | ⟨_, _, he⟩ | ⟨_, _, he⟩ | ⟨_, hn, he⟩
  · rw [he] at h
    exact absurd rfl h
  · rw [he] at h
    exact absurd rfl h
  · rw [he] at h
    exact absurd rfl h
  · rw [he] at h ⊢
    simp only at h ⊢
    obtain ⟨h1, body, s, h2, _, _, h3, h4, h5⟩ := cached_stored _ h
    exact ⟨hn, h1, body, h2, h3, h4, h5⟩

/-- **C68** All entities of a good answer without errors are put in the cache if the response may be
cached. -/
theorem C68_cached {body : Json} (st : St) (ha : asked repr cache parents ≠ []) (hn : cache ≠ none)
    (hb : answer ((asked repr cache parents).map (·.repr)) = some body) (hg : Good body) (hl : Listed body)
    (hd : hasData body = true) (he : sentErrors body = []) :
    (execute env shape repr parents cache answer true st).stored =
      ((asked repr cache parents).map (·.repr)).zip (elements body) := by
  rcases execute_cases (env := env) (shape := shape) (repr := repr) (parents := parents) (cache := cache) (answer := answer)
    (cacheable := true) st with ⟨h, _⟩ | ⟨h, _⟩ | ⟨_, h, _⟩ | ⟨_, _, heq⟩
  · exact absurd h ha
  · exact absurd h ha
  · exact absurd h hn
  · rw [heq]
    simp only [hb]
    obtain ⟨s, _, hdone, hst⟩ := cached_good (env := env) (shape := shape) (items := asked repr cache parents) (parents := parents)
      (hits := served repr cache parents) (cacheable := true) (begun shape repr parents st) hg hl
    rw [hst, Status.success, hdone.data, hdone.count, hd, he]
    rfl

/-- **C68** If all entities are in the cache there is no request and each object gets its one. -/
theorem C68_all_cached (st : St) (ha : asked repr cache parents = []) :
    (execute env shape repr parents cache answer cacheable st).sent = none ∧
    calm (execute env shape repr parents cache answer cacheable st).st.part =
      calm (giveAll env.hid shape st.part (without (unfit repr parents) ++ found (served repr cache parents))) := by
  refine ⟨by rw [C68_requests, ha]; rfl, ?_⟩
  rw [giveAll_append, ← begun_part (repr := repr) (parents := parents)]
  rcases execute_cases (env := env) (shape := shape) (repr := repr) (parents := parents) (cache := cache) (answer := answer)
    (cacheable := cacheable) st with ⟨_, he, hs⟩ | ⟨_, _, he⟩ | ⟨h, _⟩ | ⟨h, _⟩
  · rw [he, hs]
    rfl
  · rw [he]
    simp only
    rw [(hits_spec env _ _).1]
    exact giveAll_calm _ rfl
  · exact absurd ha h
  · exact absurd ha h

/-- **C68** If the request fails all objects get nothing, those in the cache too, and there is one
error, for the first of them. -/
theorem C68_failed (st : St) (ha : asked repr cache parents ≠ [])
    (hb : answer ((asked repr cache parents).map (·.repr)) = none) :
    let r := execute env shape repr parents cache answer cacheable st
    calm r.st.part = calm (giveAll env.hid shape st.part (without (unfit repr parents) ++ without parents)) ∧
    r.st.errors = st.errors ++ (if silent shape then [] else (parents.take 1).map fun p => .failed p.path) ∧
    r.status = none := by
  simp only
  rw [giveAll_append, ← begun_part (repr := repr) (parents := parents)]
  rcases execute_cases (env := env) (shape := shape) (repr := repr) (parents := parents) (cache := cache) (answer := answer)
    (cacheable := cacheable) st with ⟨h, _⟩ | ⟨h, _⟩ | ⟨_, _, he⟩ | ⟨_, _, he⟩
  · exact absurd h ha
  · exact absurd h ha
  · rw [he]
    simp only [hb, ingestPlain]
    exact ⟨by rw [errorAll_part (hid := env.hid)], by rw [errorAll_errors, begun_errors], trivial⟩
  · rw [he]
    simp only [hb, ingestCached]
    exact ⟨by rw [errorAll_part (hid := env.hid)], by rw [errorAll_errors, begun_errors], trivial⟩

/-! ## Where it goes wrong -/

/-- **C68** is not true of what is in the cache and cannot be read: the flag is left set, and if the
answer cannot be read either the objects that are not in the cache get nothing, not even the default,
and there is no error. -/
theorem C68_unanswered_false :
    let r := execute plainEnv nullableShape reprOf fourParents (some cutCached) (fun _ => some cutBody) true start
    r.sent = some [72, 73] ∧ updated r.st.part = [4, 1] ∧ r.st.errors = [.invalid (parent 0).path] ∧ r.st.part.nullAt = [] := by
  decide +kernel

/-- **C68** is not true of the errors of an answer with `_entities: null` if there is a cache: reading
stops there, and errors after it are lost. -/
theorem C68_errors_lost_false :
    (execute plainEnv nullableShape reprOf fourParents (some oneCached) (fun _ => some nullEntities) true start).st.errors =
      [.invalid (parent 1).path] ∧
    ((execute plainEnv nullableShape reprOf fourParents none (fun _ => some nullEntities) true start).st.errors.filter ofSubgraph).length = 1 ∧
    (sentErrors nullEntities).length = 1 := by
  decide +kernel

/-- **C68** is not true of an answer whose `errors` are not errors: without a cache all objects are
nulled although their entities were there. -/
theorem C68_data_lost_false :
    let r := execute plainEnv entityShape reprOf fourParents none (fun _ => some oddErrors) true start
    (elements oddErrors).length = 3 ∧ updated r.st.part = [1, 2, 3] ∧
      r.st.part.nullAt = ([parent 3, parent 0, parent 1, parent 2, parent 3].filterMap fun p => p.path.head?) := by
  decide +kernel

/-! ## Concrete cases -/

example : asked reprOf none fourParents = [⟨parent 0, 71⟩, ⟨parent 1, 72⟩, ⟨parent 2, 73⟩] ∧
    asked reprOf (some oneCached) fourParents = [⟨parent 1, 72⟩, ⟨parent 2, 73⟩] ∧ unfit reprOf fourParents = [parent 3] := by
  decide +kernel

theorem goodBody_good : Good goodBody := by
  refine ⟨?_, _, rfl, by decide, ?_, ?_⟩
  · simp [goodBody, someError, entitiesOf, entity, text, num, Json.Readable, Jsons.Readable, Entries.Readable, Json.Uniq, Entries.keys]
    decide
  · intro ds h
    cases h
    refine ⟨by decide, ?_⟩
    intro v hv
    cases hv
    exact .inr ⟨_, rfl⟩
  · intro v hv
    cases hv
    refine .inr ⟨_, rfl, ?_⟩
    intro e he
    simp only [toList, List.mem_singleton] at he
    subst he
    exact ⟨_, 40, rfl, by decide, rfl, by intro v hv; cases hv⟩

example : Listed goodBody := by
  intro es ds h1 h2 h3
  cases h1
  cases h2
  cases h3

/-- The first object has its entity of the cache, the second the first of the answer; the third is
null, with the error of the subgraph at the second position. -/
example :
    let r := execute plainEnv entityShape reprOf fourParents (some oneCached) (fun _ => some goodBody) true start
    updated r.st.part = [1, 2] ∧ r.st.part.nullAt = [.index ⟨0, 0⟩ 3 true, .index ⟨0, 0⟩ 2 true] ∧
      r.st.errors = [.subgraph 40 (some ((parent 2).path, [.field 2]))] := by decide +kernel

example : (execute plainEnv entityShape reprOf fourParents (some oneCached) (fun _ => some fullBody) true start).stored.map (·.1) =
    [72, 73] := by decide +kernel

end Verif.Entities
