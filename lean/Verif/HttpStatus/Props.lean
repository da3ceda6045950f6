import Verif.HttpStatus.Lemmas

/-!
# C89: what HTTP responses say of GraphQL responses
-/
namespace Verif.HttpStatus

/-! ## Statuses -/

theorem present {V : Type} (errors : List (Err V)) (h : errors.length < 65536) (c : Code) :
    (∃ n, (c, n) ∈ (Counter.ofErrors errors).toVec) ↔ c ∈ errors.map (·.code) := by
  have hle : (errors.map (·.code)).count c < 65536 := by
    have := List.count_le_length (a := c) (l := errors.map (·.code))
    rw [List.length_map] at this
    omega
  constructor
  · rintro ⟨n, hn⟩
    rw [toVec_mem, ofErrors_count, Nat.mod_eq_of_lt hle] at hn
    exact List.count_pos_iff.mp (by omega)
  · intro hc
    refine ⟨_, (toVec_mem _ c _).mpr ⟨rfl, ?_⟩⟩
    rw [ofErrors_count, Nat.mod_eq_of_lt hle]
    exact List.count_pos_iff.mpr hc

/-- The status of a request error in `application/graphql-response+json`, when it does not have too many errors, is the most helpful one. -/
theorem C89_status_partial {V : Type} (errors : List (Err V)) (h : errors.length < 65536) :
    ∃ s, computeStatus .graphqlResponseJson (Response.ofRequestErrors errors) = some s ∧ Helpful (errors.map (·.code)) s := by
  have hp := present errors h
  have hord : ((Counter.ofErrors errors).toVec.map (fun c => c.1.statusWithPriority)).Pairwise (fun x y => ¬ (x.1 = 403 ∧ y.1 = 401)) := by
    have e : (Counter.ofErrors errors).toVec.map (fun c => c.1.statusWithPriority) =
        ((Counter.ofErrors errors).toVec.map (·.1)).map Code.statusWithPriority := by rw [List.map_map]; rfl
    rw [e]
    exact List.Pairwise.sublist ((toVec_sub _).map _) ordered
  have hmax := max_spec ((Counter.ofErrors errors).toVec.map (fun c => c.1.statusWithPriority))
  unfold Response.ofRequestErrors computeStatus
  simp only
  generalize (Counter.ofErrors errors).toVec = vec at *
  cases hm : maxByPriority (vec.map (fun c => c.1.statusWithPriority)) with
  | none =>
    rw [hm] at hmax
    have hmax : vec.map (fun c => c.1.statusWithPriority) = [] := hmax
    have hv : vec = [] := List.map_eq_nil_iff.mp hmax
    refine ⟨500, rfl, ?_⟩
    unfold Helpful
    refine Or.inr (Or.inr (Or.inr (Or.inr (Or.inr (Or.inr ⟨rfl, ?_⟩)))))
    intro c hc
    obtain ⟨n, hn⟩ := (hp c).mpr hc
    rw [hv] at hn
    cases hn
  | some m =>
    rw [hm] at hmax
    obtain ⟨a, b, hl, ha, hb⟩ := hmax
    refine ⟨m.1, rfl, ?_⟩
    have hall : ∀ c ∈ errors.map (·.code), c.statusWithPriority.2 ≤ m.2 ∧ (m.1 = 401 → m.2 = 600 → c.statusWithPriority ≠ (403, 600)) := by
      intro c hc
      obtain ⟨n, hn⟩ := (hp c).mpr hc
      have hmem : c.statusWithPriority ∈ vec.map (fun c => c.1.statusWithPriority) := List.mem_map.mpr ⟨(c, n), hn, rfl⟩
      rw [hl] at hmem hord
      rcases List.mem_append.mp hmem with hx | hx
      · refine ⟨ha _ hx, ?_⟩
        intro e1 e2 e
        have := (List.pairwise_append.mp hord).2.2 _ hx m List.mem_cons_self
        exact this ⟨by rw [e], e1⟩
      · rcases List.mem_cons.mp hx with e | hx
        · refine ⟨by rw [e]; exact Nat.le_refl _, ?_⟩
          intro e1 _ e'
          rw [← e, e'] at e1
          cases e1
        · refine ⟨Nat.le_of_lt (hb _ hx), ?_⟩
          intro _ e2 e
          have := hb _ hx
          rw [e, e2] at this
          exact absurd this (by decide)
    have hmem : m ∈ vec.map (fun c => c.1.statusWithPriority) := by rw [hl]; simp
    obtain ⟨⟨c, n⟩, hcn, hcm⟩ := List.mem_map.mp hmem
    have hc : c ∈ errors.map (·.code) := (hp c).mp ⟨n, hcn⟩
    simp only at hcm
    subst hcm
    have hno : ∀ s, (∀ c', httpStatus c' = s → c'.statusWithPriority.2 ≤ c.statusWithPriority.2 →
        (c.statusWithPriority.1 = 401 → c.statusWithPriority.2 = 600 → c'.statusWithPriority ≠ (403, 600)) → False) →
        ¬ ∃ c' ∈ errors.map (·.code), httpStatus c' = s := by
      rintro s hs ⟨c', hc', e⟩
      exact hs c' e (hall c' hc').1 (hall c' hc').2
    unfold Helpful
    simp only
    generalize errors.map (·.code) = codes at *
    clear hord hmem hl ha hb hm hp hcn h
    cases c
    case unauthenticated =>
      refine Or.inr (Or.inr (Or.inl ⟨rfl, ⟨_, hc, rfl⟩, hno 400 ?_, hno 403 ?_⟩)) <;>
        intro c' h1 h2 h3 <;> cases c' <;> first | exact absurd h1 (by decide) | exact absurd h2 (by decide) | exact absurd rfl (h3 rfl rfl)
    case unauthorized =>
      refine Or.inr (Or.inl ⟨rfl, ⟨_, hc, rfl⟩, hno 400 ?_⟩)
      intro c' h1 h2 h3; cases c' <;> first | exact absurd h1 (by decide) | exact absurd h2 (by decide)
    case rateLimited =>
      refine Or.inr (Or.inr (Or.inr (Or.inl ⟨rfl, ⟨_, hc, rfl⟩, hno 400 ?_, hno 403 ?_, hno 401 ?_⟩))) <;>
        intro c' h1 h2 h3 <;> cases c' <;> first | exact absurd h1 (by decide) | exact absurd h2 (by decide)
    case gatewayTimeout =>
      refine Or.inr (Or.inr (Or.inr (Or.inr (Or.inr (Or.inl ⟨rfl, ⟨_, hc, rfl⟩, hno 400 ?_, hno 403 ?_, hno 401 ?_, hno 429 ?_, hno 502 ?_⟩))))) <;>
        intro c' h1 h2 h3 <;> cases c' <;> first | exact absurd h1 (by decide) | exact absurd h2 (by decide)
    case extensionError =>
      refine Or.inr (Or.inr (Or.inr (Or.inr (Or.inr (Or.inr ⟨rfl, ?_⟩)))))
      intro c' hc'
      have := (hall c' hc').1
      cases c' <;> first | rfl | exact absurd this (by decide)
    case internalServerError =>
      refine Or.inr (Or.inr (Or.inr (Or.inr (Or.inr (Or.inr ⟨rfl, ?_⟩)))))
      intro c' hc'
      have := (hall c' hc').1
      cases c' <;> first | rfl | exact absurd this (by decide)
    case subgraphError =>
      refine Or.inr (Or.inr (Or.inr (Or.inr (Or.inl ⟨rfl, ⟨_, hc, rfl⟩, hno 400 ?_, hno 403 ?_, hno 401 ?_, hno 429 ?_⟩)))) <;>
        intro c' h1 h2 h3 <;> cases c' <;> first | exact absurd h1 (by decide) | exact absurd h2 (by decide)
    case subgraphInvalidResponseError =>
      refine Or.inr (Or.inr (Or.inr (Or.inr (Or.inl ⟨rfl, ⟨_, hc, rfl⟩, hno 400 ?_, hno 403 ?_, hno 401 ?_, hno 429 ?_⟩)))) <;>
        intro c' h1 h2 h3 <;> cases c' <;> first | exact absurd h1 (by decide) | exact absurd h2 (by decide)
    case subgraphRequestError =>
      refine Or.inr (Or.inr (Or.inr (Or.inr (Or.inl ⟨rfl, ⟨_, hc, rfl⟩, hno 400 ?_, hno 403 ?_, hno 401 ?_, hno 429 ?_⟩)))) <;>
        intro c' h1 h2 h3 <;> cases c' <;> first | exact absurd h1 (by decide) | exact absurd h2 (by decide)
    all_goals exact Or.inl ⟨rfl, _, hc, rfl⟩

theorem computeStatus_failed {V : Type} (errors : List (Err V)) (k : Counter) (x : Option V) :
    ∃ s, computeStatus .graphqlResponseJson (.requestError errors k x) = some s ∧ 400 ≤ s ∧ s < 600 := by
  unfold computeStatus
  simp only
  have hmax := max_spec (k.toVec.map (fun c => c.1.statusWithPriority))
  cases hm : maxByPriority (k.toVec.map (fun c => c.1.statusWithPriority)) with
  | none => exact ⟨500, rfl, by decide, by decide⟩
  | some m =>
    rw [hm] at hmax
    obtain ⟨a, b, hl, _, _⟩ := hmax
    have hmem : m ∈ k.toVec.map (fun c => c.1.statusWithPriority) := by rw [hl]; simp
    obtain ⟨c, _, e⟩ := List.mem_map.mp hmem
    refine ⟨m.1, rfl, ?_⟩
    rw [← e]
    obtain ⟨c, n⟩ := c
    show 400 ≤ c.statusWithPriority.1 ∧ c.statusWithPriority.1 < 600
    cases c <;> decide

/-- A response of `application/graphql-response+json` has the status 200 if it has data, even null, and the status of an error if it has none. -/
theorem C89_graphql_json {V : Type} (ctx : Ctx V) (len : Body V → Str) (r : Response V)
    (hr : ∀ s e k h x, r = .refused s e k h x → 400 ≤ s ∧ s < 600) :
    ∃ h b, complete ctx len .graphqlResponseJson r = some h ∧ h.body = .one b ∧
      (HasData b → h.status = 200) ∧ (¬ HasData b → 400 ≤ h.status ∧ h.status < 600) := by
  have hx : ∀ (x : Option V) (v : Option V), Entry.data v ∉ extensionsEntry x := by
    intro x v hm
    cases x with
    | none => cases hm
    | some y =>
      rw [extensionsEntry, List.mem_singleton] at hm
      cases hm
  cases r with
  | refused s e k hs x =>
    refine ⟨_, _, rfl, rfl, ?_, fun _ => hr s e k hs x rfl⟩
    rintro ⟨v, hv⟩
    rw [write] at hv
    rcases List.mem_append.mp hv with hv | hv
    · rw [List.mem_singleton] at hv
      cases hv
    · exact absurd hv (hx x v)
  | requestError e k x =>
    obtain ⟨s, hs, h1, h2⟩ := computeStatus_failed e k x
    unfold complete
    simp only [hs]
    refine ⟨_, _, rfl, rfl, ?_, fun _ => ⟨h1, h2⟩⟩
    rintro ⟨v, hv⟩
    rw [write] at hv
    rcases List.mem_append.mp hv with hv | hv
    · split at hv
      · cases hv
      · rw [List.mem_singleton] at hv
        cases hv
    · exact absurd hv (hx x v)
  | executed d p x =>
    refine ⟨_, _, rfl, rfl, fun _ => rfl, ?_⟩
    intro hn
    exact absurd ⟨d, by rw [write]; simp⟩ hn

/-- A response of `application/json` to a well-formed request has the status 200. -/
theorem C89_json {V : Type} (ctx : Ctx V) (len : Body V → Str) (r : Response V) (hr : ∀ s e k h x, r ≠ .refused s e k h x) :
    ∃ h, complete ctx len .json r = some h ∧ h.status = 200 := by
  cases r with
  | refused s e k hs x => exact absurd rfl (hr s e k hs x)
  | requestError e k x => exact ⟨_, rfl, rfl⟩
  | executed d p x => exact ⟨_, rfl, rfl⟩

/-- A refused request has its status, in all formats. -/
theorem C89_refused {V : Type} (ctx : Ctx V) (len : Body V → Str) (f : Format) (hf : f ≠ .webSocket) (s : Nat) (e : List (Err V)) (hs : Headers) :
    ∃ h, httpError ctx len f (Response.refusedRequest s e hs) = some h ∧ h.status = s := by
  cases f with
  | webSocket => exact absurd rfl hf
  | json => exact ⟨_, rfl, rfl⟩
  | graphqlResponseJson => exact ⟨_, rfl, rfl⟩
  | incremental => exact ⟨_, rfl, rfl⟩
  | sse => exact ⟨_, rfl, rfl⟩

/-- Streams are accepted: request errors are reported in them. -/
theorem C89_stream {V : Type} (ctx : Ctx V) (len : Body V → Str) (f : Format) (hf : f = .sse ∨ f = .incremental) (r : Response V) (rs : List (Response V))
    (hr : ∀ s e k h x, r ≠ .refused s e k h x) :
    ∃ h, stream ctx len f (r :: rs) = some h ∧ h.status = 200 ∧ h.body = .stream ((r :: rs).map (write ctx)) := by
  rcases hf with rfl | rfl
  · cases r with
    | refused s e k hs x => exact absurd rfl (hr s e k hs x)
    | requestError e k x => exact ⟨_, rfl, rfl, rfl⟩
    | executed d p x => exact ⟨_, rfl, rfl, rfl⟩
  · cases r with
    | refused s e k hs x => exact absurd rfl (hr s e k hs x)
    | requestError e k x => exact ⟨_, rfl, rfl, rfl⟩
    | executed d p x => exact ⟨_, rfl, rfl, rfl⟩

/-! ## Batches -/

theorem isClientError_iff (s : Nat) : isClientError s = true ↔ 400 ≤ s ∧ s < 500 := by
  unfold isClientError
  rw [Bool.and_eq_true, decide_eq_true_iff, decide_eq_true_iff]

theorem isSuccess_iff (s : Nat) : isSuccess s = true ↔ 200 ≤ s ∧ s < 300 := by
  unfold isSuccess
  rw [Bool.and_eq_true, decide_eq_true_iff, decide_eq_true_iff]

theorem batch_foldl {V : Type} (f : Format) : ∀ (rs : List (Response V)) (done statuses : List Nat) (s : Nat), BatchStatus done s →
    rs.map (computeStatus f) = statuses.map some → ∃ s', batchStatus f s rs = some s' ∧ BatchStatus (done ++ statuses) s'
  | [], done, statuses, s, h, e => by
    cases statuses with
    | nil => exact ⟨s, rfl, by simpa using h⟩
    | cons x xs => cases e
  | r :: rs, done, statuses, s, h, e => by
    cases statuses with
    | nil => cases e
    | cons x xs =>
      rw [List.map_cons, List.map_cons, List.cons.injEq] at e
      obtain ⟨hx, e⟩ := e
      have key : ∃ s1, batchStep f s r = some s1 ∧ BatchStatus (done ++ [x]) s1 := by
        unfold batchStep
        by_cases hc : isClientError s = true
        · rw [if_pos hc]
          have hc' := (isClientError_iff s).mp hc
          refine ⟨s, rfl, ?_⟩
          rcases h with ⟨a, b, hd, _, ha⟩ | ⟨hn, a, b, hd, _, _⟩ | ⟨_, rfl⟩
          · exact Or.inl ⟨a, b ++ [x], by rw [hd]; simp, hc', ha⟩
          · exact absurd hc' (hn s (by rw [hd]; simp))
          · exact absurd hc'.1 (by decide)
        · rw [if_neg hc, hx]
          have hc' : ¬ (400 ≤ s ∧ s < 500) := fun h => hc ((isClientError_iff s).mpr h)
          simp only
          have hdone : ∀ y ∈ done, ¬ (400 ≤ y ∧ y < 500) := by
            rcases h with ⟨a, b, hd, hs, ha⟩ | ⟨hn, _⟩ | ⟨hall, _⟩
            · exact absurd hs hc'
            · exact hn
            · intro y hy; have := hall y hy; omega
          by_cases hsx : isSuccess x = true
          · rw [if_pos hsx]
            have hsx' := (isSuccess_iff x).mp hsx
            refine ⟨s, rfl, ?_⟩
            rcases h with ⟨a, b, hd, hs, ha⟩ | ⟨hn, a, b, hd, hs, hb⟩ | ⟨hall, hs⟩
            · exact absurd hs hc'
            · refine Or.inr (Or.inl ⟨?_, a, b ++ [x], by rw [hd]; simp, hs, ?_⟩)
              · intro y hy
                rcases List.mem_append.mp hy with hy | hy
                · exact hn y hy
                · rw [List.mem_singleton] at hy; omega
              · intro y hy
                rcases List.mem_append.mp hy with hy | hy
                · exact hb y hy
                · rw [List.mem_singleton] at hy; omega
            · refine Or.inr (Or.inr ⟨?_, hs⟩)
              intro y hy
              rcases List.mem_append.mp hy with hy | hy
              · exact hall y hy
              · rw [List.mem_singleton] at hy; omega
          · rw [if_neg hsx]
            have hsx' : ¬ (200 ≤ x ∧ x < 300) := fun h => hsx ((isSuccess_iff x).mpr h)
            refine ⟨x, rfl, ?_⟩
            by_cases hcx : 400 ≤ x ∧ x < 500
            · exact Or.inl ⟨done, [], rfl, hcx, hdone⟩
            · refine Or.inr (Or.inl ⟨?_, done, [], rfl, hsx', by intro y hy; (cases hy)⟩)
              intro y hy
              rcases List.mem_append.mp hy with hy | hy
              · exact hdone y hy
              · rw [List.mem_singleton] at hy; rw [hy]; exact hcx
      obtain ⟨s1, h1, hb1⟩ := key
      rw [batchStatus, h1]
      simp only
      obtain ⟨s', h2, hb2⟩ := batch_foldl f rs (done ++ [x]) xs s1 hb1 e
      exact ⟨s', h2, by simpa [List.append_assoc] using hb2⟩

/-- The status of a batch: of the first response which is a mistake of the client; else of the last which failed; else 200. -/
theorem C89_batch {V : Type} (ctx : Ctx V) (len : Body V → Str) (f : Format) (rs : List (Response V)) (statuses : List Nat)
    (h : rs.map (computeStatus f) = statuses.map some) :
    ∃ r, batch ctx len f rs = some r ∧ BatchStatus statuses r.status ∧ r.body = .many (rs.map (write ctx)) := by
  obtain ⟨s, hs, hb⟩ := batch_foldl f rs [] statuses 200 (Or.inr (Or.inr ⟨by intro x hx; (cases hx), rfl⟩)) h
  unfold batch
  simp only [hs]
  exact ⟨_, rfl, by simpa using hb, rfl⟩

/-! ## Headers -/

theorem put_other (h : Headers) (name value n : Str) (hn : n ≠ name) : (h.put name value).filter (fun f => f.1 == n) = h.filter (fun f => f.1 == n) := by
  unfold Headers.put
  rw [List.filter_append, List.filter_filter]
  have e1 : [(name, value)].filter (fun f => f.1 == n) = [] := by
    rw [List.filter_cons_of_neg (by simpa using fun e => hn e.symm)]
    rfl
  rw [e1, List.append_nil]
  apply List.filter_congr
  intro f _
  by_cases e : f.1 = n
  · rw [e]; simp [hn]
  · simp [e]

theorem put_self (h : Headers) (name value : Str) : (h.put name value).filter (fun f => f.1 == name) = [(name, value)] := by
  unfold Headers.put
  rw [List.filter_append, List.filter_filter]
  have e1 : h.filter (fun a => (a.1 == name) && (a.1 != name)) = [] := by
    rw [List.filter_eq_nil_iff]
    intro a _
    by_cases e : a.1 = name <;> simp [e]
  rw [e1]
  simp

/-- Complete responses say their media type and length, once; the headers a request is refused with are kept. -/
theorem C89_headers {V : Type} (ctx : Ctx V) (len : Body V → Str) (f : Format) (r : Response V) (h : Http V) (hc : complete ctx len f r = some h) :
    h.headers.filter (fun x => x.1 == contentType) = [(contentType, f.mediaType)] ∧
    h.headers.filter (fun x => x.1 == contentLength) = [(contentLength, len h.body)] ∧
    ∀ n, n ≠ contentType → n ≠ contentLength → h.headers.filter (fun x => x.1 == n) =
      match r with
      | .refused _ _ _ given _ => given.filter (fun x => x.1 == n)
      | _ => [] := by
  unfold complete at hc
  simp only at hc
  split at hc
  · cases hc
  · cases hc
    refine ⟨?_, put_self _ _ _, ?_⟩
    · rw [put_other _ _ _ _ (by decide), put_self]
    · intro n h1 h2
      simp only
      rw [put_other _ _ _ _ h2, put_other _ _ _ _ h1]
      cases r <;> rfl

/-! ## Errors -/

/-- The errors of executed responses: of each part its errors, in order, then the first of each error of the query. -/
theorem C89_errors {V : Type} (ctx : Ctx V) (l : List (List (Push V))) :
    ∃ qs : List (List (Nat × Location × List Seg)), qs.length = l.length ∧
      (∀ (i : Nat) (ps : List (Push V)) (q : List (Nat × Location × List Seg)), l[i]? = some ps → qs[i]? = some q → Firsts (queriesOf ps) q) ∧
      writeParts ctx (Parts.build ctx l) =
        (l.zip qs).flatMap (fun x => (errorsOf x.1).map (writeError ctx.keys ctx.mapping) ++ x.2.map (writeQueryError ctx)) ∧
      ((Parts.build ctx l).count = 0 ↔ ∀ x ∈ l.zip qs, ∀ c, 65536 ∣ (codesOf (fun i => (ctx.query i).code) x.1 x.2).count c) ∧
      ∀ c, (Parts.build ctx l).counter c = ((l.zip qs).map (fun x => (codesOf (fun i => (ctx.query i).code) x.1 x.2).count c)).sum % 65536 := by
  have hz : ∀ l : List (List (Push V)), l.zip (l.map (fun ps => (built ctx ps).part.shared)) = l.map (fun ps => (ps, (built ctx ps).part.shared)) := by
    intro l
    induction l with
    | nil => rfl
    | cons p l ih => rw [List.map_cons, List.zip_cons_cons, ih, List.map_cons]
  have hb := build_eq ctx l (Parts.new V)
  refine ⟨l.map (fun ps => (built ctx ps).part.shared), List.length_map .., ?_, ?_, ?_, ?_⟩
  · intro i ps q h1 h2
    rw [List.getElem?_map, h1] at h2
    cases h2
    exact (inv_build ctx ps).firsts
  · rw [hz]
    unfold writeParts
    have e : (Parts.build ctx l).parts = l.map (fun ps => (built ctx ps).part) := by
      rw [show (Parts.build ctx l).parts = _ from hb.1]
      rfl
    rw [e, List.flatMap_map, List.flatMap_map]
    have : ∀ ps : List (Push V), (built ctx ps).part.errors.map (writeError ctx.keys ctx.mapping) ++ writeShared ctx [] (built ctx ps).part.shared =
        (errorsOf ps).map (writeError ctx.keys ctx.mapping) ++ (built ctx ps).part.shared.map (writeQueryError ctx) := by
      intro ps
      have hi : Inv ctx ps (built ctx ps) := inv_build ctx ps
      rw [hi.errors, writeShared_once ctx _ [] hi.firsts.once (by intro q _ hm; cases hm)]
    simp only [this]
  · rw [hz]
    have e : (Parts.build ctx l).count = (l.map (fun ps => (built ctx ps).counter.count)).sum := by
      rw [show (Parts.build ctx l).count = _ from hb.2]
      show 0 + _ = _
      rw [Nat.zero_add]
    rw [e]
    have hsum : ∀ l : List (List (Push V)), (l.map (fun ps => (built ctx ps).counter.count)).sum = 0 ↔
        ∀ x ∈ l.map (fun ps => (ps, (built ctx ps).part.shared)), ∀ c, 65536 ∣ (codesOf (fun i => (ctx.query i).code) x.1 x.2).count c := by
      intro l
      induction l with
      | nil => simp
      | cons ps l ih =>
        rw [List.map_cons, List.sum_cons, List.map_cons]
        have hone : (built ctx ps).counter.count = 0 ↔ ∀ c, 65536 ∣ (codesOf (fun i => (ctx.query i).code) ps (built ctx ps).part.shared).count c := by
          rw [count_zero]
          have hi : Inv ctx ps (built ctx ps) := inv_build ctx ps
          constructor
          · intro h c
            exact Nat.dvd_of_mod_eq_zero (by rw [← hi.counted c]; exact h c)
          · intro h c
            rw [hi.counted c]
            exact Nat.mod_eq_zero_of_dvd (h c)
        rw [Nat.add_eq_zero_iff, hone, ih]
        constructor
        · rintro ⟨h1, h2⟩ x hx
          rcases List.mem_cons.mp hx with rfl | hx
          · exact h1
          · exact h2 x hx
        · intro h
          exact ⟨h _ List.mem_cons_self, fun x hx => h x (List.mem_cons_of_mem _ hx)⟩
    exact hsum l
  · intro c
    rw [hz, List.map_map]
    have := build_counter ctx c l (Parts.new V) 0 rfl
    rw [show (Parts.build ctx l).counter c = _ from this, Nat.zero_add]
    rfl

theorem lengths {V : Type} (ps : List (Push V)) : (errorsOf ps).length + (queriesOf ps).length = ps.length := by
  induction ps with
  | nil => rfl
  | cons p ps ih =>
    cases p with
    | error e =>
      have e1 : errorsOf (.error e :: ps) = e :: errorsOf ps := rfl
      have e2 : queriesOf (.error e :: ps) = queriesOf ps := rfl
      rw [e1, e2, List.length_cons, List.length_cons]
      omega
    | query i l p =>
      have e1 : errorsOf (.query i l p :: ps) = errorsOf ps := rfl
      have e2 : queriesOf (.query i l p :: ps) = (i, l, p) :: queriesOf ps := rfl
      rw [e1, e2, List.length_cons, List.length_cons]
      omega

/-- Errors are written when there are any, as long as no part has too many. -/
theorem C89_errors_partial {V : Type} (ctx : Ctx V) (l : List (List (Push V))) (d x : Option V) (hl : ∀ ps ∈ l, ps.length < 65536) :
    HasErrors (write ctx (.executed d (Parts.build ctx l) x)) ↔ ∃ ps ∈ l, ps ≠ [] := by
  obtain ⟨qs, hlen, hq, _, hcount, _⟩ := C89_errors ctx l
  have hz : ∀ y ∈ l.zip qs, y.1 ∈ l ∧ Firsts (queriesOf y.1) y.2 := by
    intro y hy
    obtain ⟨i, hi⟩ := List.getElem?_of_mem hy
    rw [List.getElem?_zip_eq_some] at hi
    exact ⟨List.mem_of_getElem? hi.1, hq i y.1 y.2 hi.1 hi.2⟩
  have hlens := fun ps : List (Push V) => lengths ps
  have hiff : HasErrors (write ctx (.executed d (Parts.build ctx l) x)) ↔ (Parts.build ctx l).count ≠ 0 := by
    unfold HasErrors
    rw [write]
    constructor
    · rintro ⟨es, h⟩ h0
      rw [if_pos h0] at h
      simp only [List.append_nil, List.mem_append, List.mem_singleton] at h
      rcases h with h | h
      · cases h
      · cases x with
        | none => cases h
        | some y =>
          rw [extensionsEntry, List.mem_singleton] at h
          cases h
    · intro h0
      rw [if_neg h0]
      exact ⟨_, by simp; exact Or.inl rfl⟩
  rw [hiff, ne_eq, hcount]
  constructor
  · intro h
    apply Classical.byContradiction
    intro hn
    apply h
    intro y hy c
    obtain ⟨h1, h2⟩ := hz y hy
    have he : y.1 = [] := Classical.byContradiction fun e => hn ⟨y.1, h1, e⟩
    have hq0 : y.2 = [] := by
      have := h2.kept
      rw [he] at this
      exact List.sublist_nil.mp this
    rw [he, hq0]
    exact Nat.dvd_zero _
  · rintro ⟨ps, hps, hne⟩ h
    obtain ⟨i, hi⟩ := List.getElem?_of_mem hps
    have hil : i < qs.length := by
      rw [hlen]
      exact (List.getElem?_eq_some_iff.mp hi).1
    have hqi : qs[i]? = some qs[i] := List.getElem?_eq_getElem hil
    have hmem : (ps, qs[i]) ∈ l.zip qs := List.mem_of_getElem? (i := i) (List.getElem?_zip_eq_some.mpr ⟨hi, hqi⟩)
    have hf := hq i ps qs[i] hi hqi
    have hsmall : (codesOf (fun i => (ctx.query i).code) ps qs[i]).length < 65536 := by
      unfold codesOf
      rw [List.length_append, List.length_map, List.length_map]
      have := hlens ps
      have := hf.kept.length_le
      have := hl ps hps
      omega
    have hzero : ∀ c, (codesOf (fun i => (ctx.query i).code) ps qs[i]).count c = 0 := by
      intro c
      have h1 := h (ps, qs[i]) hmem c
      have h2 := List.count_le_length (a := c) (l := codesOf (fun i => (ctx.query i).code) ps qs[i])
      exact Nat.eq_zero_of_dvd_of_lt h1 (by omega)
    have hnil : codesOf (fun i => (ctx.query i).code) ps qs[i] = [] := by
      cases hcs : codesOf (fun i => (ctx.query i).code) ps qs[i] with
      | nil => rfl
      | cons c cs =>
        have := hzero c
        rw [hcs, List.count_cons_self] at this
        cases this
    unfold codesOf at hnil
    obtain ⟨h1, h2⟩ := List.append_eq_nil_iff.mp hnil
    have h1 : errorsOf ps = [] := List.map_eq_nil_iff.mp h1
    have h2 : qs[i] = [] := List.map_eq_nil_iff.mp h2
    have h3 : queriesOf ps = [] := by
      cases hqs : queriesOf ps with
      | nil => rfl
      | cons a as =>
        obtain ⟨y, hy, _⟩ := hf.all a (by rw [hqs]; exact List.mem_cons_self)
        rw [h2] at hy
        cases hy
    have := hlens ps
    rw [h1, h3] at this
    exact hne (List.length_eq_zero_iff.mp this.symm)

/-- FALSE that errors are written whenever there are any: 65536 errors with the same code in a part count as none. Nothing is written of them, and
the response counts as a success. -/
theorem C89_errors_false {V : Type} (ctx : Ctx V) (e : Err V) (d : Option V) :
    write ctx (.executed d (Parts.build ctx [List.replicate 65536 (.error e)]) none) = [.data d] ∧
    (Response.executed d (Parts.build ctx [List.replicate 65536 (.error e)]) none).graphqlStatus = .success := by
  have h0 : (Parts.build ctx [List.replicate 65536 (.error e)]).count = 0 := by
    obtain ⟨qs, hlen, hq, _, hcount, _⟩ := C89_errors ctx [List.replicate 65536 (Push.error e)]
    rw [hcount]
    intro x hx c
    obtain ⟨i, hi⟩ := List.getElem?_of_mem hx
    rw [List.getElem?_zip_eq_some] at hi
    have hx1 : x.1 = List.replicate 65536 (.error e) := List.mem_singleton.mp (List.mem_of_getElem? hi.1)
    have hf := hq i x.1 x.2 hi.1 hi.2
    have he : ∀ n, errorsOf (List.replicate n (Push.error e)) = List.replicate n e := by
      intro n
      induction n with
      | zero => rfl
      | succ n ih =>
        rw [List.replicate_succ, List.replicate_succ, ← ih]
        rfl
    have hqn : ∀ n, queriesOf (List.replicate n (Push.error e)) = [] := by
      intro n
      induction n with
      | zero => rfl
      | succ n ih =>
        rw [List.replicate_succ, ← ih]
        rfl
    have hx2 : x.2 = [] := by
      have := hf.kept
      rw [hx1, hqn] at this
      exact List.sublist_nil.mp this
    unfold codesOf
    rw [hx2, hx1, he, List.map_replicate, List.map_nil, List.append_nil, List.count_replicate]
    split
    · exact ⟨1, rfl⟩
    · exact Nat.dvd_zero _
  constructor
  · rw [write, if_pos h0]
    rfl
  · rw [Response.graphqlStatus, if_pos h0]

/-- FALSE for request errors likewise: 65536 of them make a failure of the server out of a mistake of the client. -/
theorem C89_status_false {V : Type} (e : Err V) (_ : e.code = .variableError) :
    computeStatus .graphqlResponseJson (Response.ofRequestErrors (List.replicate 65536 e)) = some 500 ∧
    ∀ n, 0 < n → n < 65536 → computeStatus .graphqlResponseJson (Response.ofRequestErrors (List.replicate n e)) = some 400 := by
  have hz : ∀ n c, Counter.ofErrors (List.replicate n e) c = (if e.code = c then n else 0) % 65536 := by
    intro n c
    rw [ofErrors_count, List.map_replicate, List.count_replicate]
    by_cases h : e.code = c <;> simp [h]
  constructor
  · have hv : (Counter.ofErrors (List.replicate 65536 e)).toVec = [] := by
      unfold Counter.toVec
      rw [List.filterMap_eq_nil_iff]
      intro c _
      rw [hz]
      rw [if_neg]
      split <;> decide
    unfold Response.ofRequestErrors computeStatus
    simp only
    rw [hv]
    rfl
  · intro n h1 h2
    obtain ⟨s, hs, hh⟩ := C89_status_partial (List.replicate n e) (by rw [List.length_replicate]; exact h2)
    rw [hs]
    have hin : ∃ c ∈ (List.replicate n e).map (·.code), httpStatus c = 400 :=
      ⟨.variableError, by rw [List.map_replicate, List.mem_replicate]; exact ⟨by omega, by simp_all⟩, rfl⟩
    unfold Helpful at hh
    simp only at hh
    rcases hh with h | h | h | h | h | h | h
    · rw [h.1]
    · exact absurd hin h.2.2
    · exact absurd hin h.2.2.1
    · exact absurd hin h.2.2.1
    · exact absurd hin h.2.2.1
    · exact absurd hin h.2.2.1
    · obtain ⟨c, hc, e1⟩ := hin
      have := h.2 c hc
      rw [e1] at this
      cases this

/-- The code of an error: the one its extensions have, or its own, as the configuration maps it. -/
theorem C89_code {V : Type} (keys : Nat → Str) (mapping : Str → Option Str) (e : Err V) :
    (writeError keys mapping e).extensions.filter (fun x => x.1 != "code".toList) = (e.extensions.filter (fun x => x.1 != "code".toList)).map (fun x => (x.1, .inr x.2)) ∧
    ((∀ x ∈ e.extensions, x.1 ≠ "code".toList) →
      (writeError keys mapping e).extensions.filter (fun x => x.1 == "code".toList) = [("code".toList, .inl ((mapping e.code.name).getD e.code.name))]) ∧
    ((∃ x ∈ e.extensions, x.1 = "code".toList) →
      (writeError keys mapping e).extensions.filter (fun x => x.1 == "code".toList) = (e.extensions.filter (fun x => x.1 == "code".toList)).map (fun x => (x.1, .inr x.2))) := by
  have hw : (writeError keys mapping e).extensions = writeExtensions mapping e.code e.extensions := rfl
  rw [hw]
  unfold writeExtensions
  simp only
  have hmapf : ∀ p : Str → Bool, (e.extensions.map (fun x => (x.1, (Sum.inr x.2 : Str ⊕ V)))).filter (fun x => p x.1) =
      (e.extensions.filter (fun x => p x.1)).map (fun x => (x.1, .inr x.2)) := by
    intro p
    rw [List.filter_map]
    rfl
  by_cases h : e.extensions.any (fun x => x.1 == "code".toList) = true
  · rw [if_pos h]
    obtain ⟨x, hx, he⟩ := List.any_eq_true.mp h
    refine ⟨hmapf (fun n => n != "code".toList), ?_, fun _ => hmapf (fun n => n == "code".toList)⟩
    intro hn
    exact absurd (by simpa using he) (hn x hx)
  · rw [if_neg h]
    have hn : ∀ x ∈ e.extensions, x.1 ≠ "code".toList := by
      intro x hx he
      exact h (List.any_eq_true.mpr ⟨x, hx, by simpa using he⟩)
    refine ⟨?_, ?_, ?_⟩
    · rw [List.filter_append, hmapf (fun n => n != "code".toList)]
      simp
    · intro _
      rw [List.filter_append, hmapf (fun n => n == "code".toList)]
      have : e.extensions.filter (fun x => x.1 == "code".toList) = [] := by
        rw [List.filter_eq_nil_iff]
        intro x hx
        simpa using hn x hx
      rw [this]
      cases mapping e.code.name <;> simp
    · rintro ⟨x, hx, he⟩
      exact absurd he (hn x hx)

/-- What is written of an error: its message, its locations if there are any, and its path, key by key. -/
theorem C89_written {V : Type} (keys : Nat → Str) (mapping : Str → Option Str) (e : Err V) :
    (writeError keys mapping e).message = e.message ∧
    (writeError keys mapping e).locations = (if e.locations = [] then none else some e.locations) ∧
    (e.path = none → (writeError keys mapping e).path = none) ∧
    (∀ p, e.path = some p → ∃ q, (writeError keys mapping e).path = some q ∧ q.length = p.length ∧
      ∀ i : Nat, (∀ k, p[i]? = some (.field k) → q[i]? = some (.inl (keys k))) ∧ (∀ n, p[i]? = some (.index n) → q[i]? = some (.inr n)) ∧
        (∀ n, p[i]? = some (.unknown n) → q[i]? = some (.inl n))) := by
  refine ⟨rfl, ?_, ?_, ?_⟩
  · show (if e.locations.isEmpty = true then none else some e.locations) = _
    cases e.locations <;> rfl
  · intro h
    show e.path.map (writePath keys) = none
    rw [h]
    rfl
  · intro p h
    refine ⟨writePath keys p, ?_, by unfold writePath; rw [List.length_map], ?_⟩
    · show e.path.map (writePath keys) = _
      rw [h]
      rfl
    · intro i
      unfold writePath
      rw [List.getElem?_map]
      refine ⟨?_, ?_, ?_⟩ <;> (intro k hk; rw [hk]; rfl)

/-- What is written of an error of the query: its message, with the location and path of the field. -/
theorem C89_written_query {V : Type} (ctx : Ctx V) (i : Nat) (l : Location) (p : List Seg) :
    (writeQueryError ctx (i, l, p)).message = (ctx.query i).message ∧
    (writeQueryError ctx (i, l, p)).locations = some [l] ∧
    (writeQueryError ctx (i, l, p)).path = (writeError ctx.keys ctx.mapping { ctx.query i with path := some p }).path ∧
    (writeQueryError ctx (i, l, p)).extensions = (writeError ctx.keys ctx.mapping (ctx.query i)).extensions :=
  ⟨rfl, rfl, rfl, rfl⟩

theorem sum_cons_count (c : Code) (l : List Code) : ∀ A : List Code, (A.map (fun x => (c :: l).count x)).sum = (A.map (fun x => l.count x)).sum + A.count c
  | [] => rfl
  | a :: A => by
    rw [List.map_cons, List.sum_cons, List.map_cons, List.sum_cons, sum_cons_count c l A, List.count_cons, List.count_cons]
    by_cases h : a = c
    · rw [h]
      omega
    · have h1 : (c == a) = false := by simpa using fun e => h e.symm
      have h2 : (a == c) = false := by simpa using h
      rw [h1, h2]
      simp only [Bool.false_eq_true, if_false]
      omega

theorem sum_counts : ∀ l : List Code, (Code.all.map (fun c => l.count c)).sum = l.length
  | [] => by decide
  | c :: l => by
    rw [sum_cons_count, sum_counts l, List.length_cons]
    have : Code.all.count c = 1 := by cases c <;> decide
    rw [this]

/-- As many errors are counted as are written, as long as no part has too many. -/
theorem C89_count {V : Type} (ctx : Ctx V) (l : List (List (Push V))) (hl : ∀ ps ∈ l, ps.length < 65536) (d x : Option V) :
    (Parts.build ctx l).count = (writeParts ctx (Parts.build ctx l)).length ∧
    (Response.executed d (Parts.build ctx l) x).graphqlStatus =
      if (writeParts ctx (Parts.build ctx l)).length = 0 then .success else .fieldError (writeParts ctx (Parts.build ctx l)).length d.isNone := by
  have key : (Parts.build ctx l).count = (writeParts ctx (Parts.build ctx l)).length := by
    have hb := build_eq ctx l (Parts.new V)
    have e1 : (Parts.build ctx l).count = (l.map (fun ps => (built ctx ps).counter.count)).sum := by
      rw [show (Parts.build ctx l).count = _ from hb.2]
      show 0 + _ = _
      rw [Nat.zero_add]
    have e2 : (Parts.build ctx l).parts = l.map (fun ps => (built ctx ps).part) := by
      rw [show (Parts.build ctx l).parts = _ from hb.1]
      rfl
    unfold writeParts
    rw [e1, e2, List.flatMap_map, List.length_flatMap]
    congr 1
    apply List.map_congr_left
    intro ps hps
    have hi : Inv ctx ps (built ctx ps) := inv_build ctx ps
    have hlen : (codesOf (fun i => (ctx.query i).code) ps (built ctx ps).part.shared).length =
        (built ctx ps).part.errors.length + (built ctx ps).part.shared.length := by
      unfold codesOf
      rw [List.length_append, List.length_map, List.length_map, hi.errors]
    have hsmall : (codesOf (fun i => (ctx.query i).code) ps (built ctx ps).part.shared).length ≤ ps.length := by
      rw [hlen, hi.errors]
      have h1 := hi.firsts.kept.length_le
      have h2 := lengths ps
      omega
    have hps' := hl ps hps
    rw [writeShared_once ctx _ [] hi.firsts.once (by intro q _ hm; cases hm), List.length_append, List.length_map, List.length_map, ← hlen, count_eq,
      ← sum_counts (codesOf (fun i => (ctx.query i).code) ps (built ctx ps).part.shared)]
    congr 1
    apply List.map_congr_left
    intro c _
    rw [hi.counted c]
    apply Nat.mod_eq_of_lt
    have := List.count_le_length (a := c) (l := codesOf (fun i => (ctx.query i).code) ps (built ctx ps).part.shared)
    omega
  refine ⟨key, ?_⟩
  rw [Response.graphqlStatus, key]

/-! ## Streams -/

theorem stream_foldl : ∀ (rest done : List GraphqlStatus) (s : GraphqlStatus), StreamStatus done s →
    StreamStatus (done ++ rest) (rest.foldl GraphqlStatus.union s)
  | [], done, s, h => by simpa using h
  | y :: rest, done, s, h => by
    have e : done ++ y :: rest = (done ++ [y]) ++ rest := by simp
    rw [e, List.foldl_cons]
    apply stream_foldl rest
    rcases h with ⟨hm, rfl⟩ | ⟨hn, a, n, b, hd, ha, rfl⟩ | ⟨hn, hnr, a, n, d, b, hd, ha, rfl⟩ | ⟨hall, rfl⟩
    · refine Or.inl ⟨List.mem_append_left _ hm, ?_⟩
      cases y <;> rfl
    · cases y with
      | refusedRequest => exact Or.inl ⟨by simp, rfl⟩
      | _ =>
        refine Or.inr (Or.inl ⟨by simp [hn], a, n, b ++ [_], by rw [hd]; simp; rfl, ha, rfl⟩)
    · cases y with
      | refusedRequest => exact Or.inl ⟨by simp, rfl⟩
      | requestError m => exact Or.inr (Or.inl ⟨by simp [hn], done, m, [], rfl, hnr, rfl⟩)
      | success =>
        refine Or.inr (Or.inr (Or.inl ⟨by simp [hn], by intro m; simp [hnr m], a, n, d, b ++ [.success], by rw [hd]; simp, ha, ?_⟩))
        rw [List.map_append, List.sum_append]
        simp [GraphqlStatus.union, fieldErrors]
      | fieldError m d' =>
        refine Or.inr (Or.inr (Or.inl ⟨by simp [hn], by intro m; simp [hnr m], a, n, d, b ++ [.fieldError m d'], by rw [hd]; simp, ha, ?_⟩))
        rw [List.map_append, List.sum_append]
        simp [GraphqlStatus.union, fieldErrors]
    · have hsum : (done.map fieldErrors).sum = 0 := by
        have : ∀ l : List GraphqlStatus, (∀ x ∈ l, x = .success) → (l.map fieldErrors).sum = 0 := by
          intro l
          induction l with
          | nil => intro _; rfl
          | cons x l ih =>
            intro h
            rw [List.map_cons, List.sum_cons, h x List.mem_cons_self, ih (fun y hy => h y (List.mem_cons_of_mem _ hy))]
            rfl
        exact this done hall
      have hno : ∀ z, z ≠ GraphqlStatus.success → z ∉ done := fun z hz hm => hz (hall z hm)
      cases y with
      | refusedRequest => exact Or.inl ⟨by simp, rfl⟩
      | requestError m =>
        exact Or.inr (Or.inl ⟨by simp [hno .refusedRequest (by simp)], done, m, [], rfl, fun k => hno _ (by simp), rfl⟩)
      | success =>
        refine Or.inr (Or.inr (Or.inr ⟨?_, rfl⟩))
        intro x hx
        rcases List.mem_append.mp hx with hx | hx
        · exact hall x hx
        · exact List.mem_singleton.mp hx
      | fieldError m d' =>
        refine Or.inr (Or.inr (Or.inl ⟨by simp [hno .refusedRequest (by simp)], by intro k; simp [hno (.requestError k) (by simp)], done, m, d', [], rfl, hall, ?_⟩))
        rw [List.map_append, List.sum_append, hsum]
        simp [GraphqlStatus.union, fieldErrors]

/-- The status of a stream: refused if a response is, else of its first request error, else of its field errors, all counted; else success. -/
theorem C89_stream_status {V : Type} (rs : List (Response V)) : StreamStatus (rs.map Response.graphqlStatus) (streamStatus rs) := by
  unfold streamStatus
  have h : rs.foldl (fun s r => s.union r.graphqlStatus) .success = (rs.map Response.graphqlStatus).foldl GraphqlStatus.union .success := by
    rw [List.foldl_map]
  rw [h]
  have := stream_foldl (rs.map Response.graphqlStatus) [] .success (Or.inr (Or.inr (Or.inr ⟨by intro x hx; (cases hx), rfl⟩)))
  simpa using this

/-! ## Bodies and telemetry of responses which are not executed -/

/-- What is written of a request error: its errors, with their messages, in order, and no data. -/
theorem C89_request_error {V : Type} (ctx : Ctx V) (errors : List (Err V)) (h : errors ≠ []) :
    ∃ l, write ctx (Response.ofRequestErrors errors) = [.errors l] ∧ l.map (·.message) = errors.map (·.message) ∧
      l.map (·.locations) = errors.map (fun e => if e.locations = [] then none else some e.locations) := by
  have hn : ¬ errors.isEmpty = true := by
    cases errors with
    | nil => exact absurd rfl h
    | cons e es => simp
  refine ⟨errors.map (writeError (fun _ => []) ctx.mapping), ?_, ?_, ?_⟩
  · unfold Response.ofRequestErrors
    rw [write, if_neg hn]
    rfl
  · rw [List.map_map]
    rfl
  · rw [List.map_map]
    apply List.map_congr_left
    intro e _
    show (if e.locations.isEmpty = true then none else some e.locations) = _
    cases e.locations <;> rfl

/-- The errors of a request are counted by their codes, if they are not too many. -/
theorem C89_telemetry {V : Type} (ctx : Ctx V) (len : Body V → Str) (f : Format) (errors : List (Err V)) (he : errors.length < 65536) (h : Http V)
    (hc : complete ctx len f (Response.ofRequestErrors errors) = some h) (c : Code) (n : Nat) :
    (c, n) ∈ h.telemetry ↔ n = (errors.filter (fun e => e.code == c)).length ∧ 0 < n := by
  unfold complete at hc
  simp only at hc
  split at hc
  · cases hc
  · cases hc
    show (c, n) ∈ (Counter.ofErrors errors).toVec ↔ _
    have hle : (errors.map (·.code)).count c < 65536 := by
      have := List.count_le_length (a := c) (l := errors.map (·.code))
      rw [List.length_map] at this
      omega
    have hcount : (errors.map (·.code)).count c = (errors.filter (fun e => e.code == c)).length := by
      rw [List.count_eq_countP, List.countP_map, List.countP_eq_length_filter]
      rfl
    rw [toVec_mem, ofErrors_count, Nat.mod_eq_of_lt hle, hcount]

theorem add_foldl {V : Type} (c : Code) : ∀ (rs : List (Response V)) (k : Counter) (n : Nat), k c = n % 65536 →
    rs.foldl (fun k r => k.add r.counter) k c = (n + (rs.map (fun r => r.counter c)).sum) % 65536
  | [], k, n, h => by simpa using h
  | r :: rs, k, n, h => by
    rw [List.foldl_cons, add_foldl c rs (k.add r.counter) (n + r.counter c), List.map_cons, List.sum_cons, Nat.add_assoc]
    show (k c + r.counter c) % 65536 = _
    rw [h, Nat.mod_add_mod]

/-- The errors of a batch, or of a stream, are counted together. -/
theorem C89_telemetry_all {V : Type} (ctx : Ctx V) (len : Body V → Str) (f : Format) (rs : List (Response V)) (h : Http V)
    (hc : batch ctx len f rs = some h ∨ (rs ≠ [] ∧ stream ctx len f rs = some h)) (c : Code) (hsum : (rs.map (fun r => r.counter c)).sum < 65536) (n : Nat) :
    (c, n) ∈ h.telemetry ↔ n = (rs.map (fun r => r.counter c)).sum ∧ 0 < n := by
  have ht : h.telemetry = (rs.foldl (fun k r => k.add r.counter) Counter.zero).toVec := by
    rcases hc with hc | ⟨hne, hc⟩
    · unfold batch at hc
      simp only at hc
      split at hc
      · cases hc
      · cases hc; rfl
    · cases rs with
      | nil => exact absurd rfl hne
      | cons r rs =>
        rw [stream] at hc
        unfold streaming at hc
        split at hc
        · cases hc
        · split at hc
          · cases hc
          · cases hc; rfl
  rw [ht, toVec_mem, add_foldl c rs Counter.zero 0 rfl, Nat.zero_add, Nat.mod_eq_of_lt hsum]

/-! ## Cases -/

def anErr (c : Code) : Err Nat := ⟨"no".toList, c, [], [], none⟩

def aCtx : Ctx Nat := ⟨fun _ => "k".toList, fun c => if c = "BAD_REQUEST".toList then some "OOPS".toList else none, fun _ => anErr .unauthorized⟩

def noLen : Body Nat → Str := fun _ => "7".toList

theorem C89_status_case :
    (([[Code.unauthenticated, .unauthorized], [.unauthorized, .unauthenticated], [.gatewayTimeout, .subgraphError], [.rateLimited, .internalServerError, .variableError], []] :
      List (List Code)).map (fun l => computeStatus .graphqlResponseJson (Response.ofRequestErrors (l.map anErr)))) =
      [some 403, some 403, some 502, some 400, some 500] := by
  decide +kernel

theorem C89_batch_case :
    ([[503, 401, 403], [503, 504, 200], [200, 204], []] : List (List Nat)).map
      (fun l => batchStatus .json 200 (l.map (fun s => (Response.refusedRequest s [] [] : Response Nat)))) = [some 401, some 504, some 200, some 200] := by
  decide +kernel

/-- A query error pushed twice is written once. -/
theorem C89_errors_case :
    (writeParts aCtx (Parts.build aCtx [[.query 3 (1, 2) [.field 0], .error (anErr .badRequest), .query 3 (4, 5) [.index 1]], [.query 3 (4, 5) [.index 1]]])).map
      (fun w => (w.message, w.locations, w.path, w.extensions)) =
    [("no".toList, none, none, [("code".toList, .inl "OOPS".toList)]),
      ("no".toList, some [(1, 2)], some [.inl "k".toList], [("code".toList, .inl "UNAUTHORIZED".toList)]),
      ("no".toList, some [(4, 5)], some [.inr 1], [("code".toList, .inl "UNAUTHORIZED".toList)])] := by
  rfl

/-- FALSE that the headers a request is refused with are sent: not in streams, and not in batches. -/
theorem C89_headers_false :
    let r : Response Nat := Response.refusedRequest 401 [anErr .unauthenticated] [("www-authenticate".toList, "Bearer".toList)]
    ((httpError aCtx noLen .json r).map (fun h => h.headers.map (·.1))) = some ["www-authenticate".toList, contentType, contentLength] ∧
    ((httpError aCtx noLen .sse r).map (fun h => h.headers.map (·.1))) = some [cacheControl, contentType] ∧
    ((batch aCtx noLen .json [r]).map (fun h => h.headers.map (·.1))) = some [contentType, contentLength] := by
  decide +kernel

end Verif.HttpStatus
