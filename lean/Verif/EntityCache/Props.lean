import Verif.EntityCache.Lemmas

namespace Verif.EntityCache

/-! ## Specification -/

/-- The response does not forbid shared storage. -/
def Storable (cc : Option CacheControl) : Prop :=
  ∀ c, cc = some c → c.isPrivate = false ∧ c.noStore = false

/-- Longest time a response may be kept: `max-age` minus `age`, or the subgraph's default. -/
def lifetime (cc : Option CacheControl) (age : Option Nat) (dflt : Nat) : Nat :=
  match cc.bind (·.maxAge) with
  | some m => m - age.getD 0
  | none => dflt

/-- `data` was received for request `r` at some point of the history `h`, as a successful storable response,
and its lifetime runs at least until `until_`. -/
def ReceivedFor (h : List Event) (r : Req) (data : Bytes) (until_ : Nat) : Prop :=
  ∃ dflt now later cc age, .fetch (some dflt) now later r (.response (some true) cc age data) ∈ h ∧
    Storable cc ∧ until_ ≤ later + lifetime cc age dflt

/-- Well-formed request: limits of `http::HeaderMap`, subgraph names are GraphQL names. -/
structure Req.Wf (r : Req) : Prop where
  name : ∀ x ∈ r.name, x ≠ 0
  headers : WfHeaders r.headers

/-- What is sent to a subgraph on behalf of a fetch. -/
def Req.sentContent (r : Req) : Bytes × Headers × Option Bytes × Bytes :=
  (r.name, r.headers, if r.root then none else some r.query, r.payload)

/-- All requests of a history are well formed. -/
def WfHistory (h : List Event) : Prop :=
  ∀ ttl now later r up, .fetch ttl now later r up ∈ h → r.Wf

/-! ## C22 -/

theorem ttl_spec {success : Bool} {cc age} {dflt : Option Nat} {t : Nat}
    (h : calculateCacheTtl success cc age dflt = .ttl t) :
    success = true ∧ Storable cc ∧ ∃ d, dflt = some d ∧ t = lifetime cc age d := by
  unfold calculateCacheTtl at h
  cases dflt with
  | none => simp at h
  | some d =>
    cases success with
    | false => simp at h
    | true =>
      cases cc with
      | none =>
        simp at h
        exact ⟨rfl, fun _ h => by simp at h, d, rfl, by simp [lifetime, h]⟩
      | some c =>
        cases hp : c.isPrivate <;> cases hn : c.noStore <;> simp [hp, hn] at h
        have hs : Storable (some c) := fun c' h' => by
          simp at h'
          subst h'
          exact ⟨hp, hn⟩
        cases hm : c.maxAge with
        | none =>
          simp [hm] at h
          exact ⟨rfl, hs, d, rfl, by simp [lifetime, hm, h]⟩
        | some m =>
          simp only [hm] at h
          split at h
          · simp at h
          · simp at h
            exact ⟨rfl, hs, d, rfl, by simp [lifetime, hm, h]⟩

/-- A lifetime is computed exactly when caching is enabled, the response is a storable success (and
`age ≤ max-age`, see `C22_crash`), and it is the permitted lifetime. -/
theorem C22_ttl_exact_partial (success : Bool) (cc : Option CacheControl) (age dflt : Option Nat)
    (hage : ∀ m, cc.bind (·.maxAge) = some m → age.getD 0 ≤ m) (t : Nat) :
    calculateCacheTtl success cc age dflt = .ttl t ↔
      success = true ∧ Storable cc ∧ ∃ d, dflt = some d ∧ t = lifetime cc age d := by
  refine ⟨ttl_spec, ?_⟩
  rintro ⟨rfl, hs, d, rfl, rfl⟩
  cases cc with
  | none => simp [calculateCacheTtl, lifetime]
  | some c =>
    obtain ⟨hp, hn⟩ := hs c rfl
    cases hm : c.maxAge with
    | none => simp [calculateCacheTtl, lifetime, hp, hn, hm]
    | some m =>
      have := hage m (by simp [hm])
      simp [calculateCacheTtl, lifetime, hp, hn, hm]
      omega

/-- Without an `age` above `max-age` the computation never panics. -/
theorem C22_no_crash_partial (success : Bool) (cc : Option CacheControl) (age dflt : Option Nat)
    (hage : ∀ m, cc.bind (·.maxAge) = some m → age.getD 0 ≤ m) :
    calculateCacheTtl success cc age dflt ≠ .panic := by
  unfold calculateCacheTtl
  cases dflt with
  | none => simp
  | some d =>
    cases success with
    | false => simp
    | true =>
      cases cc with
      | none => simp
      | some c =>
        cases hm : c.maxAge with
        | none => simp only [hm]; split <;> (try split) <;> simp
        | some m =>
          have := hage m (by simp [hm])
          simp only [hm]
          split <;> (try split) <;> (try split) <;> (try simp)
          all_goals omega

/-- `Cache-Control: max-age=10` with `Age: 11` panics. -/
theorem C22_crash : ∃ cc age dflt, Storable cc ∧ calculateCacheTtl true cc age dflt = .panic :=
  ⟨some ⟨false, false, some 10⟩, some 11, some 60, fun c h => by simp at h; subst h; exact ⟨rfl, rfl⟩, rfl⟩

/-- Where the entries of a store come from. -/
def Justified (h : List Event) (s : Store) : Prop :=
  ∀ k e, (k, e) ∈ s → ∃ r, k = cacheKey r.name r.headers r.payload ∧ ReceivedFor h r e.data e.expiresAt

theorem ReceivedFor.mono {h h' : List Event} {r d u} (hs : ∀ x ∈ h, x ∈ h') (hr : ReceivedFor h r d u) :
    ReceivedFor h' r d u := by
  obtain ⟨dflt, now, later, cc, age, hm, hst⟩ := hr
  exact ⟨dflt, now, later, cc, age, hs _ hm, hst⟩

theorem Justified.filter {h s} (p : Bytes × Entry → Bool) (hj : Justified h s) : Justified h (s.filter p) :=
  fun k e hk => hj k e (List.mem_filter.1 hk).1

theorem Justified.get {h s} (hj : Justified h s) (now key) : Justified h (Store.get s now key).2 := by
  unfold Store.get
  split
  · exact hj
  · split
    · exact hj.filter _
    · exact hj

theorem Justified.step {h s} (hj : Justified h s) (ev : Event) : Justified (h ++ [ev]) (step s ev) := by
  have hj' : Justified (h ++ [ev]) s := fun k e hk =>
    let ⟨r, h1, h2⟩ := hj k e hk
    ⟨r, h1, h2.mono (by simp +contextual)⟩
  cases ev with
  | evict k => exact hj'.filter _
  | fetch ttl now later r up =>
    simp only [Verif.EntityCache.step, Verif.EntityCache.fetch]
    cases ttl with
    | none => cases up <;> exact hj'
    | some dflt =>
      have hg := hj'.get now (cacheKey r.name r.headers r.payload)
      simp only
      cases hgd : Store.get s now (cacheKey r.name r.headers r.payload) with
      | mk o s' =>
        rw [hgd] at hg
        simp only at hg
        cases o with
        | some d => exact hg
        | none =>
          cases up with
          | failed => exact hg
          | response success cc age d =>
            simp only
            split
            · rename_i hsucc
              subst hsucc
              split
              · exact hg
              · exact hg
              · rename_i t ht
                obtain ⟨-, hst, d', hd', rfl⟩ := ttl_spec ht
                simp at hd'
                subst hd'
                intro k e hk
                simp only [Store.put, List.mem_cons, Prod.mk.injEq] at hk
                rcases hk with ⟨rfl, rfl⟩ | hk
                · exact ⟨r, rfl, dflt, now, later, cc, age, by simp, hst, Nat.le_refl _⟩
                · exact hg k e hk
            · exact hg

theorem justified_run (h : List Event) : Justified h (run h) := by
  have : ∀ (h₂ h₁ : List Event) (s : Store), Justified h₁ s → Justified (h₁ ++ h₂) (h₂.foldl step s) := by
    intro h₂
    induction h₂ with
    | nil => intro h₁ s hj; simpa using hj
    | cons ev h₂ ih =>
      intro h₁ s hj
      have := ih (h₁ ++ [ev]) (step s ev) (hj.step ev)
      simpa using this
  simpa [run] using this h [] [] (fun k e hk => by simp at hk)

/-- After any history, whatever is stored was received as a successful storable response while caching was
enabled, and expires no later than its lifetime permits. -/
theorem C22_stored (h : List Event) (k : Bytes) (e : Entry) (hk : (k, e) ∈ run h) :
    ∃ r, ReceivedFor h r e.data e.expiresAt :=
  let ⟨r, _, hr⟩ := justified_run h k e hk
  ⟨r, hr⟩

theorem hit_lookup {s : Store} {now key d s'} (h : Store.get s now key = (some d, s')) :
    ∃ e, (key, e) ∈ s ∧ e.data = d ∧ now ≤ e.expiresAt := by
  unfold Store.get at h
  split at h
  · simp at h
  · rename_i e he
    split at h
    · simp at h
    · simp at h
      refine ⟨e, ?_, h.1, by omega⟩
      obtain ⟨l₁, l₂, e1, -⟩ := List.lookup_eq_some_iff.1 he
      simp [e1]

theorem unsent_hit {ttl s now later r up} (h : (fetch ttl s now later r up).sent = false) :
    ∃ d s', Store.get s now (cacheKey r.name r.headers r.payload) = (some d, s') ∧
      (fetch ttl s now later r up).data = some d := by
  unfold fetch at h ⊢
  cases ttl with
  | none => cases up <;> simp at h
  | some dflt =>
    simp only at h ⊢
    cases hgd : Store.get s now (cacheKey r.name r.headers r.payload) with
    | mk o s' =>
      cases o with
      | some d => exact ⟨d, s', rfl, rfl⟩
      | none =>
        rw [hgd] at h
        cases up with
        | failed => simp at h
        | response success cc age d =>
          simp only at h
          split at h
          · split at h <;> simp at h
          · simp at h

/-- After any history, data used without asking the subgraph was received as a successful storable response
and is still within its lifetime. -/
theorem C22_served_fresh (h : List Event) (ttl : Option Nat) (now later : Nat) (r : Req) (up : Upstream)
    (hu : (fetch ttl (run h) now later r up).sent = false) :
    ∃ r' d, (fetch ttl (run h) now later r up).data = some d ∧ ReceivedFor h r' d now := by
  obtain ⟨d, s', hg, hd⟩ := unsent_hit hu
  obtain ⟨e, he, rfl, hexp⟩ := hit_lookup hg
  obtain ⟨r', -, dflt, n, l, cc, age, hm, hst, hle⟩ := justified_run h _ _ he
  exact ⟨r', e.data, hd, dflt, n, l, cc, age, hm, hst, by omega⟩

/-- What the configuration asks for: the subgraph's settings, each defaulting to the global one. -/
def configuredTtl (g : CacheConfig) (s : Option SubgraphCacheConfig) : Option Nat :=
  let enabled := (s.bind (·.enabled)).getD g.enabled
  let ttl := (s.bind (·.ttl)).getD g.ttl
  if enabled then some ttl else none

/-- `entity_caching.enabled = false` on a subgraph has no effect when caching is enabled globally. -/
theorem C22_subgraph_disable_ignored (g : CacheConfig) (hg : g.enabled = true) (ttl : Option Nat) :
    subgraphCacheTtl g (some ⟨some false, ttl⟩) = some g.ttl ∧
      configuredTtl g (some ⟨some false, ttl⟩) = none := by
  simp [subgraphCacheTtl, configuredTtl, defaultCacheTtl, hg]

/-- The lifetime used for a subgraph is the configured one, unless the subgraph disables caching that is
enabled globally, or enables it without a lifetime while it is disabled globally. -/
theorem C22_config_partial (g : CacheConfig) (s : Option SubgraphCacheConfig)
    (h1 : ∀ c, s = some c → c.enabled = some false → g.enabled = false)
    (h2 : ∀ c, s = some c → c.enabled = some true → c.ttl = none → g.enabled = true) :
    subgraphCacheTtl g s = configuredTtl g s := by
  cases s with
  | none => simp [subgraphCacheTtl, configuredTtl, defaultCacheTtl]
  | some c =>
    obtain ⟨e, t⟩ := c
    cases e with
    | none => cases t <;> cases hg : g.enabled <;> simp [subgraphCacheTtl, configuredTtl, defaultCacheTtl, hg]
    | some b =>
      cases b with
      | false => simp [subgraphCacheTtl, configuredTtl, defaultCacheTtl, h1 _ rfl rfl]
      | true =>
        cases t with
        | none => simp [subgraphCacheTtl, configuredTtl, defaultCacheTtl, h2 _ rfl rfl rfl]
        | some t => simp [subgraphCacheTtl, configuredTtl]

example : subgraphCacheTtl ⟨false, 60⟩ (some ⟨some true, some 5⟩) = some 5 := rfl
example : subgraphCacheTtl ⟨true, 60⟩ (some ⟨none, none⟩) = some 60 := rfl

/-! ## C23 -/

/-- The key separates subgraph, headers and payload. -/
theorem C23_key_injective (r r' : Req) (hr : r.Wf) (hr' : r'.Wf)
    (h : cacheKey r.name r.headers r.payload = cacheKey r'.name r'.headers r'.payload) :
    r.name = r'.name ∧ r.headers = r'.headers ∧ r.payload = r'.payload :=
  cacheKey_inj hr.name hr'.name hr.headers hr'.headers h

/-- After any history, data used without asking the subgraph was received for a request to the same
subgraph with the same headers and the same payload; for root fetches following only root fetches this is
the same request. Missing: entities, where the payload does not contain the selection
(`C23_entity_counterexample`). -/
theorem C23_same_request_partial (h : List Event) (hwf : WfHistory h) (ttl : Option Nat) (now later : Nat)
    (r : Req) (hr : r.Wf) (up : Upstream) (hu : (fetch ttl (run h) now later r up).sent = false) :
    ∃ r' d, (fetch ttl (run h) now later r up).data = some d ∧ ReceivedFor h r' d now ∧
      r'.name = r.name ∧ r'.headers = r.headers ∧ r'.payload = r.payload ∧
      (r.root = true → r'.root = true → r'.sentContent = r.sentContent) := by
  obtain ⟨d, s', hg, hd⟩ := unsent_hit hu
  obtain ⟨e, he, rfl, hexp⟩ := hit_lookup hg
  obtain ⟨r', hk, dflt, n, l, cc, age, hm, hst, hle⟩ := justified_run h _ _ he
  obtain ⟨h1, h2, h3⟩ := C23_key_injective r r' hr (hwf _ _ _ _ _ hm) hk
  refine ⟨r', e.data, hd, ⟨dflt, n, l, cc, age, hm, hst, by omega⟩, h1.symm, h2.symm, h3.symm, ?_⟩
  intro a b
  simp [Req.sentContent, a, b, h1, h2, h3]

def entityA : Req := ⟨false, false, [97], [], [1], [9]⟩
def entityB : Req := ⟨false, false, [97], [], [2], [9]⟩

/-- Two entity fetches with the same representation and different selections share a cache entry: the second
is answered with the data of the first. -/
theorem C23_entity_counterexample :
    ∃ (h : List Event) (r : Req) (up : Upstream) (d : Bytes), WfHistory h ∧ r.Wf ∧
      (fetch (some 60) (run h) 1 1 r up).sent = false ∧ (fetch (some 60) (run h) 1 1 r up).data = some d ∧
      ∀ ttl now later r' cc age, .fetch ttl now later r' (.response (some true) cc age d) ∈ h →
        r'.sentContent ≠ r.sentContent := by
  refine ⟨[.fetch (some 60) 0 0 entityA (.response (some true) none none [7])], entityB, .failed, [7],
    ?_, ⟨by decide, by decide, by decide, by decide⟩, by decide, by decide, ?_⟩
  · intro ttl now later r up hm
    simp at hm
    obtain ⟨-, -, -, rfl, -⟩ := hm
    exact ⟨by decide, by decide, by decide, by decide⟩
  · intro ttl now later r' cc age hm
    simp at hm
    obtain ⟨-, -, -, rfl, -⟩ := hm
    decide

/-! ## C24 -/

def mutationReq : Req := ⟨true, true, [97], [], [1], [9]⟩

/-- With caching enabled, the second of two identical mutations is not sent. -/
theorem C24_counterexample :
    ∃ (h : List Event) (r : Req) (up : Upstream), r.mutation = true ∧ r.Wf ∧
      (fetch (some 60) (run h) 1 1 r up).sent = false :=
  ⟨[.fetch (some 60) 0 0 mutationReq (.response (some true) none none [7])], mutationReq, .failed,
    rfl, ⟨by decide, by decide, by decide, by decide⟩, by decide⟩

/-- A fetch (in particular a mutation) is sent when caching is disabled for the subgraph, or when no earlier
fetch with the same subgraph, headers and payload got a storable response whose lifetime includes now. -/
theorem C24_sent_partial (h : List Event) (hwf : WfHistory h) (ttl : Option Nat) (now later : Nat)
    (r : Req) (hr : r.Wf) (up : Upstream)
    (hfresh : ttl = none ∨ ∀ r' d, r'.name = r.name → r'.headers = r.headers → r'.payload = r.payload →
      ¬ ReceivedFor h r' d now) :
    (fetch ttl (run h) now later r up).sent = true := by
  cases hs : (fetch ttl (run h) now later r up).sent with
  | true => rfl
  | false =>
    rcases hfresh with rfl | hf
    · cases up <;> simp [fetch] at hs
    · obtain ⟨r', d, -, hrec, h1, h2, h3, -⟩ := C23_same_request_partial h hwf ttl now later r hr up hs
      exact (hf r' d h1 h2 h3 hrec).elim

/-! ## Non-vacuity -/

/-- A request with a header, answered from the cache after an earlier identical one, until it expires. -/
def rootReq : Req := ⟨true, false, [97, 98], [([120], [1, 0, 255])], [1], [9]⟩

def rootHistory : List Event :=
  [.fetch (some 60) 0 1 rootReq (.response (some true) (some ⟨false, false, some 10⟩) (some 4) [7]),
   .evict [0]]

example : rootReq.Wf := ⟨by decide, by decide, by decide, by decide⟩
example : (fetch (some 60) (run rootHistory) 7 8 rootReq .failed).sent = false := by decide
example : (fetch (some 60) (run rootHistory) 7 8 rootReq .failed).data = some [7] := by decide
example : (fetch (some 60) (run rootHistory) 8 8 rootReq .failed).sent = true := by decide
example : (run rootHistory).length = 1 := by decide
example : calculateCacheTtl true (some ⟨false, false, some 10⟩) (some 4) (some 60) = .ttl 6 := rfl
/-- Hypotheses of `C24_sent_partial` hold on a history whose entry has expired. -/
example : (fetch (some 60) (run rootHistory) 8 8 rootReq .failed).sent = true :=
  C24_sent_partial rootHistory
    (fun _ _ _ _ _ hm => by
      simp [rootHistory] at hm
      obtain ⟨-, -, -, rfl, -⟩ := hm
      exact ⟨by decide, by decide, by decide, by decide⟩)
    (some 60) 8 8 rootReq ⟨by decide, by decide, by decide, by decide⟩ .failed
    (Or.inr fun r' d _ _ _ ⟨dflt, now, later, cc, age, hm, _, hle⟩ => by
      simp [rootHistory] at hm
      obtain ⟨-, -, rfl, -, rfl, rfl, -⟩ := hm
      simp [lifetime] at hle)

end Verif.EntityCache
