import Verif.Batches.Lemmas

/-!
# C94: what becomes of batches and other requests, and what the gateway tells about itself
-/
namespace Verif.Batches

variable {σ Q O P : Type}

/-! ## Batches -/

/-- C94. The requests of a batch which the settings allow are answered one after another, in their order, each in the world which
the one before has left, if all of that is done in time. -/
theorem C94_batch {w : World σ Q O P} (hw : w.Plain) {cfg : Settings} {hive : Bool} {ctx : Ctx} {f : Nat}
    (hf : ctx.format = .complete f) (qs : List Q) (s : σ) {rs : List (Resp P)} {s' : σ} {t : Nat}
    (ha : Answers w cfg ctx qs s rs s' t) (hok : Allowed cfg qs.length) (ht : InTime cfg.timeout w.tie t) :
    executeRequests w cfg hive ctx s (.batch qs) = { http := .batch f rs, time := t, state := s', reports := 0 } := by
  obtain ⟨h1, h2, h3⟩ := answers_unique ha (all_answers hw cfg ctx qs s)
  subst h1 h2 h3
  rw [batch_eq hf hok, withTimeout_in ht]

/-- C94. There are answers for every list of requests, and only one: the theorems about `Answers` are not about nothing. -/
theorem C94_answers {w : World σ Q O P} (hw : w.Plain) (cfg : Settings) (ctx : Ctx) (qs : List Q) (s : σ) :
    ∃ rs s' t, Answers w cfg ctx qs s rs s' t ∧ rs.length = qs.length ∧
      ∀ rs₂ s₂ t₂, Answers w cfg ctx qs s rs₂ s₂ t₂ → rs₂ = rs ∧ s₂ = s' ∧ t₂ = t := by
  refine ⟨_, _, _, all_answers hw cfg ctx qs s, ?_, fun _ _ _ h => answers_unique h (all_answers hw cfg ctx qs s)⟩
  induction qs generalizing s with
  | nil => rfl
  | cons q qs ih => exact congrArg (· + 1) (ih _)

/-- C94. Responses to a batch are only sent if the settings allow it and the format is that of one response; then there is one
for each request, in order, and they are the answers. -/
theorem C94_batch_only {w : World σ Q O P} (hw : w.Plain) {cfg : Settings} {hive : Bool} {ctx : Ctx} {f : Nat} (qs : Requests Q)
    (s : σ) {rs : List (Resp P)} (h : (executeRequests w cfg hive ctx s qs).http = .batch f rs) :
    ∃ l, qs = .batch l ∧ ctx.format = .complete f ∧ Allowed cfg l.length ∧ rs.length = l.length ∧
      InTime cfg.timeout w.tie (executeRequests w cfg hive ctx s qs).time ∧
      Answers w cfg ctx l s rs (executeRequests w cfg hive ctx s qs).state (executeRequests w cfg hive ctx s qs).time := by
  cases qs with
  | single q =>
    unfold executeRequests at h
    cases hf : ctx.format with
    | streaming f => simp [hf] at h
    | complete f =>
      simp only [hf] at h
      split at h <;> cases h
  | batch l =>
    cases hf : ctx.format with
    | streaming f => simp [executeRequests, hf, errorWith] at h
    | complete f' =>
      by_cases hok : Allowed cfg l.length
      · rw [batch_eq hf hok] at h ⊢
        by_cases ht : InTime cfg.timeout w.tie (executeAll w cfg ctx l s).time
        · rw [withTimeout_in ht] at h ⊢
          cases h
          refine ⟨l, rfl, rfl, hok, ?_, ht, all_answers hw cfg ctx l s⟩
          obtain ⟨rs, s', t, _, hl, hu⟩ := C94_answers hw cfg ctx l s
          rw [(hu _ _ _ (all_answers hw cfg ctx l s)).1, hl]
        · rw [withTimeout_out ht] at h
          cases h
      · exfalso
        unfold executeRequests at h
        simp only [hf] at h
        split at h
        · cases h
        · rename_i hb
          split at h
          · cases h
          · rename_i ho
            apply hok
            refine ⟨by simpa using hb, fun n hn => ?_⟩
            rcases Nat.lt_or_ge n l.length with hl | hl
            · exact absurd ((over_iff cfg _).2 ⟨n, hn, hl⟩) ho
            · exact hl

/-- C94. A batch the settings do not allow, or for which a stream is asked, is refused with an error and nothing is done. -/
theorem C94_refused (w : World σ Q O P) (cfg : Settings) (hive : Bool) (ctx : Ctx) (qs : List Q) (s : σ)
    (h : (∃ f, ctx.format = .streaming f) ∨ ¬ Allowed cfg qs.length) :
    ∃ r : Resp P, executeRequests w cfg hive ctx s (.batch qs) = { http := .error ctx.format r, time := 0, state := s, reports := 0 } ∧
      r.kind = .requestError
        (match ctx.format, cfg.batching with
          | .streaming _, _ => "batch requests cannot be returned as multipart or event-stream responses".toList
          | .complete _, false => "batching is not enabled for this service".toList
          | .complete _, true => "batch size exceeds limit".toList) := by
  unfold executeRequests
  cases hf : ctx.format with
  | streaming f =>
    refine ⟨_, by simp only [errorWith, hf]; rfl, ?_⟩
    rfl
  | complete f =>
    cases hb : cfg.batching with
    | false =>
      refine ⟨_, by simp only [errorWith, hf, Bool.not_false, if_true]; rfl, ?_⟩
      rfl
    | true =>
      have ho : overLimit cfg.limit qs.length = true := by
        rw [over_iff]
        rcases h with ⟨f', h⟩ | h
        · rw [hf] at h; cases h
        · by_cases hl : ∀ l, cfg.limit = some l → qs.length ≤ l
          · exact absurd ⟨hb, hl⟩ h
          · obtain ⟨l, hl⟩ := Classical.not_forall.1 hl
            obtain ⟨h1, h2⟩ := Classical.not_imp.1 hl
            exact ⟨l, h1, by omega⟩
      refine ⟨_, by simp only [errorWith, hf, ho, Bool.not_true, Bool.false_eq_true, if_false, if_true]; rfl, ?_⟩
      rfl

/-- C94. The responses to a batch are those which its requests get when they are sent on their own, one after another, and they
leave the same world. -/
theorem C94_one_by_one {w : World σ Q O P} {cfg : Settings} {hive : Bool} {ctx : Ctx} {f : Nat} (hf : ctx.format = .complete f)
    (qs : List Q) (s : σ) {rs : List (Resp P)} (h : (executeRequests w cfg hive ctx s (.batch qs)).http = .batch f rs) :
    OneByOne w cfg hive ctx f qs s rs (executeRequests w cfg hive ctx s (.batch qs)).state := by
  have hok : Allowed cfg qs.length := by
    apply Classical.byContradiction
    intro hn
    obtain ⟨r, hr, _⟩ := C94_refused w cfg hive ctx qs s (.inr hn)
    rw [hr] at h
    cases h
  rw [batch_eq hf hok] at h ⊢
  by_cases ht : InTime cfg.timeout w.tie (executeAll w cfg ctx qs s).time
  · rw [withTimeout_in ht] at h ⊢
    cases h
    simp only
    clear hok
    induction qs generalizing s with
    | nil => exact .nil
    | cons q qs ih =>
      have h1 : InTime cfg.timeout w.tie (executeSingle w cfg ctx q s).time := ht.mono (Nat.le_add_right _ _)
      have he : executeRequests w cfg hive ctx s (.single q) = ⟨.single f (executeSingle w cfg ctx q s).val,
          (executeSingle w cfg ctx q s).time, (executeSingle w cfg ctx q s).state,
          if hive && (executeSingle w cfg ctx q s).val.known then 1 else 0⟩ := by
        unfold executeRequests
        simp only [hf, withTimeout_in h1]
      refine .cons (by rw [he]) ?_
      rw [he]
      exact ih _ (ht.mono (Nat.le_add_left _ _))
  · rw [withTimeout_out ht] at h
    cases h

/-- C94. A batch which takes too long is answered with one error when the time is up. Its requests up to some one were executed
to their end all the same, and that one was dropped in the middle (or the last one ended at that very moment). -/
theorem C94_timeout {w : World σ Q O P} (hw : w.Plain) {cfg : Settings} {hive : Bool} {ctx : Ctx} {f : Nat}
    (hf : ctx.format = .complete f) (qs : List Q) (s : σ) (hok : Allowed cfg qs.length) {rs : List (Resp P)} {s' : σ} {t : Nat}
    (ha : Answers w cfg ctx qs s rs s' t) (ht : ¬ InTime cfg.timeout w.tie t) :
    ∃ r : Resp P, r.kind = .requestError "Gateway timeout".toList ∧
    ∃ left : σ, executeRequests w cfg hive ctx s (.batch qs) =
        { http := .error ctx.format r, time := cfg.timeout, state := left, reports := 0 } ∧
      ((t = cfg.timeout ∧ left = s') ∨
        ∃ done q rest rs₁ s₁ t₁, qs = done ++ q :: rest ∧ Answers w cfg ctx done s rs₁ s₁ t₁ ∧ t₁ ≤ cfg.timeout ∧
          Dropped w q s₁ (cfg.timeout - t₁) left) := by
  obtain ⟨h1, h2, h3⟩ := answers_unique ha (all_answers hw cfg ctx qs s)
  subst h1 h2 h3
  rw [batch_eq hf hok, withTimeout_out ht]
  refine ⟨_, ?_, _, rfl, ?_⟩
  · rfl
  · rcases Nat.lt_or_ge cfg.timeout (executeAll w cfg ctx qs s).time with h | h
    · obtain ⟨done, q, rest, rs₁, s₁, t₁, h1, h2, h3, h4, h5⟩ := cut_all hw cfg ctx qs s _ h
      refine .inr ⟨done, q, rest, rs₁, s₁, t₁, h1, h2, h3, ?_⟩
      rw [h5]
      exact dropped cfg ctx q s₁ _ h4
    · have he : (executeAll w cfg ctx qs s).time = cfg.timeout := by
        rcases Nat.lt_or_ge (executeAll w cfg ctx qs s).time cfg.timeout with h' | h'
        · exact absurd (.inl h') ht
        · omega
      refine .inl ⟨he, ?_⟩
      rw [← he]
      exact cut_end cfg ctx qs s

/-- C94. A request on its own is answered as `Answer` says, if that is done in time. -/
theorem C94_single {w : World σ Q O P} (hw : w.Plain) {cfg : Settings} {hive : Bool} {ctx : Ctx} {f : Nat}
    (hf : ctx.format = .complete f) (q : Q) (s : σ) {r : Resp P} {s' : σ} {t : Nat} (ha : Answer w cfg ctx q s r s' t)
    (ht : InTime cfg.timeout w.tie t) :
    executeRequests w cfg hive ctx s (.single q) =
      { http := .single f r, time := t, state := s', reports := if hive = true ∧ r.known = true then 1 else 0 } := by
  obtain ⟨h1, h2, h3⟩ := answer_unique ha (single_answer hw cfg ctx q s)
  subst h1 h2 h3
  unfold executeRequests
  simp only [hf, withTimeout_in ht, Bool.and_eq_true]

/-- C94. A request on its own which takes too long is answered with an error when the time is up, and it is dropped where it is. -/
theorem C94_single_timeout {w : World σ Q O P} (hw : w.Plain) {cfg : Settings} {hive : Bool} {ctx : Ctx} {f : Nat}
    (hf : ctx.format = .complete f) (q : Q) (s : σ) {r : Resp P} {s' : σ} {t : Nat} (ha : Answer w cfg ctx q s r s' t)
    (ht : cfg.timeout < t) :
    ∃ (e : Resp P) (left : σ), e.kind = .requestError "Gateway timeout".toList ∧ Dropped w q s cfg.timeout left ∧
      executeRequests w cfg hive ctx s (.single q) = { http := .error ctx.format e, time := cfg.timeout, state := left, reports := 0 } := by
  obtain ⟨h1, h2, h3⟩ := answer_unique ha (single_answer hw cfg ctx q s)
  subst h1 h2 h3
  have hn : ¬ InTime cfg.timeout w.tie (executeSingle w cfg ctx q s).time := by
    rintro (h | ⟨h, -⟩) <;> omega
  have he : ∃ e : Resp P, e.kind = .requestError "Gateway timeout".toList ∧
      (errorWith cfg ctx timeoutMessage : Http Q P) = .error ctx.format e := ⟨_, by rfl, rfl⟩
  obtain ⟨e, hk, he⟩ := he
  refine ⟨e, _, hk, dropped cfg ctx q s _ ht, ?_⟩
  rw [← he]
  unfold executeRequests
  simp only [hf, withTimeout_out hn]

/-- C94. A request on its own for which a stream is asked is executed in the stream, which has a time limit of its own: nothing
is done before. -/
theorem C94_stream (w : World σ Q O P) (cfg : Settings) (hive : Bool) {ctx : Ctx} {f : Nat} (hf : ctx.format = .streaming f) (q : Q)
    (s : σ) : executeRequests w cfg hive ctx s (.single q) = { http := .stream f q, time := 0, state := s, reports := 0 } := by
  unfold executeRequests
  simp only [hf]

/-- C94, not in general. Every answer to a known operation is reported to Hive: the ones of a batch are not, nor is a stream. -/
theorem C94_reports_partial {w : World σ Q O P} {cfg : Settings} {hive : Bool} {ctx : Ctx} (qs : Requests Q) (s : σ) :
    (executeRequests w cfg hive ctx s qs).reports =
      match (executeRequests w cfg hive ctx s qs).http with
      | .single _ r => if hive = true ∧ r.known = true then 1 else 0
      | _ => 0 := by
  unfold executeRequests
  cases qs with
  | single q =>
    cases ctx.format with
    | streaming f => rfl
    | complete f =>
      simp only
      split
      · rfl
      · simp only [Bool.and_eq_true]
  | batch l =>
    cases ctx.format with
    | streaming f => rfl
    | complete f =>
      simp only
      split
      · rfl
      · split
        · rfl
        · split <;> rfl

/-! ## What the gateway tells about itself -/

/-- C94. The settings are taken exactly when all rules name headers and give values which exist; the gateway panics otherwise. -/
theorem C94_rules (cs : List RuleConfig) : (rulesOf cs).isSome = true ↔ ∀ c ∈ cs, Sensible c := by
  constructor
  · intro h c hc
    apply Classical.byContradiction
    intro hn
    rw [(rules_iff cs).2 ⟨c, hc, hn⟩] at h
    cases h
  · intro h
    rw [(rules_iff cs).1 h]
    rfl

/-- C94. Whether a request is told something: exactly if for some rule its first header of that name, in any case, has the value
of the rule, or any if the rule has none. -/
theorem C94_access {cs : List RuleConfig} {rs : List Rule} (h : rulesOf cs = some rs) (headers : List (Str × Str)) :
    shouldInclude rs headers = true ↔ ∃ n v, RuleConfig.header n v ∈ cs ∧ ∃ pre x post,
      headers = pre ++ (n.map Char.toLower, x) :: post ∧ (∀ p ∈ pre, p.1 ≠ n.map Char.toLower) ∧ ∀ e, v = some e → x = e := by
  have hs : ∀ c ∈ cs, Sensible c := (C94_rules cs).1 (by rw [h]; rfl)
  rw [(rules_iff cs).1 hs] at h
  cases h
  unfold shouldInclude
  rw [List.any_eq_true]
  constructor
  · rintro ⟨r, hr, ha⟩
    obtain ⟨c, hc, rfl⟩ := List.mem_map.1 hr
    cases c with
    | deny => cases ha
    | header n v =>
      obtain ⟨x, hx, he⟩ := (allows_iff headers _ v).1 ha
      obtain ⟨pre, post, hp, hn⟩ := (get_iff headers _ x).1 hx
      exact ⟨n, v, hc, pre, x, post, hp, hn, he⟩
  · rintro ⟨n, v, hc, pre, x, post, hp, hn, he⟩
    exact ⟨_, List.mem_map.2 ⟨_, hc, rfl⟩, (allows_iff headers _ v).2 ⟨x, (get_iff headers _ x).2 ⟨pre, post, hp, hn⟩, he⟩⟩

/-- C94, not in general. If no header is repeated, a request is told something exactly if it has a header of some rule with its
value. -/
theorem C94_access_partial {cs : List RuleConfig} {rs : List Rule} (h : rulesOf cs = some rs) (headers : List (Str × Str))
    (hd : headers.Pairwise (fun a b => a.1 ≠ b.1)) :
    shouldInclude rs headers = true ↔
      ∃ n v, RuleConfig.header n v ∈ cs ∧ ∃ x, (n.map Char.toLower, x) ∈ headers ∧ ∀ e, v = some e → x = e := by
  rw [C94_access h]
  constructor
  · rintro ⟨n, v, hc, pre, x, post, hp, _, he⟩
    exact ⟨n, v, hc, x, by rw [hp]; simp, he⟩
  · rintro ⟨n, v, hc, x, hx, he⟩
    obtain ⟨pre, post, hp⟩ := List.append_of_mem hx
    refine ⟨n, v, hc, pre, x, post, hp, ?_, he⟩
    intro p hm
    rw [hp] at hd
    exact (List.pairwise_append.1 hd).2.2 p hm _ List.mem_cons_self

/-- C94, false in general: a request with the header and the value of a rule is told nothing if it has another header of that name
before; and a rule to deny denies nothing if there is another rule. -/
theorem C94_access_false :
    (∃ cs rs headers, rulesOf cs = some rs ∧ shouldInclude rs headers = false ∧
      ∃ n x, RuleConfig.header n (some x) ∈ cs ∧ (n, x) ∈ headers) ∧
    ∃ cs rs headers, rulesOf cs = some rs ∧ RuleConfig.deny ∈ cs ∧ shouldInclude rs headers = true := by
  refine ⟨⟨[.header ['x'] (some ['1'])], [.header ['x'] (some ['1'])], [(['x'], ['0']), (['x'], ['1'])], by decide +kernel,
    by decide +kernel, ['x'], ['1'], by simp, by simp⟩, [.deny, .header ['x'] none], [.deny, .header ['x'] none],
    [(['x'], [])], by decide +kernel, by simp, by decide +kernel⟩

/-- C94. Nothing is told, in any response, to requests no rule is for; the trace id only if the settings say so, and that of the
request; the plan only if they say so. Responses to requests refused before they are executed tell nothing at all. -/
theorem C94_told {w : World σ Q O P} (hw : w.Plain) (cfg : Settings) (hive : Bool) (fmt : Format) (a : Arrival Q) (s : σ)
    {r : Resp P} (hr : r ∈ (handle w cfg hive fmt a s).http.responses) {e : Ext P} (he : r.ext = some e) :
    shouldInclude cfg.rules a.headers = true ∧ (∀ i, e.traceId = some i → cfg.includeTraceId = true ∧ i = a.traceId) ∧
      (∀ p, e.plan = some p → cfg.includePlan = true) := by
  unfold handle at hr
  split at hr
  · cases List.mem_singleton.1 hr
    cases he
  · simp only at hr
    split at hr
    · cases List.mem_singleton.1 hr
      cases he
    · cases List.mem_singleton.1 hr
      cases he
    · obtain ⟨plan, hp⟩ := requests_told hw cfg hive _ _ _ r hr
      rw [hp] at he
      exact told_some he

/-! ## Arrival, time and limits -/

/-- C94. What is refused on arrival, and with which status. -/
theorem C94_arrival (w : World σ Q O P) (cfg : Settings) (hive : Bool) (fmt : Format) (a : Arrival Q) (s : σ) :
    (a.accepts = none → handle w cfg hive fmt a s = { http := .error fmt ⟨.refused 406, [], none, false⟩, time := 0, state := s, reports := 0 }) ∧
    (∀ f, a.accepts = some f → a.method = .other →
      handle w cfg hive fmt a s = { http := .error f ⟨.refused 405, [], none, false⟩, time := 0, state := s, reports := 0 }) ∧
    (∀ f, a.accepts = some f → a.method = .post → a.contentType = false →
      handle w cfg hive fmt a s = { http := .error f ⟨.refused 415, [], none, false⟩, time := 0, state := s, reports := 0 }) := by
  refine ⟨fun h => ?_, fun f h hm => ?_, fun f h hm hc => ?_⟩
  · simp only [handle, arrivalError, h]; rfl
  · simp only [handle, arrivalError, h, hm]; rfl
  · simp only [handle, arrivalError, h, hm, hc, Bool.false_eq_true, if_false]; rfl

/-- A request which is not refused on arrival. -/
def Welcome (a : Arrival Q) (f : Format) : Prop :=
  a.accepts = some f ∧ (a.method = .get ∨ (a.method = .post ∧ a.contentType = true))

theorem handle_eq (w : World σ Q O P) (cfg : Settings) (hive : Bool) (fmt : Format) {a : Arrival Q} {f : Format} (ha : Welcome a f)
    (s : σ) : handle w cfg hive fmt a s =
      match withTimeout cfg.timeout w.tie (tryJoin (w.limiter s) a.bodyTime a.body) with
      | (none, t, s) => { http := .error f { kind := .requestError timeoutMessage, body := [] }, time := t, state := s }
      | (some (.error status), t, s) => { http := .error f (refusal status), time := t, state := s }
      | (some (.ok qs), t, s) =>
        let o := executeRequests w cfg hive { format := f, shows := shouldInclude cfg.rules a.headers, traceId := a.traceId } s qs
        { o with time := t + o.time } := by
  have : arrivalError fmt a = none := by
    rcases ha.2 with h | ⟨h, hc⟩
    · simp only [arrivalError, ha.1, h]
    · simp only [arrivalError, ha.1, h, hc, if_true]
  simp only [handle, this, ha.1, Option.getD_some]
  rfl

/-- C94. A request which is read and within the limits is executed in the world the limiter has left, as soon as both are known. -/
theorem C94_executed (w : World σ Q O P) (cfg : Settings) (hive : Bool) (fmt : Format) {a : Arrival Q} {f : Format} (ha : Welcome a f)
    (s : σ) {qs : Requests Q} (hb : a.body = .ok qs) (hl : (w.limiter s).val = true)
    (ht : InTime cfg.timeout w.tie (max (w.limiter s).time a.bodyTime)) :
    let o := executeRequests w cfg hive ⟨f, shouldInclude cfg.rules a.headers, a.traceId⟩ (w.limiter s).state qs
    handle w cfg hive fmt a s = { o with time := max (w.limiter s).time a.bodyTime + o.time } := by
  rw [handle_eq w cfg hive fmt ha]
  have hj : tryJoin (w.limiter s) a.bodyTime a.body = ⟨max (w.limiter s).time a.bodyTime, .ok qs,
      (w.limiter s).state, fun d => if d < (w.limiter s).time then (w.limiter s).cut d else (w.limiter s).state⟩ := by
    unfold tryJoin
    rw [hl, hb]
  rw [hj, withTimeout_in ht]

/-- C94. A request over the limit, or whose body is refused, is not executed: it is answered with an error, and the world is as
the limiter, ended or dropped, has left it. The status is that of what was known first. -/
theorem C94_limited (w : World σ Q O P) (cfg : Settings) (hive : Bool) (fmt : Format) {a : Arrival Q} {f : Format} (ha : Welcome a f)
    (s : σ) (h : (w.limiter s).val = false ∨ ∃ e, a.body = .error e) :
    ∃ (r : Resp P) (t : Nat) (left : σ), handle w cfg hive fmt a s = { http := .error f r, time := t, state := left, reports := 0 } ∧
      (left = (w.limiter s).state ∨ ∃ d, d < (w.limiter s).time ∧ left = (w.limiter s).cut d) ∧ t ≤ cfg.timeout ∧ r.ext = none ∧
      (r.kind = .requestError "Gateway timeout".toList ∨
        (r.kind = .refused 429 ∧ (w.limiter s).val = false ∧ ∀ e, a.body = .error e → (w.limiter s).time ≤ a.bodyTime) ∨
        ∃ e, a.body = .error e ∧ r.kind = .refused e ∧ ((w.limiter s).val = false → a.bodyTime < (w.limiter s).time)) := by
  rw [handle_eq w cfg hive fmt ha]
  have hle := withTimeout_le cfg.timeout w.tie (tryJoin (w.limiter s) a.bodyTime a.body)
  generalize hl : w.limiter s = l at *
  have hcut : ∀ d, (if d < l.time then l.cut d else l.state) = l.state ∨
      ∃ d', d' < l.time ∧ (if d < l.time then l.cut d else l.state) = l.cut d' := by
    intro d
    by_cases hd : d < l.time
    · exact .inr ⟨d, hd, by rw [if_pos hd]⟩
    · exact .inl (by rw [if_neg hd])
  cases hv : l.val with
  | true =>
    rcases h with h | ⟨e, he⟩
    · rw [hv] at h; cases h
    · have hj : tryJoin l a.bodyTime a.body = ⟨a.bodyTime, .error e, if a.bodyTime < l.time then l.cut a.bodyTime else l.state,
            fun d => if d < l.time then l.cut d else l.state⟩ := by
        unfold tryJoin; rw [hv, he]
      rw [hj] at hle ⊢
      by_cases ht : InTime cfg.timeout w.tie a.bodyTime
      · rw [mk_in ht] at hle ⊢
        exact ⟨_, _, _, rfl, hcut _, hle, rfl, .inr (.inr ⟨e, he, rfl, fun h => by cases h⟩)⟩
      · rw [mk_out ht] at hle ⊢
        exact ⟨_, _, _, rfl, hcut _, hle, rfl, .inl rfl⟩
  | false =>
    cases hb : a.body with
    | ok q =>
      have hj : tryJoin l a.bodyTime a.body = ⟨l.time, .error 429, l.state,
            fun d => if d < l.time then l.cut d else l.state⟩ := by
        unfold tryJoin; rw [hv, hb]
      rw [hb] at hj hle
      rw [hj] at hle ⊢
      by_cases ht : InTime cfg.timeout w.tie l.time
      · rw [mk_in ht] at hle ⊢
        exact ⟨_, _, _, rfl, .inl rfl, hle, rfl, .inr (.inl ⟨rfl, rfl, fun e he => by cases he⟩)⟩
      · rw [mk_out ht] at hle ⊢
        exact ⟨_, _, _, rfl, hcut _, hle, rfl, .inl rfl⟩
    | error e =>
      rw [hb] at hle
      by_cases hc : l.time ≤ a.bodyTime
      · have hj : tryJoin l a.bodyTime (.error e : Except Nat (Requests Q)) = ⟨l.time, .error 429, l.state,
            fun d => if d < l.time then l.cut d else l.state⟩ := by
          unfold tryJoin; rw [hv]; simp only [if_pos hc]
        rw [hj] at hle ⊢
        by_cases ht : InTime cfg.timeout w.tie l.time
        · rw [mk_in ht] at hle ⊢
          exact ⟨_, _, _, rfl, .inl rfl, hle, rfl, .inr (.inl ⟨rfl, rfl, fun _ _ => hc⟩)⟩
        · rw [mk_out ht] at hle ⊢
          exact ⟨_, _, _, rfl, hcut _, hle, rfl, .inl rfl⟩
      · have hj : tryJoin l a.bodyTime (.error e : Except Nat (Requests Q)) = ⟨a.bodyTime, .error e, l.cut a.bodyTime,
            fun d => if d < l.time then l.cut d else l.state⟩ := by
          unfold tryJoin; rw [hv]; simp only [if_neg hc]
        rw [hj] at hle ⊢
        by_cases ht : InTime cfg.timeout w.tie a.bodyTime
        · rw [mk_in ht] at hle ⊢
          exact ⟨_, _, _, rfl, .inr ⟨_, Nat.lt_of_not_le hc, rfl⟩, hle, rfl, .inr (.inr ⟨e, rfl, rfl, fun _ => Nat.lt_of_not_le hc⟩)⟩
        · rw [mk_out ht] at hle ⊢
          exact ⟨_, _, _, rfl, hcut _, hle, rfl, .inl rfl⟩

/-- C94, not in general. A response is sent before twice the time allowed: once to read the request, and once to execute it. -/
theorem C94_time_partial (w : World σ Q O P) (cfg : Settings) (hive : Bool) (fmt : Format) (a : Arrival Q) (s : σ) :
    (handle w cfg hive fmt a s).time ≤ 2 * cfg.timeout := by
  unfold handle
  split
  · exact Nat.zero_le _
  · simp only
    have hle := withTimeout_le cfg.timeout w.tie (tryJoin (w.limiter s) a.bodyTime a.body)
    split <;> rename_i h <;> rw [h] at hle <;> simp only at hle ⊢
    · omega
    · omega
    · exact Nat.le_trans (Nat.add_le_add hle (requests_time w cfg hive _ _ _)) (by omega)

/-! ## A world, for the rest -/

/-- The limiter admits one request; every execution is written down and takes three. -/
def demo : World (Nat × List Nat) Nat Nat Unit where
  prepare q s := { time := 1, val := .ok ⟨false, (), q⟩, state := s, cut := fun _ => s }
  run q s := { time := 2, val := { kind := .executed, body := [] }, state := (s.1, s.2 ++ [q]), cut := fun _ => s }
  limiter s := { time := 0, val := decide (0 < s.1), state := (s.1 - 1, s.2), cut := fun _ => s }
  tie := true

def demoSettings : Settings where
  rules := [.header ['x'] none]
  includeTraceId := true
  includePlan := false
  batching := true
  limit := some 3
  timeout := 10

def demoArrival (bodyTime : Nat) (qs : Requests Nat) : Arrival Nat where
  method := .post
  headers := [(['x'], ['1'])]
  accepts := some (.complete 0)
  contentType := true
  traceId := 7
  bodyTime := bodyTime
  body := .ok qs

theorem demo_plain : demo.Plain := ⟨(by intro _ _ _ h; cases h), fun _ _ => rfl⟩

/-- What is answered in the world of the example. -/
def demoAnswer : Resp Unit := ⟨.executed, [], some ⟨some 7, none⟩, true⟩

/-- C94, false in general: every operation executed is within the limit of requests. A batch is one request: where one more is
admitted, three operations are executed. -/
theorem C94_limit_false :
    (handle demo demoSettings false (.complete 0) (demoArrival 0 (.batch [4, 5, 6])) (1, [])).state = (0, [4, 5, 6]) ∧
    (handle demo demoSettings false (.complete 0) (demoArrival 0 (.batch [4, 5, 6])) (1, [])).http
      = .batch 0 [demoAnswer, demoAnswer, demoAnswer] ∧
    (demo.limiter (0, [])).val = false := ⟨rfl, rfl, rfl⟩

/-- C94, false in general: a response is sent before the time allowed is over. -/
theorem C94_time_false :
    (handle demo demoSettings false (.complete 0) (demoArrival 9 (.batch [4, 5, 6])) (1, [])).http
      = .batch 0 [demoAnswer, demoAnswer, demoAnswer] ∧
    (handle demo demoSettings false (.complete 0) (demoArrival 9 (.batch [4, 5, 6])) (1, [])).time = 18 ∧
    demoSettings.timeout = 10 := ⟨rfl, rfl, rfl⟩

/-- C94, false in general: every answer to a known operation is reported. -/
theorem C94_reports_false :
    (executeRequests demo demoSettings true ⟨.complete 0, true, 7⟩ (1, []) (.batch [4])).http = .batch 0 [demoAnswer] ∧
    (executeRequests demo demoSettings true ⟨.complete 0, true, 7⟩ (1, []) (.batch [4])).reports = 0 ∧
    (executeRequests demo demoSettings true ⟨.complete 0, true, 7⟩ (1, []) (.single 4)).reports = 1 := ⟨rfl, rfl, rfl⟩

/-- C94, false in general: a batch answered with an error did nothing. Of four requests, three were executed and the fourth was
dropped, when the time was up. -/
theorem C94_timeout_false :
    (executeRequests demo { demoSettings with limit := none } true ⟨.complete 0, false, 7⟩ (1, []) (.batch [1, 2, 3, 4])).http
      = .error (.complete 0) ⟨.requestError "Gateway timeout".toList, [], none, false⟩ ∧
    (executeRequests demo { demoSettings with limit := none } true ⟨.complete 0, false, 7⟩ (1, []) (.batch [1, 2, 3, 4])).state
      = (1, [1, 2, 3]) := ⟨rfl, rfl⟩

/-- The hypotheses of the theorems are met: a batch of two is answered in order. -/
theorem C94_case :
    Allowed demoSettings 2 ∧ InTime demoSettings.timeout demo.tie 6 ∧
    Answers demo demoSettings ⟨.complete 0, true, 7⟩ [1, 2] (1, []) [demoAnswer, demoAnswer] (1, [1, 2]) 6 ∧
    Welcome (demoArrival 0 (.batch [1, 2])) (.complete 0) ∧ rulesOf [.header ['X'] none] = some demoSettings.rules := by
  refine ⟨⟨rfl, fun l hl => by cases hl; decide⟩, .inl (by decide), ?_, ⟨rfl, .inr ⟨rfl, rfl⟩⟩, by decide +kernel⟩
  exact all_answers demo_plain demoSettings ⟨.complete 0, true, 7⟩ [1, 2] (1, [])

end Verif.Batches
