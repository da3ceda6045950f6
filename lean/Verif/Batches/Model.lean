/-!
# Requests over HTTP: batches, timeouts and what the gateway tells about itself

What becomes of an HTTP request between its arrival and its response, the execution of operations being a parameter.

* `crates/engine/src/execution/request/mod.rs` lines 31 to 92 (`unpack_http_request`) and 101 to 182
* `crates/engine/src/engine.rs` lines 70 to 90 and 258 to 290 (`execute`)
* `crates/engine/src/engine/runtime.rs` lines 27 to 45 (`with_timeout`)
* `crates/engine/src/execution/request/well_formed_graphql_request.rs` (all of it)
* `crates/engine/src/execution/request/single.rs` lines 67 to 97
* `crates/engine/src/execution/request/response_extension.rs` (all of it)
* `crates/engine/src/response/mod.rs` lines 164 to 169, `crates/engine/src/response/extensions.rs` lines 15 to 58
* `crates/engine/schema/src/config/response_extensions.rs` lines 22 to 43

Simplifications: time is a natural number and every step tells how long it takes; what a step changes in the world is its new
state, and `cut` is the state in which it is dropped after some time; texts are lists of characters; the query plan shown and
the trace id are opaque; a stream of responses is the request it is for (C93 is about streams); contracts, MCP and metrics are
left out; `HeaderMap` is the list of names, in lower case, and values, in the order of arrival.
-/
namespace Verif.Batches

abbrev Str := List Char

/-! ## The response extension -/

/-- `gateway_config::telemetry::exporters::AccessControl` (gateway-config/src/telemetry/exporters/response_extension.rs:31-48). -/
inductive RuleConfig where
  | header (name : Str) (value : Option Str)
  | deny
deriving DecidableEq, Repr

/-- `schema::AccessControl` (response_extensions.rs:45-57). -/
inductive Rule where
  | header (name : Str) (value : Option Str)
  | deny
deriving DecidableEq, Repr

/-- A character of a token, in the table of `http::HeaderName`. -/
def isTokenChar (c : Char) : Bool :=
  c.isAlphanum || c ∈ ['!', '#', '$', '%', '&', '\'', '*', '+', '-', '.', '^', '_', '`', '|', '~']

/-- `http::HeaderName::from_str` for ASCII: a token that is not empty, put in lower case. -/
def headerName (s : Str) : Option Str :=
  if s ≠ [] ∧ s.all isTokenChar = true then some (s.map Char.toLower) else none

/-- `http::HeaderValue::from_str` for ASCII: visible characters, spaces and tabs. -/
def headerValue (s : Str) : Option Str :=
  if s.all (fun c => (32 ≤ c.toNat && c.toNat < 127) || c.toNat == 9) = true then some s else none

/-- One rule of `From<ResponseExtensionExporterConfig>` (response_extensions.rs:30-38); `none` is the panic of `unwrap`. -/
def ruleOf : RuleConfig → Option Rule
  | .deny => some .deny
  | .header n none =>
    match headerName n with
    | some n => some (.header n none)
    | none => none
  | .header n (some v) =>
    match headerName n, headerValue v with
    | some n, some v => some (.header n (some v))
    | _, _ => none

/-- All the rules. -/
def rulesOf : List RuleConfig → Option (List Rule)
  | [] => some []
  | c :: cs =>
    match ruleOf c, rulesOf cs with
    | some r, some rs => some (r :: rs)
    | _, _ => none

/-- `HeaderMap::get`: the first value of the name. -/
def getHeader (headers : List (Str × Str)) (name : Str) : Option Str :=
  (headers.find? (fun h => h.1 == name)).map (·.2)

/-- Whether one rule lets the request see the extension (response_extension.rs:16-31). -/
def Rule.allows (headers : List (Str × Str)) : Rule → Bool
  | .header name expected =>
    match getHeader headers name with
    | some value =>
      match expected with
      | some e => value == e
      | none => true
    | none => false
  | .deny => false

/-- `should_include_grafbase_response_extension` (response_extension.rs:11-32). -/
def shouldInclude (rules : List Rule) (headers : List (Str × Str)) : Bool := rules.any (Rule.allows headers)

/-- `GrafbaseResponseExtension` (response/extensions.rs:42-49). -/
structure Ext (P : Type) where
  traceId : Option Nat := none
  plan : Option P := none
deriving DecidableEq, Repr

/-- `GrafbaseResponseExtension::merge` (51-58). -/
def Ext.merge {P : Type} (a b : Ext P) : Ext P := ⟨a.traceId.or b.traceId, a.plan.or b.plan⟩

/-- `ResponseExtensions::merge` (29-39). -/
def mergeExt {P : Type} : Option (Ext P) → Option (Ext P) → Option (Ext P)
  | none, none => none
  | some a, some b => some (a.merge b)
  | some a, none => some a
  | none, some b => some b

/-! ## Settings, requests and responses -/

/-- What the schema's configuration says. -/
structure Settings where
  rules : List Rule
  includeTraceId : Bool
  includePlan : Bool
  /-- `batching.enabled` and `batching.limit`, a `u8` -/
  batching : Bool
  limit : Option Nat
  timeout : Nat

inductive Format where
  | complete (f : Nat)
  | streaming (f : Nat)
deriving DecidableEq, Repr

inductive Kind where
  | refused (status : Nat)
  | requestError (message : Str)
  | executed
deriving DecidableEq, Repr

/-- `Response` (response/mod.rs), as far as it is looked at here; `body` is what it says. -/
structure Resp (P : Type) where
  kind : Kind
  body : Str
  ext : Option (Ext P) := none
  /-- `operation_attributes`: whether the operation is known -/
  known : Bool := false
deriving DecidableEq, Repr

/-- `with_extensions` (response/mod.rs:164-169). -/
def Resp.withExt {P : Type} (r : Resp P) (e : Option (Ext P)) : Resp P := { r with ext := mergeExt r.ext e }

/-- A step that takes time and changes the world; `cut d` is the world when it is dropped after `d`. -/
structure Step (σ α : Type) where
  time : Nat
  val : α
  state : σ
  cut : Nat → σ

/-- What is prepared: whether it is a subscription, and its plan. -/
structure Prepared (O P : Type) where
  subscription : Bool
  plan : P
  op : O

/-- The rest of the gateway. -/
structure World (σ Q O P : Type) where
  /-- `prepare_operation` -/
  prepare : Q → σ → Step σ (Except (Resp P) (Prepared O P))
  /-- `execute_query_or_mutation` -/
  run : O → σ → Step σ (Resp P)
  /-- `rate_limiter().limit(&RateLimitKey::Global)`: whether it is within the limit -/
  limiter : σ → Step σ Bool
  /-- what `select!` takes if both are ready -/
  tie : Bool

/-- `RequestContext` (execution/request/context.rs:23-36), as far as it is looked at here. -/
structure Ctx where
  format : Format
  /-- `include_grafbase_response_extension` -/
  shows : Bool
  traceId : Nat

/-! ## Execution -/

/-- `default_response_extensions` (response_extension.rs:34-45). -/
def defaultExt {P : Type} (cfg : Settings) (ctx : Ctx) : Option (Ext P) :=
  if ctx.shows then
    some (if cfg.includeTraceId then { traceId := some ctx.traceId } else {})
  else none

/-- `response_extension_for_prepared_operation` (47-57). -/
def preparedExt {P : Type} (cfg : Settings) (ctx : Ctx) (plan : P) : Option (Ext P) :=
  if ctx.shows && cfg.includePlan then
    some { ((defaultExt cfg ctx).getD {} : Ext P) with plan := some plan }
  else defaultExt cfg ctx

def subscriptionMessage : Str := "Subscriptions are only suported on streaming transports.".toList

/-- `PrepareContext::execute_single` (single.rs:65-97). -/
def executeSingle {σ Q O P : Type} (w : World σ Q O P) (cfg : Settings) (ctx : Ctx) (q : Q) (s : σ) : Step σ (Resp P) :=
  let p := w.prepare q s
  match p.val with
  | .error r => { p with val := r.withExt (defaultExt cfg ctx) }
  | .ok o =>
    let ext := preparedExt cfg ctx o.plan
    if o.subscription then
      { p with val := ({ kind := .requestError subscriptionMessage, body := [], known := true } : Resp P).withExt ext }
    else
      let e := w.run o.op p.state
      { time := p.time + e.time
        val := { e.val with known := true }.withExt ext
        state := e.state
        cut := fun d => if d < p.time then p.cut d else e.cut (d - p.time) }

/-- The requests of a batch one after another: `iter(requests).then(…).collect()` (well_formed_graphql_request.rs:94-99). -/
def executeAll {σ Q O P : Type} (w : World σ Q O P) (cfg : Settings) (ctx : Ctx) : List Q → σ → Step σ (List (Resp P))
  | [], s => { time := 0, val := [], state := s, cut := fun _ => s }
  | q :: qs, s =>
    let a := executeSingle w cfg ctx q s
    let b := executeAll w cfg ctx qs a.state
    { time := a.time + b.time
      val := a.val :: b.val
      state := b.state
      cut := fun d => if d < a.time then a.cut d else b.cut (d - a.time) }

/-- `with_timeout` (runtime.rs:27-45): the value unless the time is up, and what is left of the world. -/
def withTimeout {σ α : Type} (timeout : Nat) (tie : Bool) (step : Step σ α) : Option α × Nat × σ :=
  if step.time < timeout || (step.time == timeout && tie) then (some step.val, step.time, step.state)
  else (none, timeout, step.cut timeout)

/-- What is sent back. -/
inductive Http (Q P : Type) where
  | single (format : Nat) (r : Resp P)
  | batch (format : Nat) (rs : List (Resp P))
  | stream (format : Nat) (q : Q)
  | error (format : Format) (r : Resp P)

/-- What became of an HTTP request. -/
structure Outcome (σ Q P : Type) where
  http : Http Q P
  /-- how long it took -/
  time : Nat
  state : σ
  /-- how many reports of usage were added for Hive -/
  reports : Nat := 0

/-- `BatchRequest` (operation/src/request/mod.rs:17-20). -/
inductive Requests (Q : Type) where
  | single (q : Q)
  | batch (qs : List Q)

def timeoutMessage : Str := "Gateway timeout".toList
def noStreamMessage : Str := "batch requests cannot be returned as multipart or event-stream responses".toList
def disabledMessage : Str := "batching is not enabled for this service".toList
def limitMessage : Str := "batch size exceeds limit".toList

/-- `bad_request_but_well_formed_graphql_over_http_request` and `gateway_timeout_error` (117-136). -/
def errorWith {Q P : Type} (cfg : Settings) (ctx : Ctx) (message : Str) : Http Q P :=
  .error ctx.format (({ kind := .requestError message, body := [] } : Resp P).withExt (defaultExt cfg ctx))

/-- Whether a batch has too many requests (82-89). -/
def overLimit (limit : Option Nat) (n : Nat) : Bool :=
  match limit with
  | some l => decide (l < n)
  | none => false

/-- `execute_well_formed_graphql_request` (well_formed_graphql_request.rs:20-107); `hive`: usage is reported. -/
def executeRequests {σ Q O P : Type} (w : World σ Q O P) (cfg : Settings) (hive : Bool) (ctx : Ctx) (s : σ) :
    Requests Q → Outcome σ Q P
  | .single q =>
    match ctx.format with
    | .streaming f => { http := .stream f q, time := 0, state := s }
    | .complete f =>
      match withTimeout cfg.timeout w.tie (executeSingle w cfg ctx q s) with
      | (none, t, s) => { http := errorWith cfg ctx timeoutMessage, time := t, state := s }
      | (some r, t, s) => { http := .single f r, time := t, state := s, reports := if hive && r.known then 1 else 0 }
  | .batch qs =>
    match ctx.format with
    | .streaming _ => { http := errorWith cfg ctx noStreamMessage, time := 0, state := s }
    | .complete f =>
      if !cfg.batching then { http := errorWith cfg ctx disabledMessage, time := 0, state := s }
      else if overLimit cfg.limit qs.length then { http := errorWith cfg ctx limitMessage, time := 0, state := s }
      else
        match withTimeout cfg.timeout w.tie (executeAll w cfg ctx qs s) with
        | (none, t, s) => { http := errorWith cfg ctx timeoutMessage, time := t, state := s }
        | (some rs, t, s) => { http := .batch f rs, time := t, state := s }

/-! ## Arrival -/

inductive Method where
  | get
  | post
  | other
deriving DecidableEq, Repr

/-- An HTTP request: what is read of it by other functions (content negotiation is C36) is given. -/
structure Arrival (Q : Type) where
  method : Method
  headers : List (Str × Str)
  /-- `ResponseFormat::extract_from` -/
  accepts : Option Format
  /-- `ContentType::extract` -/
  contentType : Bool
  traceId : Nat
  /-- how long it takes to read the body (0 for GET), and the requests, or the status it is refused with -/
  bodyTime : Nat
  body : Except Nat (Requests Q)

def refusal {P : Type} (status : Nat) : Resp P := { kind := .refused status, body := [] }

/-- Why a request is refused on arrival (request/mod.rs:34-63). -/
def arrivalError {Q : Type} (defaultFormat : Format) (a : Arrival Q) : Option (Format × Nat) :=
  match a.accepts with
  | none => some (defaultFormat, 406)
  | some f =>
    match a.method with
    | .post => if a.contentType then none else some (f, 415)
    | .get => none
    | .other => some (f, 405)

/-- `try_join!(context_fut, request_fut)` (engine.rs:280): after which time there is a result, and the requests or the status of
the error; the world is that of the limiter. -/
def tryJoin {σ Q : Type} (l : Step σ Bool) (bodyTime : Nat) (body : Except Nat (Requests Q)) :
    Step σ (Except Nat (Requests Q)) :=
  let cut := fun d => if d < l.time then l.cut d else l.state
  match l.val, body with
  | true, .ok q => { time := max l.time bodyTime, val := .ok q, state := l.state, cut }
  | false, .ok _ => { time := l.time, val := .error 429, state := l.state, cut }
  | true, .error e => { time := bodyTime, val := .error e, state := cut bodyTime, cut }
  | false, .error e =>
    if l.time ≤ bodyTime then { time := l.time, val := .error 429, state := l.state, cut }
    else { time := bodyTime, val := .error e, state := l.cut bodyTime, cut }

/-- `ContractAwareEngine::execute` without contracts and `Engine::execute` (engine.rs:70-90, 258-290). -/
def handle {σ Q O P : Type} (w : World σ Q O P) (cfg : Settings) (hive : Bool) (defaultFormat : Format) (a : Arrival Q) (s : σ) :
    Outcome σ Q P :=
  match arrivalError defaultFormat a with
  | some (f, status) => { http := .error f (refusal status), time := 0, state := s }
  | none =>
    let f := a.accepts.getD defaultFormat
    let ctx : Ctx := { format := f, shows := shouldInclude cfg.rules a.headers, traceId := a.traceId }
    match withTimeout cfg.timeout w.tie (tryJoin (w.limiter s) a.bodyTime a.body) with
    | (none, t, s) => { http := .error f { kind := .requestError timeoutMessage, body := [] }, time := t, state := s }
    | (some (.error status), t, s) => { http := .error f (refusal status), time := t, state := s }
    | (some (.ok qs), t, s) =>
      let o := executeRequests w cfg hive ctx s qs
      { o with time := t + o.time }

end Verif.Batches
