/-!
# HTTP responses of GraphQL responses

Modelled from `crates/engine/error/src/code.rs` (codes, their statuses and how they are counted), `crates/engine/src/response/mod.rs` and
`error.rs` (responses and their errors), `response/read/ser/mod.rs` and `errors.rs` (what is written of them),
`crates/engine/src/graphql_over_http/response.rs` (statuses and headers) and `crates/telemetry/src/graphql.rs` (the status of a response).

The array of counts is given as a function of the codes. Counts are `u16`, and wrap: the release profile has no checks of overflows. Values (of
extensions and data) are of any type. That a response cannot be serialized, and the bytes of bodies, are left out; the length of a body is a
parameter. A panic is `none`.
-/
namespace Verif.HttpStatus

abbrev Str := List Char

/-- `ErrorCode` (code.rs:21-45). -/
inductive Code where
  | badRequest
  | internalServerError
  | trustedDocumentError
  | persistedQueryError
  | persistedQueryNotFound
  | subgraphError
  | subgraphInvalidResponseError
  | subgraphRequestError
  | unauthenticated
  | unauthorized
  | operationParsingError
  | operationValidationError
  | operationPlanningError
  | variableError
  | extensionError
  | rateLimited
  | gatewayTimeout
deriving DecidableEq

/-- The codes in the order of their numbers. -/
def Code.all : List Code :=
  [.badRequest, .internalServerError, .trustedDocumentError, .persistedQueryError, .persistedQueryNotFound, .subgraphError,
    .subgraphInvalidResponseError, .subgraphRequestError, .unauthenticated, .unauthorized, .operationParsingError,
    .operationValidationError, .operationPlanningError, .variableError, .extensionError, .rateLimited, .gatewayTimeout]

/-- The name of a code, as `strum` gives it. -/
def Code.name : Code → Str
  | .badRequest => "BAD_REQUEST".toList
  | .internalServerError => "INTERNAL_SERVER_ERROR".toList
  | .trustedDocumentError => "TRUSTED_DOCUMENT_ERROR".toList
  | .persistedQueryError => "PERSISTED_QUERY_ERROR".toList
  | .persistedQueryNotFound => "PERSISTED_QUERY_NOT_FOUND".toList
  | .subgraphError => "SUBGRAPH_ERROR".toList
  | .subgraphInvalidResponseError => "SUBGRAPH_INVALID_RESPONSE_ERROR".toList
  | .subgraphRequestError => "SUBGRAPH_REQUEST_ERROR".toList
  | .unauthenticated => "UNAUTHENTICATED".toList
  | .unauthorized => "UNAUTHORIZED".toList
  | .operationParsingError => "OPERATION_PARSING_ERROR".toList
  | .operationValidationError => "OPERATION_VALIDATION_ERROR".toList
  | .operationPlanningError => "OPERATION_PLANNING_ERROR".toList
  | .variableError => "VARIABLE_ERROR".toList
  | .extensionError => "EXTENSION_ERROR".toList
  | .rateLimited => "RATE_LIMITED".toList
  | .gatewayTimeout => "GATEWAY_TIMEOUT".toList

/-- `into_http_status_code_with_priority` (code.rs:54-75). -/
def Code.statusWithPriority : Code → Nat × Nat
  | .operationParsingError => (400, 1000)
  | .operationValidationError => (400, 1000)
  | .operationPlanningError => (400, 1000)
  | .variableError => (400, 1000)
  | .persistedQueryNotFound => (400, 1000)
  | .persistedQueryError => (400, 1000)
  | .trustedDocumentError => (400, 1000)
  | .badRequest => (400, 1000)
  | .unauthenticated => (401, 600)
  | .unauthorized => (403, 600)
  | .rateLimited => (429, 500)
  | .subgraphError => (502, 300)
  | .subgraphInvalidResponseError => (502, 300)
  | .subgraphRequestError => (502, 300)
  | .gatewayTimeout => (504, 200)
  | .extensionError => (500, 0)
  | .internalServerError => (500, 0)

/-! ## `ErrorCodeCounter` (code.rs:77-125) -/

abbrev Counter := Code → Nat

def Counter.zero : Counter := fun _ => 0

/-- `increment` (code.rs:89-91). -/
def Counter.increment (k : Counter) (c : Code) : Counter := fun x => if x = c then (k x + 1) % 65536 else k x

/-- `add` (code.rs:97-101). -/
def Counter.add (a b : Counter) : Counter := fun x => (a x + b x) % 65536

/-- `iter` and `to_vec` (code.rs:103-111, 121-123). -/
def Counter.toVec (k : Counter) : List (Code × Nat) := Code.all.filterMap (fun c => if 0 < k c then some (c, k c) else none)

/-- `count` (code.rs:113-119). -/
def Counter.count (k : Counter) : Nat := Code.all.foldl (fun n c => n + k c) 0

/-! ## Errors -/

/-- `ErrorPathSegment`. -/
inductive Seg where
  | field (key : Nat)
  | index (n : Nat)
  | unknown (name : Str)
deriving DecidableEq

abbrev Location := Nat × Nat

/-- `GraphqlError`. -/
structure Err (V : Type) where
  message : Str
  code : Code
  extensions : List (Str × V)
  locations : List Location
  path : Option (List Seg)

/-- `from_errors` (code.rs:81-87). -/
def Counter.ofErrors {V : Type} (errors : List (Err V)) : Counter := errors.foldl (fun k e => k.increment e.code) Counter.zero

/-- What errors are written with: the keys of the response, the mapping of codes of the configuration, and the errors of the query. -/
structure Ctx (V : Type) where
  keys : Nat → Str
  mapping : Str → Option Str
  query : Nat → Err V

/-- `ErrorPart` (error.rs:50-54). -/
structure Part (V : Type) where
  errors : List (Err V)
  shared : List (Nat × Location × List Seg)

/-- `ErrorPartBuilder` (error.rs:71-76). -/
structure Builder (V : Type) where
  seen : List Nat
  counter : Counter
  part : Part V

def Builder.new (V : Type) : Builder V := ⟨[], Counter.zero, ⟨[], []⟩⟩

/-- `push` (error.rs:96-100). -/
def Builder.push {V : Type} (b : Builder V) (e : Err V) : Builder V :=
  { b with counter := b.counter.increment e.code, part := { b.part with errors := b.part.errors ++ [e] } }

/-- `push_query_error` (error.rs:102-113). -/
def Builder.pushQuery {V : Type} (ctx : Ctx V) (b : Builder V) (id : Nat) (location : Location) (path : List Seg) : Builder V :=
  if id ∈ b.seen then b
  else
    { seen := id :: b.seen
      counter := b.counter.increment (ctx.query id).code
      part := { b.part with shared := b.part.shared ++ [(id, location, path)] } }

/-- What is done with a part while a plan is executed. -/
inductive Push (V : Type) where
  | error (e : Err V)
  | query (id : Nat) (location : Location) (path : List Seg)

def Builder.step {V : Type} (ctx : Ctx V) (b : Builder V) : Push V → Builder V
  | .error e => b.push e
  | .query id location path => b.pushQuery ctx id location path

/-- `ErrorParts` (error.rs:7-12). -/
structure Parts (V : Type) where
  count : Nat
  counter : Counter
  parts : List (Part V)

def Parts.new (V : Type) : Parts V := ⟨0, Counter.zero, []⟩

/-- `from_errors` (error.rs:23-34). -/
def Parts.ofErrors {V : Type} (errors : List (Err V)) : Parts V := ⟨errors.length, Counter.ofErrors errors, [⟨errors, []⟩]⟩

/-- `ErrorParts::push` (error.rs:44-48). -/
def Parts.push {V : Type} (p : Parts V) (b : Builder V) : Parts V :=
  ⟨p.count + b.counter.count, p.counter.add b.counter, p.parts ++ [b.part]⟩

/-- A response executed in parts. -/
def Parts.build {V : Type} (ctx : Ctx V) (l : List (List (Push V))) : Parts V :=
  l.foldl (fun p ps => p.push (ps.foldl (Builder.step ctx) (Builder.new V))) (Parts.new V)

/-! ## What is written (ser/errors.rs) -/

/-- An error as written. -/
structure Written (V : Type) where
  message : Str
  locations : Option (List Location)
  path : Option (List (Str ⊕ Nat))
  extensions : List (Str × (Str ⊕ V))

/-- `SerializableResponsePath` (ser/errors.rs:146-171). -/
def writePath (keys : Nat → Str) (path : List Seg) : List (Str ⊕ Nat) :=
  path.map (fun s =>
    match s with
    | .field k => .inl (keys k)
    | .index n => .inr n
    | .unknown name => .inl name)

/-- `SerializableExtension` (ser/errors.rs:173-201). -/
def writeExtensions {V : Type} (mapping : Str → Option Str) (code : Code) (extensions : List (Str × V)) : List (Str × (Str ⊕ V)) :=
  let given := extensions.map (fun e => (e.1, Sum.inr e.2))
  if extensions.any (fun e => e.1 == "code".toList) then given
  else
    given ++
      [("code".toList,
        match mapping code.name with
        | some c => .inl c
        | none => .inl code.name)]

/-- `SerializableError` (ser/errors.rs:117-144). -/
def writeError {V : Type} (keys : Nat → Str) (mapping : Str → Option Str) (e : Err V) : Written V :=
  { message := e.message
    locations := if e.locations.isEmpty then none else some e.locations
    path := e.path.map (writePath keys)
    extensions := writeExtensions mapping e.code e.extensions }

/-- `SerializableQueryError` (ser/errors.rs:79-115). -/
def writeQueryError {V : Type} (ctx : Ctx V) (q : Nat × Location × List Seg) : Written V :=
  { message := (ctx.query q.1).message
    locations := some [q.2.1]
    path := some (writePath ctx.keys q.2.2)
    extensions := writeExtensions ctx.mapping (ctx.query q.1).code (ctx.query q.1).extensions }

/-- The errors of the query of a part, each once. -/
def writeShared {V : Type} (ctx : Ctx V) (seen : List Nat) : List (Nat × Location × List Seg) → List (Written V)
  | [] => []
  | q :: l => if q.1 ∈ seen then writeShared ctx seen l else writeQueryError ctx q :: writeShared ctx (q.1 :: seen) l

/-- `SerializableErrorParts` (ser/errors.rs:22-54). -/
def writeParts {V : Type} (ctx : Ctx V) (p : Parts V) : List (Written V) :=
  p.parts.flatMap (fun part => part.errors.map (writeError ctx.keys ctx.mapping) ++ writeShared ctx [] part.shared)

abbrev Headers := List (Str × Str)

/-- `Response` (response/mod.rs:25-77). -/
inductive Response (V : Type) where
  | refused (status : Nat) (errors : List (Err V)) (counter : Counter) (headers : Headers) (extensions : Option V)
  | requestError (errors : List (Err V)) (counter : Counter) (extensions : Option V)
  | executed (data : Option V) (errors : Parts V) (extensions : Option V)

/-- `refused_request` (response/mod.rs:103-130). -/
def Response.refusedRequest {V : Type} (status : Nat) (errors : List (Err V)) (headers : Headers) : Response V :=
  .refused status errors (Counter.ofErrors errors) headers none

/-- `request_error` (response/mod.rs:132-146). -/
def Response.ofRequestErrors {V : Type} (errors : List (Err V)) : Response V := .requestError errors (Counter.ofErrors errors) none

/-- `error_code_counter` (response/mod.rs:229-235). -/
def Response.counter {V : Type} : Response V → Counter
  | .refused _ _ k _ _ => k
  | .requestError _ k _ => k
  | .executed _ p _ => p.counter

inductive Entry (V : Type) where
  | data (v : Option V)
  | errors (l : List (Written V))
  | extensions (v : V)

def extensionsEntry {V : Type} : Option V → List (Entry V)
  | some v => [.extensions v]
  | none => []

/-- The entries of a response (ser/mod.rs). The keys of errors of responses which are not executed are empty. -/
def write {V : Type} (ctx : Ctx V) : Response V → List (Entry V)
  | .executed d p x => [.data d] ++ (if p.count = 0 then [] else [.errors (writeParts ctx p)]) ++ extensionsEntry x
  | .requestError errors _ x =>
    (if errors.isEmpty then [] else [.errors (errors.map (writeError (fun _ => []) ctx.mapping))]) ++ extensionsEntry x
  | .refused _ errors _ _ x => [.errors (errors.map (writeError (fun _ => []) ctx.mapping))] ++ extensionsEntry x

/-! ## Statuses -/

/-- `ResponseFormat` (format.rs). -/
inductive Format where
  | json
  | graphqlResponseJson
  | incremental
  | sse
  | webSocket
deriving DecidableEq

/-- `max_by_key`: the last of the greatest. -/
def maxByPriority (l : List (Nat × Nat)) : Option (Nat × Nat) :=
  l.foldl (fun best x =>
    match best with
    | none => some x
    | some b => if b.2 ≤ x.2 then some x else some b) none

/-- `compute_status_code` (graphql_over_http/response.rs:189-245). -/
def computeStatus {V : Type} (format : Format) : Response V → Option Nat
  | .refused status _ _ _ _ => some status
  | .requestError _ k _ =>
    match format with
    | .json => some 200
    | .sse => some 200
    | .graphqlResponseJson =>
      match maxByPriority (k.toVec.map (fun c => c.1.statusWithPriority)) with
      | some r => some r.1
      | none => some 500
    | .incremental => some 200
    | .webSocket => none
  | .executed _ _ _ => some 200

def isClientError (s : Nat) : Bool := decide (400 ≤ s) && decide (s < 500)
def isSuccess (s : Nat) : Bool := decide (200 ≤ s) && decide (s < 300)

/-- What a status becomes with one more response of a batch (graphql_over_http/response.rs:66-74). -/
def batchStep {V : Type} (format : Format) (status : Nat) (r : Response V) : Option Nat :=
  if isClientError status then some status
  else
    match computeStatus format r with
    | none => none
    | some other => if isSuccess other then some status else some other

def batchStatus {V : Type} (format : Format) (status : Nat) : List (Response V) → Option Nat
  | [] => some status
  | r :: rs =>
    match batchStep format status r with
    | none => none
    | some s => batchStatus format s rs

/-! ## HTTP responses (graphql_over_http/response.rs:24-187) -/

/-- `HeaderMap::insert`. -/
def Headers.put (h : Headers) (name value : Str) : Headers := h.filter (fun f => f.1 != name) ++ [(name, value)]

inductive Body (V : Type) where
  | one (b : List (Entry V))
  | many (l : List (List (Entry V)))
  | stream (l : List (List (Entry V)))
  | internalServerError

structure Http (V : Type) where
  status : Nat
  headers : Headers
  body : Body V
  telemetry : List (Code × Nat)

def contentType : Str := "content-type".toList
def contentLength : Str := "content-length".toList
def cacheControl : Str := "cache-control".toList

/-- The media type of a format. -/
def Format.mediaType : Format → Str
  | .json => "application/json".toList
  | .graphqlResponseJson => "application/graphql-response+json".toList
  | .incremental => "multipart/mixed; boundary=\"-\"".toList
  | .sse => "text/event-stream".toList
  | .webSocket => []

/-- `from_complete_response_with_telemetry` (156-187). -/
def complete {V : Type} (ctx : Ctx V) (len : Body V → Str) (format : Format) (r : Response V) : Option (Http V) :=
  let body := Body.one (write ctx r)
  match computeStatus format r with
  | none => none
  | some status =>
    let given : Headers :=
      match r with
      | .refused _ _ _ headers _ => headers
      | _ => []
    some ⟨status, (given.put contentType format.mediaType).put contentLength (len body), body, r.counter.toVec⟩

/-- `stream_from_first_response_and_rest_without_extensions` (134-154); the telemetry is put in afterwards. -/
def streaming {V : Type} (ctx : Ctx V) (format : Format) (first : Response V) (rest : List (Response V)) (telemetry : List (Code × Nat)) :
    Option (Http V) :=
  if format = .webSocket then none
  else
    match computeStatus format first with
    | none => none
    | some status =>
      some ⟨status, [(cacheControl, "no-cache".toList), (contentType, format.mediaType)], .stream ((first :: rest).map (write ctx)), telemetry⟩

/-- `Http::error` (25-41). -/
def httpError {V : Type} (ctx : Ctx V) (len : Body V → Str) (format : Format) (r : Response V) : Option (Http V) :=
  match format with
  | .json => complete ctx len format r
  | .graphqlResponseJson => complete ctx len format r
  | _ => streaming ctx format r [] r.counter.toVec

/-- `Http::batch` (54-112). -/
def batch {V : Type} (ctx : Ctx V) (len : Body V → Str) (format : Format) (rs : List (Response V)) : Option (Http V) :=
  let body := Body.many (rs.map (write ctx))
  match batchStatus format 200 rs with
  | none => none
  | some status =>
    some ⟨status, (Headers.put [] contentType format.mediaType).put contentLength (len body), body,
      (rs.foldl (fun k r => k.add r.counter) Counter.zero).toVec⟩

/-- `internal_server_error` (247-273). -/
def internalError {V : Type} (len : Body V → Str) : Http V :=
  ⟨500, (Headers.put [] contentType "application/json".toList).put contentLength (len .internalServerError), .internalServerError,
    [(.internalServerError, 1)]⟩

/-- `Http::stream` (114-132), with the telemetry of the whole stream (execution/request/stream.rs:58-66). -/
def stream {V : Type} (ctx : Ctx V) (len : Body V → Str) (format : Format) : List (Response V) → Option (Http V)
  | [] => some (internalError len)
  | r :: rs => streaming ctx format r rs ((r :: rs).foldl (fun k r => k.add r.counter) Counter.zero).toVec

/-! ## The status of a GraphQL response (telemetry/src/graphql.rs:95-150) -/

inductive GraphqlStatus where
  | success
  | fieldError (count : Nat) (dataIsNull : Bool)
  | requestError (count : Nat)
  | refusedRequest
deriving DecidableEq

/-- `graphql_status` (response/mod.rs:44-53, 211-219). -/
def Response.graphqlStatus {V : Type} : Response V → GraphqlStatus
  | .executed d p _ => if p.count = 0 then .success else .fieldError p.count d.isNone
  | .requestError errors _ _ => .requestError errors.length
  | .refused _ _ _ _ _ => .refusedRequest

def GraphqlStatus.union : GraphqlStatus → GraphqlStatus → GraphqlStatus
  | .refusedRequest, _ => .refusedRequest
  | _, .refusedRequest => .refusedRequest
  | .requestError n, _ => .requestError n
  | _, .requestError n => .requestError n
  | .success, .fieldError n d => .fieldError n d
  | .fieldError n d, .success => .fieldError n d
  | .fieldError n d, .fieldError m _ => .fieldError (n + m) d
  | .success, .success => .success

/-- The status of a stream (execution/request/stream.rs:51, 64). -/
def streamStatus {V : Type} (rs : List (Response V)) : GraphqlStatus := rs.foldl (fun s r => s.union r.graphqlStatus) .success

end Verif.HttpStatus
