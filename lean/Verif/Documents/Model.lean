import Verif.Common.Bytes

/-
Model of how a request's document is chosen, cached and prepared:
engine/src/prepare/trusted_documents.rs:56-268 and 286-345, engine/src/engine/cache.rs:25-131,
engine/src/prepare/mod.rs:56-105, with_cache.rs:15-49, without_cache.rs:16-80,
engine/src/execution/request/mod.rs:47-72.

Strings are byte strings. blake3 is taken to be injective (a key is its pre-image); sha256 and hex are
parameters. Parsing, binding and planning are one parameter `parse`, from schema, operation name and document
text to an operation, or a refusal. Logging is left out.

The operation cache: the state is the list of all operations ever prepared. A lookup may see any of those with
the right key, or none: this covers evictions and inserts that complete late (they run in the background).
-/
namespace Verif.Documents

/-- `PersistedQueryRequestExtension`, engine/operation/src/request/extensions.rs:13-17. -/
structure Ext where
  version : Nat
  hash : Bytes
  deriving DecidableEq, Repr

structure Request where
  query : Option Bytes
  ext : Option Ext
  docId : Option Bytes
  opName : Option Bytes
  deriving DecidableEq, Repr

inductive Mode where
  | ignore
  | allow
  | enforce
  deriving DecidableEq, Repr

/-- Configuration and HTTP context. -/
structure Ctx where
  mode : Mode
  apqEnabled : Bool
  /-- `bypass_header()` -/
  bypass : Option (Bytes × Bytes)
  /-- the first value of a header, if it is valid text -/
  header : Bytes → Option Bytes
  clientName : Option Bytes
  canMutate : Bool

/-- `DocumentKey`, cache.rs:26-40. -/
inductive DocumentKey where
  | apq (opName : Option Bytes) (ext : Ext)
  | trusted (opName : Option Bytes) (client docId : Bytes)
  | text (opName : Option Bytes) (document : Bytes)
  deriving DecidableEq, Repr

/-- `DocumentOrFuture`. -/
inductive Source where
  | document (d : Bytes)
  | trusted (client docId : Bytes)
  | apq (query : Option Bytes) (ext : Ext)
  deriving DecidableEq, Repr

inductive Err where
  | missingQuery
  | missingClientName
  | notTrusted
  | notFound
  | storeError
  | apqVersion
  | apqHash
  | refused
  | mutationNotAllowed
  deriving DecidableEq, Repr

structure Crypto where
  sha256 : Bytes → Bytes
  hex : Bytes → Bytes

def Ctx.bypassed (c : Ctx) : Bool :=
  match c.bypass with
  | some (n, v) => c.header n == some v
  | none => false

def nonEmpty (q : Option Bytes) : Option Bytes := q.filter (fun q => !q.isEmpty)

/-- `handle_trusted_document_document_query_permissive`, trusted_documents.rs:216-268. -/
def permissive (opName query : Option Bytes) (client docId : Bytes) : DocumentKey × Source :=
  match nonEmpty query with
  | some q => (.text opName q, .document q)
  | none => (.trusted opName client docId, .trusted client docId)

def inlineDocument (req : Request) : Except Err (DocumentKey × Source) :=
  match req.query with
  | some q => .ok (.text req.opName q, .document q)
  | none => .error .missingQuery

/-- `extract_operation_document`, trusted_documents.rs:56-214. -/
def extract (cr : Crypto) (c : Ctx) (req : Request) : Except Err (DocumentKey × Source) :=
  match c.mode, req.ext, req.docId with
  | .enforce, none, none =>
    if c.bypassed then inlineDocument req
    else match nonEmpty req.query with
      | some q =>
        match c.clientName with
        | none => .error .missingClientName
        | some client =>
          let id := cr.hex (cr.sha256 q)
          .ok (.trusted req.opName client id, .trusted client id)
      | none => .error .notTrusted
  | .enforce, some ext, _ =>
    match c.clientName with
    | none => .error .missingClientName
    | some client => .ok (.trusted req.opName client (cr.hex ext.hash), .trusted client (cr.hex ext.hash))
  | .enforce, none, some id =>
    match c.clientName with
    | none => .error .missingClientName
    | some client => .ok (.trusted req.opName client id, .trusted client id)
  | .allow, _, some id =>
    match c.clientName with
    | none => .error .missingClientName
    | some client => .ok (permissive req.opName req.query client id)
  | .allow, some ext, none =>
    if !c.apqEnabled then
      match c.clientName with
      | none => .error .missingClientName
      | some client => .ok (permissive req.opName req.query client (cr.hex ext.hash))
    else .ok (.apq req.opName ext, .apq req.query ext)
  | .ignore, some ext, _ =>
    if !c.apqEnabled then .error .notFound
    else .ok (.apq req.opName ext, .apq req.query ext)
  | .ignore, none, _ => inlineDocument req
  | .allow, none, none => inlineDocument req

/-- The trusted documents store (`TrustedDocumentsClient::fetch`). -/
abbrev Store := Bytes → Bytes → Except Err Bytes

/-- `handle_apq`, trusted_documents.rs:314-345. -/
def handleApq (cr : Crypto) (query : Option Bytes) (ext : Ext) : Except Err Bytes :=
  if ext.version ≠ 1 then .error .apqVersion
  else match nonEmpty query with
    | some q => if cr.sha256 q ≠ ext.hash then .error .apqHash else .ok q
    | none => .error .notFound

/-- `into_operation_document`, trusted_documents.rs:35-47. -/
def resolve (cr : Crypto) (store : Store) : Source → Except Err Bytes
  | .document d => .ok d
  | .trusted client id => store client id
  | .apq q ext => handleApq cr q ext

def DocumentKey.opName : DocumentKey → Option Bytes
  | .apq n _ => n
  | .trusted n _ _ => n
  | .text n _ => n

/-- What is hashed for a cache key, cache.rs:68-131. -/
def keyBytes (schemaHash : Bytes) : DocumentKey → Bytes
  | .apq n ext => schemaHash ++ ([97, 112, 113] ++ 0 :: (n.getD [] ++ 0 :: (le 4 ext.version ++ ext.hash)))
  | .trusted n c d =>
    schemaHash ++ ([100, 111, 99, 105, 100] ++ 0 :: (n.getD [] ++ 0 ::
      (le 8 c.length ++ (c ++ (le 8 d.length ++ d)))))
  | .text n d => schemaHash ++ ([100, 111, 99] ++ 0 :: (n.getD [] ++ 0 :: d))

section
variable {Op : Type}

/-- The parts of the engine that are parameters. -/
structure Engine (Op : Type) where
  crypto : Crypto
  /-- size limit, parsing, validation, planning -/
  parse : Bytes → Option Bytes → Bytes → Option Op
  isMutation : Op → Bool

/-- `CachedOperation` with its key. -/
structure Entry (Op : Type) where
  key : Bytes
  content : Bytes
  op : Op

/-- What a request executes. -/
structure Prepared (Op : Type) where
  content : Bytes
  op : Op

/-- One request: schema hash, context, request, the store at that time, and which of the operations prepared so
far the cache lookup finds. -/
structure Event where
  schemaHash : Bytes
  ctx : Ctx
  req : Request
  store : Store
  sees : Option Nat

/-- `operation_cache().get` -/
def lookup (entries : List (Entry Op)) (sees : Option Nat) (key : Bytes) : Option (Entry Op) :=
  (sees.bind (entries[·]?)).filter (fun e => e.key == key)

/-- The mutation check, with_cache.rs:44-48 and without_cache.rs:76-80. -/
def checkMethod (e : Engine Op) (c : Ctx) (content : Bytes) (op : Op) : Except Err (Prepared Op) :=
  if e.isMutation op && !c.canMutate then .error .mutationNotAllowed else .ok ⟨content, op⟩

/-- `prepare_operation_inner`, mod.rs:56-105: the result, and the entry to insert into the cache. -/
def prepare (e : Engine Op) (entries : List (Entry Op)) (ev : Event) :
    Except Err (Prepared Op) × Option (Entry Op) :=
  match extract e.crypto ev.ctx ev.req with
  | .error err => (.error err, none)
  | .ok (key, src) =>
    match lookup entries ev.sees (keyBytes ev.schemaHash key) with
    | some entry => (checkMethod e ev.ctx entry.content entry.op, none)
    | none =>
      match resolve e.crypto ev.store src with
      | .error err => (.error err, none)
      | .ok content =>
        match e.parse ev.schemaHash key.opName content with
        | none => (.error .refused, none)
        | some op =>
          match checkMethod e ev.ctx content op with
          | .error err => (.error err, none)
          | .ok p => (.ok p, some ⟨keyBytes ev.schemaHash key, content, op⟩)

/-- All operations prepared during a history. -/
def entriesAfter (e : Engine Op) (h : List Event) : List (Entry Op) :=
  h.foldl (fun entries ev => entries ++ (prepare e entries ev).2.toList) []

/-- The result of a request after a history. -/
def result (e : Engine Op) (h : List Event) (ev : Event) : Except Err (Prepared Op) :=
  (prepare e (entriesAfter e h) ev).1

end

/-- `can_mutate`, execution/request/mod.rs:47-72: only GET and POST reach this point. -/
def canMutate (isGet mcp mcpMutations : Bool) : Bool := !isGet && (!mcp || mcpMutations)

end Verif.Documents
