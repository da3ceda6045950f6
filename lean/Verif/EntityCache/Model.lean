import Verif.Common.Bytes

/-
Model of the subgraph response / entity cache:
engine/src/resolver/graphql/cache.rs:15-179,
engine/src/resolver/graphql/root_fields.rs:84-296,
engine/src/resolver/graphql/federation.rs:176-332 and federation/with_cache.rs:52-134 (one entity),
runtime-local/src/entity_cache/memory.rs:24-51.

Bytes are natural numbers below 256. The blake3 digest is taken to be its input (no collisions).
Times and durations are natural numbers (nanoseconds). `http::HeaderMap` is the list of its
(name, value) pairs in iteration order.
-/
namespace Verif.EntityCache

abbrev Headers := List (Bytes × Bytes)

/-- The loop of `prepare_key_hasher`, cache.rs:167-172. -/
def hashHeaders : Headers → Bytes
  | [] => []
  | (n, v) :: hs => le 8 n.length ++ n ++ le 8 v.length ++ v ++ hashHeaders hs

/-- The scopes loop of `prepare_key_hasher`, cache.rs:174-177. -/
def hashScopes : List Bytes → Bytes
  | [] => []
  | s :: ss => le 8 s.length ++ s ++ hashScopes ss

/-- `prepare_key_hasher`, cache.rs:162-179; `v1` is 118, 49. -/
def prepareKeyHasher (name : Bytes) (headers : Headers) (scopes : List Bytes) : Bytes :=
  [118, 49] ++ name ++ le 8 headers.length ++ hashHeaders headers ++ le 8 scopes.length ++ hashScopes scopes

/-- The key of `fetch_response` (cache.rs:56-59) with the request body as payload, and of
`fetch_entities` (cache.rs:107-115) with the representation as payload. -/
def cacheKey (name : Bytes) (headers : Headers) (payload : Bytes) : Bytes :=
  prepareKeyHasher name headers [] ++ payload

/-- `headers::CacheControl`, the directives read here; `max_age` in nanoseconds. -/
structure CacheControl where
  isPrivate : Bool
  noStore : Bool
  maxAge : Option Nat
  deriving DecidableEq, Repr

/-- A computation that may panic. -/
inductive Ttl where
  | panic
  | noCache
  | ttl (d : Nat)
  deriving DecidableEq, Repr

/-- `calculate_cache_ttl`, cache.rs:15-46. `Duration - Duration` panics on underflow (line 42). -/
def calculateCacheTtl (success : Bool) (cc : Option CacheControl) (age : Option Nat)
    (subgraphDefault : Option Nat) : Ttl :=
  match subgraphDefault with
  | none => .noCache
  | some dflt =>
    if !success then .noCache
    else match cc with
      | none => .ttl dflt
      | some c =>
        if c.isPrivate || c.noStore then .noCache
        else match c.maxAge with
          | none => .ttl dflt
          | some m =>
            let a := age.getD 0
            if m < a then .panic else .ttl (m - a)

/-- `SubgraphEntityCachingConfig`, gateway-config/src/entity_caching.rs:7-13. -/
structure SubgraphCacheConfig where
  enabled : Option Bool
  ttl : Option Nat

/-- `EntityCachingConfig`, entity_caching.rs:17-25. -/
structure CacheConfig where
  enabled : Bool
  ttl : Nat

/-- `default_cache_ttl`, engine/schema/src/builder/subgraphs.rs:42-46. -/
def defaultCacheTtl (g : CacheConfig) : Option Nat := if g.enabled then some g.ttl else none

/-- `cache_ttl` of a subgraph, builder/subgraphs.rs:85-93. -/
def subgraphCacheTtl (g : CacheConfig) (s : Option SubgraphCacheConfig) : Option Nat :=
  (s.bind fun cfg => if cfg.enabled.getD g.enabled then cfg.ttl else none).or (defaultCacheTtl g)

/-- `CacheValue`, memory.rs:11-15. -/
structure Entry where
  data : Bytes
  expiresAt : Nat
  deriving DecidableEq, Repr

/-- The in-memory cache: association list, newest binding first. -/
abbrev Store := List (Bytes × Entry)

/-- `InMemoryEntityCache::get`, memory.rs:24-35: the data and the store after a possible invalidation. -/
def Store.get (s : Store) (now : Nat) (key : Bytes) : Option Bytes × Store :=
  match s.lookup key with
  | none => (none, s)
  | some e => if e.expiresAt < now then (none, s.filter (·.1 != key)) else (some e.data, s)

/-- `InMemoryEntityCache::put`, memory.rs:37-51. -/
def Store.put (s : Store) (now : Nat) (key data : Bytes) (ttl : Nat) : Store :=
  (key, ⟨data, now + ttl⟩) :: s

/-- A fetch of a root selection or of one entity. For a root fetch `payload` is the whole request body
(query and variables); for an entity fetch it is the entity's representation and `query` is the
operation sent beside it. -/
structure Req where
  root : Bool
  mutation : Bool
  name : Bytes
  headers : Headers
  query : Bytes
  payload : Bytes
  deriving DecidableEq, Repr

/-- What the subgraph answers if it is asked: a failed request, or a response with its GraphQL status
(`none`: could not be deserialised), headers and data. -/
inductive Upstream where
  | failed
  | response (success : Option Bool) (cc : Option CacheControl) (age : Option Nat) (data : Bytes)
  deriving DecidableEq, Repr

/-- Outcome of a fetch. -/
structure Outcome where
  /-- was a request sent to the subgraph -/
  sent : Bool
  /-- data used to answer -/
  data : Option Bytes
  panicked : Bool
  store : Store

/-- `fetch_response_with_cache` / `fetch_response_without_cache` (root_fields.rs:122-147, 208-237,
251-295) and `fetch_entities_with_cache` for one entity. `ttl` is `config.cache_ttl`, `now` the time of the
lookup, `later` the time of the `put`. -/
def fetch (ttl : Option Nat) (s : Store) (now later : Nat) (r : Req) (up : Upstream) : Outcome :=
  match ttl with
  | none =>
    match up with
    | .failed => ⟨true, none, false, s⟩
    | .response _ _ _ d => ⟨true, some d, false, s⟩
  | some _ =>
    let key := cacheKey r.name r.headers r.payload
    match s.get now key with
    | (some d, s') => ⟨false, some d, false, s'⟩
    | (none, s') =>
      match up with
      | .failed => ⟨true, none, false, s'⟩
      | .response success cc age d =>
        if success = some true then
          match calculateCacheTtl true cc age ttl with
          | .panic => ⟨true, none, true, s'⟩
          | .noCache => ⟨true, some d, false, s'⟩
          | .ttl t => ⟨true, some d, false, s'.put later key d t⟩
        else ⟨true, some d, false, s'⟩

/-- What can happen to the cache over time: a fetch, or the eviction of a key (`mini_moka` capacity). -/
inductive Event where
  | fetch (ttl : Option Nat) (now later : Nat) (r : Req) (up : Upstream)
  | evict (key : Bytes)

/-- The store after an event. -/
def step (s : Store) : Event → Store
  | .fetch ttl now later r up => (fetch ttl s now later r up).store
  | .evict k => s.filter (·.1 != k)

/-- The store after a history, from an empty cache. -/
def run (h : List Event) : Store := h.foldl step []

end Verif.EntityCache
