/-
Model of in-memory and Redis rate limiting:
runtime-local/src/rate_limiting/in_memory/key_based.rs:90-124, runtime-local/src/rate_limiting/redis.rs:97-199.

Times are nanoseconds. The `governor` crate (0.10, not part of the repository) is modelled by its algorithm GCRA:
one theoretical arrival time per key, updated atomically; a cell is admitted if it does not arrive more than `tau`
before it. `Quota::per_second(q)` has `t = 10^9 / q` (integer division) and a tolerance of at most `q * t`.
Arrival times are read before the update, so they need not be ordered.

Redis: f64 arithmetic is replaced by exact rational arithmetic. Gateways and Redis share one clock. The two GETs of
one check are atomic; the INCR (with EXPIRE) of an admitted request is a separate later step which may also fail.
-/
namespace Verif.RateLimit

/-! ## In memory -/

/-- `GraphRateLimit`, gateway-config/src/rate_limit.rs:9-13. -/
structure Config where
  limit : Nat
  durationNs : Nat
  deriving DecidableEq, Repr

def second : Nat := 10 ^ 9

/-- `duration.as_secs()` -/
def Config.secs (c : Config) : Nat := c.durationNs / second

/-- The GCRA parameters of a limiter. -/
structure Limiter where
  t : Nat
  tau : Nat
  deriving DecidableEq, Repr

/-- `create_limiter`, key_based.rs:90-103: the quota per second. `as u32` keeps the low 32 bits. -/
def createQuota (c : Config) : Option Nat :=
  if c.secs = 0 then none
  else
    let quota := (c.limit / c.secs) % 2 ^ 32
    if quota = 0 then none else some quota

/-- `Quota::per_second` and `Gcra::new`. -/
def gcra (q : Nat) : Limiter := ⟨second / q, second / q * q⟩

/-- `Gcra::test_and_update`: the new theoretical arrival time, or none if refused. -/
def Limiter.check (l : Limiter) (tat : Option Nat) (now : Nat) : Option Nat :=
  let tat := tat.getD (now + l.t)
  if now < tat - l.tau then none else some (max tat now + l.t)

section
variable {Key : Type} [DecidableEq Key]

/-- The limiters and their states. -/
structure InMemory (Key : Type) where
  quota : Key → Option Nat
  tat : Key → Option Nat

/-- `InMemoryRateLimiter::runtime`, 37-51, from the configured keys. -/
def InMemory.new (config : Key → Option Config) : InMemory Key :=
  ⟨fun k => (config k).bind createQuota, fun _ => none⟩

/-- `limit`, 106-124: whether the request is admitted, and the new state. -/
def InMemory.limit (s : InMemory Key) (key : Option Key) (now : Nat) : Bool × InMemory Key :=
  match key with
  | none => (true, s)
  | some k =>
    match s.quota k with
    | none => (true, s)
    | some q =>
      match (gcra q).check (s.tat k) now with
      | none => (false, s)
      | some tat => (true, { s with tat := fun k' => if k' = k then some tat else s.tat k' })

/-- The requests of a sequence that are admitted. -/
def InMemory.admitted (s : InMemory Key) : List (Option Key × Nat) → List (Option Key × Nat)
  | [] => []
  | r :: rest =>
    let res := s.limit r.1 r.2
    if res.1 then r :: res.2.admitted rest else res.2.admitted rest

end

/-! ## Redis -/

/-- A counter in Redis and when it expires. -/
structure Counter where
  value : Nat
  expires : Nat
  deriving DecidableEq, Repr

/-- State of Redis (counters by bucket), the increments that were spawned and not yet done (by bucket), and the
times of the admitted requests, latest first. -/
structure Redis where
  counters : Nat → Option Counter
  pending : List Nat
  admitted : List Nat

def Redis.init : Redis := ⟨fun _ => none, [], []⟩

/-- GET -/
def Redis.get (s : Redis) (bucket now : Nat) : Nat :=
  match s.counters bucket with
  | some c => if now < c.expires then c.value else 0
  | none => 0

/-- INCR and EXPIRE. A timeout of zero deletes the key. -/
def Redis.incr (s : Redis) (bucket now expireSecs : Nat) : Nat → Option Counter :=
  fun b => if b = bucket then
    (if expireSecs = 0 then none else some ⟨s.get bucket now + 1, now + expireSecs * second⟩)
  else s.counters b

/-- Outcome of a check. -/
inductive Outcome where
  | admitted
  | refused
  /-- division by zero -/
  | panic
  deriving DecidableEq, Repr

/-- The bucket of a time: the start of its window. -/
def bucketOf (d now : Nat) : Nat := now - now % d

/-- `limit_inner`, 97-168, when Redis answers. `average < limit` with both sides multiplied by `d`:
`average = previous * (1 - (now % d) / d) + current`. -/
def Redis.outcome (s : Redis) (c : Config) (now : Nat) : Outcome :=
  let d := c.durationNs
  if d = 0 then .panic
  else
    let current := bucketOf d now
    let previous := min (s.get (current - d) now) c.limit
    let count := min (s.get current now) c.limit
    if previous * (d - now % d) + count * d < c.limit * d then .admitted else .refused

inductive Event where
  /-- a request arrives; the reads -/
  | check (now : Nat)
  /-- the `i`-th pending increment is executed by Redis -/
  | incr (i : Nat) (now : Nat)
  /-- the `i`-th pending increment fails -/
  | lose (i : Nat)
  deriving DecidableEq, Repr

def Redis.step (c : Config) (s : Redis) : Event → Redis
  | .check now =>
    match s.outcome c now with
    | .admitted =>
      { s with pending := bucketOf c.durationNs now :: s.pending, admitted := now :: s.admitted }
    | _ => s
  | .incr i now =>
    match s.pending[i]? with
    | some b => { s with counters := s.incr b now (c.secs * 2), pending := s.pending.eraseIdx i }
    | none => s
  | .lose i => { s with pending := s.pending.eraseIdx i }

def Redis.run (c : Config) (h : List Event) : Redis := h.foldl (Redis.step c) Redis.init

end Verif.RateLimit
