import Verif.NullProp.Model

/-!
# Fetching entities

Model of how a plan fetches entities of a subgraph: which representations are sent, how the answer is
read and to which objects its parts go.  Paths are relative to `crates/engine/src/`; `federation`
stands for `resolver/graphql/federation`.

Simplifications:
* JSON, parts and the reading of one object are those of `Verif.NullProp`.  The parser fails at a
  `bad` node; both parsers (`sonic_rs`, `serde_json`) are taken to fail at the same places.
* Errors of fields inside of an entity are not kept, as in `Verif.NullProp`; errors for an entity as a
  whole and errors sent by the subgraph are.  An error has the path of the object it is for; the
  response key that `error_location_and_key` adds is left out, and so are locations and extensions.
* A reference to a parent object stands for its `ParentObjectId`.
* The key of an entity in the cache is its representation: subgraph and headers are the same for all
  (`resolver/graphql/cache.rs:98-110`).
* The elements of `errors` are objects; serde would also take arrays for them.
-/
namespace Verif.Entities

open Verif.NullProp

/-- The texts `data`, `errors`, `_entities`, `message`, `path` and `extensions`. -/
def dataKey : Nat := 101
def errorsKey : Nat := 102
def entitiesKey : Nat := 103
def messageKey : Nat := 104
def pathKey : Nat := 105
def extensionsKey : Nat := 106

/-- `ErrorPathSegment` after the path of the object. -/
inductive Seg where
  | field (name : Nat)
  | index (i : Nat)
  deriving DecidableEq, Repr

/-- `GraphqlError`: an invalid response, a failed request, or an error of the subgraph. -/
inductive Err where
  | invalid (path : List VId)
  | failed (path : List VId)
  | subgraph (message : Nat) (path : Option (List VId × List Seg))
  deriving DecidableEq, Repr

/-- `EntityToFetch`, `federation.rs:133-136`, and `EntityCacheMiss`, `resolver/graphql/cache.rs:130-134`. -/
structure Item where
  ref : Ref
  repr : Nat
  deriving DecidableEq, Repr

/-- `SeedState` with the part, what is left of the iterator `cache_misses`, and `cache_updates`. -/
structure St where
  part : Part
  errors : List Err := []
  todo : List Item := []
  stored : List (Nat × Json) := []

/-- Parameters: inaccessible types, and `serde_json::Value::as_u64` of a JSON scalar. -/
structure Env where
  hid : Nat → Bool
  asU64 : Nat → Option Nat

/-- `insert_empty_update`, `response/write/part.rs:77-91`. -/
def St.empty (shape : RootShape) (st : St) (r : Ref) : St :=
  { st with part := emptyUpdate shape.onError r st.part }

/-- `insert_propagated_empty_update`, `response/write/part.rs:123-134`. -/
def St.propagated (shape : RootShape) (st : St) (r : Ref) : St :=
  { st with part := propagatedEmptyUpdate shape.onError r st.part }

/-- `insert_error_update`, `response/write/part.rs:136-166`. -/
def St.error (shape : RootShape) (st : St) (mk : List VId → Err) (r : Ref) : St :=
  match shape.onError with
  | .skip => st
  | _ => { st.empty shape r with errors := st.errors ++ [mk r.path] }

/-- `insert_empty_updates`, `response/write/part.rs:93-121`. -/
def St.empties (shape : RootShape) (st : St) (rs : List Ref) : St := rs.foldl (St.empty shape) st

/-- `insert_error_updates`, `response/write/part.rs:168-213`: the error is reported for the first
object only. -/
def St.errorAll (shape : RootShape) (st : St) (mk : List VId → Err) : List Ref → St
  | [] => st
  | r :: rs => (st.error shape mk r).empties shape rs

/-- `bubbling_up_deser_error.replace(true)` and what follows:
`response/write/deserialize/root/object.rs:65-75`, `batch_objects.rs:85-95`,
`federation/with_cache.rs:181-190` and `:198-207`. -/
def St.fail (shape : RootShape) (st : St) (r : Ref) : St :=
  if st.part.bubbling then st.propagated shape r
  else ({ st with part := { st.part with bubbling := true } } : St).error shape .invalid r

/-- What `deserialize_any` with the seed of the fields returns: `object/fields.rs:116-258`. -/
def readObject (hid : Nat → Bool) (shape : RootShape) (parent : Ref) (j : Json) (p : Part) : Option ObjFields × Part :=
  match j with
  | .map es =>
    match visit hid parent.path [] parent.id none es shape.fields none [] p with
    | (none, p) => (none, p)
    | (some (F, detected), p) =>
      let (o, p) := finishMap parent.path [] (.known parent.ty) shape.tns shape.fields detected F p
      (some o, p)
  | .null => (some .null, p)
  | .bad => (none, p)
  | .leaf _ => (some .error, p)
  | .list js => if js.broken then (none, p) else (some .error, p)

/-- `RootObjectSeed::deserialize`, `response/write/deserialize/root/object.rs:25-76`.  The first
component says whether it succeeds. -/
def objectSeed (hid : Nat → Bool) (shape : RootShape) (parent : Ref) (j : Json) (st : St) : Bool × St :=
  match readObject hid shape parent j { st.part with bubbling := false } with
  | (some (.some _ F), p) => (true, { st with part := { p with updates := p.updates ++ [.fields parent.id F] } })
  | (some .null, p) => (true, ({ st with part := p } : St).empty shape parent)
  | (some .error, p) => (true, ({ st with part := p } : St).error shape .invalid parent)
  | (none, p) => (false, ({ st with part := p } : St).fail shape parent)

/-- `BatchRootObjectsSeed::visit_seq`, `response/write/deserialize/root/batch_objects.rs:68-126`.
Elements left over are skipped; if one of them is broken the parser fails at the end of the list. -/
def batch (hid : Nat → Bool) (shape : RootShape) : List Ref → Jsons → St → Bool × St
  | [], js, st => (!js.broken, st)
  | r :: rs, .nil, st => (true, (st.error shape .invalid r).empties shape rs)
  | r :: rs, .bad, st => (false, (st.fail shape r).empties shape rs)
  | r :: rs, .cons j js, st =>
    match objectSeed hid shape r j st with
    | (true, st) => batch hid shape rs js st
    | (false, st) => (false, (st.fail shape r).empties shape rs)

/-- `PartiallyCachedEntitiesSeed::visit_seq`, `federation/with_cache.rs:152-238`. -/
def batchRaw (hid : Nat → Bool) (shape : RootShape) : List Item → Jsons → St → Bool × St
  | [], js, st => (!js.broken, st)
  | i :: is, .nil, st => (true, (st.error shape .invalid i.ref).empties shape (is.map (·.ref)))
  | i :: is, .bad, st => (false, (st.fail shape i.ref).empties shape (is.map (·.ref)))
  | i :: is, .cons j js, st =>
    if j.broken then (false, (st.fail shape i.ref).empties shape (is.map (·.ref)))
    else
      match objectSeed hid shape i.ref j st with
      | (true, st) => batchRaw hid shape is js { st with stored := st.stored ++ [(i.repr, j)] }
      | (false, st) => (false, (st.fail shape i.ref).empties shape (is.map (·.ref)))

/-- `BatchRootObjectsSeed::deserialize`, `batch_objects.rs:35-66`: `null` is an empty list, anything
else but a list is an error. -/
def listSeed (hid : Nat → Bool) (shape : RootShape) (j : Json) (st : St) : Bool × St :=
  match j with
  | .null => batch hid shape (st.todo.map (·.ref)) .nil st
  | .list js => batch hid shape (st.todo.map (·.ref)) js st
  | _ => (false, st)

/-- `PartiallyCachedEntitiesSeed::deserialize`, `with_cache.rs:134-144`.  The iterator is used up
afterwards. -/
def rawListSeed (hid : Nat → Bool) (shape : RootShape) (j : Json) (st : St) : Bool × St :=
  match j with
  | .list js => batchRaw hid shape st.todo js { st with todo := [] }
  | _ => (false, st)

/-- The loop of `EntitiesDataSeed::visit_map`, `resolver/graphql/deserialize/entities.rs:175-186`.
The value of a second `_entities` is not consumed, at which the parser fails.  The result is whether
there was such a key. -/
def entriesLoop (inner : Json → St → Bool × St) : Entries → Bool → St → Option Bool × St
  | .nil, taken, st => (some taken, st)
  | .bad, _, st => (none, st)
  | .cons k j es, taken, st =>
    if k = entitiesKey then
      if taken then (none, st)
      else
        match inner j st with
        | (true, st) => entriesLoop inner es true st
        | (false, st) => (none, st)
    else if j.broken then (none, st)
    else entriesLoop inner es taken st

/-- `EntitiesDataSeed`, `resolver/graphql/deserialize/entities.rs:25-205`, with `NullableDataSeed`,
`resolver/graphql/deserialize/response.rs:94-131`. -/
def dataSeed (inner : Json → St → Bool × St) (j : Json) (st : St) : Bool × St :=
  match j with
  | .map es =>
    match entriesLoop inner es false st with
    | (none, st) => (false, st)
    | (some true, st) => (true, st)
    | (some false, st) => (true, (inner (.list .nil) st).2)
  | .bad => (false, st)
  | .list js => if js.broken then (false, st) else (true, (inner (.list .nil) st).2)
  | _ => (true, (inner (.list .nil) st).2)

/-- `SubgraphGraphqlError`, `resolver/graphql/deserialize/errors.rs:67-76`. -/
structure SubErr where
  message : Nat
  path : Json

/-- `deserialize` of `SubgraphGraphqlError`: other fields are skipped. -/
def parseError : Entries → Option Nat → Option Json → Bool → Option SubErr
  | .nil, message, path, _ => message.map fun m => ⟨m, path.getD .null⟩
  | .bad, _, _, _ => none
  | .cons k j es, message, path, ext =>
    if k = messageKey then
      match message, j with
      | none, .leaf ⟨true, n⟩ => parseError es (some n) path ext
      | _, _ => none
    else if k = pathKey then
      if path.isSome || j.broken then none else parseError es message (some j) ext
    else if k = extensionsKey then
      if ext then none
      else
        match j with
        | .null => parseError es message path true
        | .map xs => if xs.broken then none else parseError es message path true
        | _ => none
    else if j.broken then none
    else parseError es message path ext

/-- `Vec<SubgraphGraphqlError>`. -/
def parseErrors : Jsons → Option (List SubErr)
  | .nil => some []
  | .bad => none
  | .cons (.map es) js =>
    match parseError es none none false, parseErrors js with
    | some e, some es => some (e :: es)
    | _, _ => none
  | .cons _ _ => none

/-- The rest of the path, `resolver/graphql/deserialize/entities.rs:237-249`. -/
def segments (asU64 : Nat → Option Nat) : Jsons → Option (List Seg)
  | .nil => some []
  | .bad => none
  | .cons (.leaf ⟨true, n⟩) js => (segments asU64 js).map (.field n :: ·)
  | .cons (.leaf ⟨false, n⟩) js =>
    match asU64 n with
    | none => none
    | some i => (segments asU64 js).map (.index i :: ·)
  | .cons _ _ => none

/-- `EntityErrorPathConverter::convert`, `resolver/graphql/deserialize/entities.rs:220-251`; `items`
are the entities that were asked for. -/
def convertPath (asU64 : Nat → Option Nat) (items : List Item) : Json → Option (List VId × List Seg)
  | .list (.cons (.leaf ⟨true, n⟩) (.cons (.leaf ⟨false, i⟩) rest)) =>
    if n = entitiesKey then
      match (asU64 i).bind fun i => items[i]? with
      | none => none
      | some item => (segments asU64 rest).map (item.ref.path, ·)
    else none
  | _ => none

/-- `GraphqlErrorsSeed::deserialize`, `resolver/graphql/deserialize/errors.rs:36-64`: the number of
errors. -/
def errorsSeed (env : Env) (items : List Item) (j : Json) (st : St) : Option Nat × St :=
  match j with
  | .null => (some 0, st)
  | .list js =>
    match parseErrors js with
    | none => (none, st)
    | some es =>
      (some es.length,
        { st with errors := st.errors ++ es.map fun e => .subgraph e.message (convertPath env.asU64 items e.path) })
  | _ => (none, st)

/-- `data_is_null` and `errors_count` of `GraphqlResponseSeed::visit_map`. -/
structure Status where
  dataNull : Option Bool := none
  errors : Nat := 0
  deriving DecidableEq, Repr

/-- `GraphqlResponseStatus::is_success`, of the status built in
`resolver/graphql/deserialize/response.rs:78-89`. -/
def Status.success (s : Status) : Bool := s.dataNull.isSome && s.errors == 0

def isNull : Json → Bool
  | .null => true
  | _ => false

/-- The loop of `GraphqlResponseSeed::visit_map`, `resolver/graphql/deserialize/response.rs:43-76`;
`seenE` says whether `errors_seed` was taken, `data_seed` was if `data_is_null` is set. -/
def responseLoop (data : Json → St → Bool × St) (errs : Json → St → Option Nat × St) :
    Entries → Bool → Status → St → Option Status × St
  | .nil, _, s, st => (some s, st)
  | .bad, _, _, st => (none, st)
  | .cons k j es, seenE, s, st =>
    if k = dataKey then
      if s.dataNull.isSome then (none, st)
      else
        match data j st with
        | (true, st) => responseLoop data errs es seenE { s with dataNull := some (isNull j) } st
        | (false, st) => (none, st)
    else if k = errorsKey then
      if seenE then (none, st)
      else
        match errs j st with
        | (some n, st) => responseLoop data errs es true { s with errors := n } st
        | (none, st) => (none, st)
    else if j.broken then (none, st)
    else responseLoop data errs es seenE s st

/-- `GraphqlResponseSeed`, `resolver/graphql/deserialize/response.rs:25-92`. -/
def responseSeed (data : Json → St → Bool × St) (errs : Json → St → Option Nat × St) (j : Json) (st : St) :
    Option Status × St :=
  match j with
  | .map es =>
    match responseLoop data errs es false {} st with
    | (none, st) => (none, st)
    | (some s, st) => (some s, if s.dataNull.isNone then (data .null st).2 else st)
  | _ => (none, st)

/-- `EntityIngester::ingest`, `federation/without_cache.rs:22-66`.  `parents` are all parent objects;
`none` is a failed request. -/
def ingestPlain (env : Env) (shape : RootShape) (parents : List Ref) (items : List Item) (answer : Option Json)
    (st : St) : Option Status × St :=
  match answer with
  | none => (none, st.errorAll shape .failed parents)
  | some body =>
    match responseSeed (dataSeed (listSeed env.hid shape)) (errorsSeed env items) body
        { st with part := { st.part with bubbling := false }, todo := items } with
    | (some s, st) => (some s, st)
    | (none, st) => (none, if st.part.bubbling then st else st.errorAll shape .invalid parents)

/-- `ingest_hits`, `federation/with_cache.rs:26-40`. -/
def ingestHits (env : Env) (shape : RootShape) : List (Ref × Json) → St → St
  | [], st => st
  | (r, j) :: hits, st =>
    match objectSeed env.hid shape r j st with
    | (true, st) => ingestHits env shape hits st
    | (false, st) => ingestHits env shape hits (if st.part.bubbling then st else st.error shape .invalid r)

/-- `PartiallyCachedEntitiesIngester::ingest`, `federation/with_cache.rs:50-131`; the last component of
the result is what is put in the cache if the response allows it (`cacheable`, which is whether
`calculate_cache_ttl` gives a time). -/
def ingestCached (env : Env) (shape : RootShape) (parents : List Ref) (hits : List (Ref × Json)) (misses : List Item)
    (answer : Option Json) (cacheable : Bool) (st : St) : Option Status × St × List (Nat × Json) :=
  match answer with
  | none => (none, st.errorAll shape .failed parents, [])
  | some body =>
    let st := ingestHits env shape hits { st with part := { st.part with bubbling := false } }
    match responseSeed (dataSeed (rawListSeed env.hid shape)) (errorsSeed env misses) body
        { st with todo := misses, stored := [] } with
    | (some s, st) => (some s, st, if s.success && cacheable then st.stored else [])
    | (none, st) =>
      (none, if st.part.bubbling then st else st.errorAll shape .invalid (st.todo.map (·.ref)), [])

/-- `partition_result` of what `fetch_entity` returns, `resolver/graphql/cache.rs:104-156`. -/
def lookup (cache : Nat → Option Json) (items : List Item) : List (Ref × Json) × List Item :=
  (items.filterMap fun i => (cache i.repr).map fun j => (i.ref, j), items.filter fun i => (cache i.repr).isNone)

/-- The loop of `build_executor`, `federation.rs:76-92`: the entities to fetch, and those whose
representation cannot be written. -/
def toFetch (repr : Ref → Option Nat) (parents : List Ref) : List Item :=
  parents.filterMap fun r => (repr r).map fun n => ⟨r, n⟩

def lacking (repr : Ref → Option Nat) (parents : List Ref) : List Ref := parents.filter fun r => (repr r).isNone

/-- What a plan did: the representations sent, if a request was made; the status; the part and the
errors; what was put in the cache. -/
structure Result where
  sent : Option (List Nat)
  status : Option Status
  st : St
  stored : List (Nat × Json)

/-- `FederationEntityExecutor::execute`, `federation.rs:147-201`, with `fetch_entities_without_cache`,
`:216-263`, and `fetch_entities_with_cache`, `:265-331`.  `cache` is `none` if the subgraph has no
`cache_ttl`; `answer` gives for the representations sent the body of the response, `none` if the
request fails.  Writing the body of the request is taken to succeed. -/
def execute (env : Env) (shape : RootShape) (repr : Ref → Option Nat) (parents : List Ref)
    (cache : Option (Nat → Option Json)) (answer : List Nat → Option Json) (cacheable : Bool) (st : St) : Result :=
  let st := st.empties shape (lacking repr parents)
  let items := toFetch repr parents
  if items.isEmpty then ⟨none, none, st, []⟩
  else
    match cache with
    | none =>
      let (status, st) := ingestPlain env shape parents items (answer (items.map (·.repr))) st
      ⟨some (items.map (·.repr)), status, st, []⟩
    | some cache =>
      let (hits, misses) := lookup cache items
      if misses.isEmpty then
        ⟨none, none, ingestHits env shape hits { st with part := { st.part with bubbling := false } }, []⟩
      else
        let (status, st, stored) :=
          ingestCached env shape parents hits misses (answer (misses.map (·.repr))) cacheable st
        ⟨some (misses.map (·.repr)), status, st, stored⟩

end Verif.Entities
