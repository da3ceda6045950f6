/-!
# Signatures of the requests to subgraphs

Modelled from `crates/runtime-local/src/fetch/signing.rs`, `crates/runtime-local/src/fetch.rs` and
`crates/gateway-config/src/message_signatures.rs`.

What is done by libraries and the file system is a parameter, `Env`: the contents of files, the reading of base64, PEM, JSON and
elliptic curve keys, the identifiers they give to keys, the header names they take as components, and the lists of components they
accept. Durations are nanoseconds. A request is the names of its headers, one for each value, as `HeaderMap::iter` gives them;
its method, URL, values and body are left as they are by the code here.
-/
namespace Verif.Signing

abbrev Bytes := List Nat

/-- `MessageSigningAlgorithm` (message_signatures.rs:20-30); also the algorithm of a key. -/
inductive Alg where
  | hmac
  | ed25519
  | p256
  | p384
deriving DecidableEq, Repr

/-- `MessageSigningKey` (message_signatures.rs:46-58). -/
inductive Source where
  | file (name : String) (id : Option String)
  | inlined (contents : String) (id : Option String)
deriving DecidableEq, Repr

/-- `DerivedComponent` (message_signatures.rs:86-97). -/
inductive Derived where
  | method
  | targetUri
  | authority
  | scheme
  | requestTarget
  | path
deriving DecidableEq, Repr

/-- `SignatureParameter` (message_signatures.rs:107-114). -/
inductive Param where
  | nonce
deriving DecidableEq, Repr

/-- `MessageSignaturesConfig` (message_signatures.rs:4-17, 99-105). -/
structure Config where
  enabled : Option Bool := none
  algorithm : Option Alg := none
  key : Option Source := none
  expiry : Option Nat := none
  includes : Option (List String) := none
  excludes : Option (List String) := none
  derived : Option (List Derived) := none
  params : Option (List Param) := none
deriving DecidableEq, Repr

/-- The reading of a key's configuration (message_signatures.rs:60-84): `none` is an error. -/
def readSource (file inlined id : Option String) : Option Source :=
  match file, inlined with
  | none, none => none
  | some _, some _ => none
  | some name, none => some (.file name id)
  | none, some contents => some (.inlined contents id)

/-- `Jwk` (signing.rs:335-353). -/
structure Jwk where
  kty : String
  kid : Option String := none
  crv : Option String := none
  d : Option String := none
  alg : Option String := none
  k : Option String := none
  x : Option String := none
  y : Option String := none
deriving DecidableEq, Repr

/-- The secret keys of the library. -/
inductive Secret where
  | ed25519 (key : Bytes)
  | p256 (key : Bytes)
  | p384 (key : Bytes)
deriving DecidableEq, Repr

/-- `Key` (signing.rs:244-248). -/
inductive Key where
  | secret (key : Secret) (kid : Option String)
  | shared (key : Bytes) (kid : Option String)
deriving DecidableEq, Repr

/-- A component a signature covers. -/
inductive Component where
  | header (name : String)
  | derived (name : String)
deriving DecidableEq, Repr

structure Env where
  /-- `std::fs::read_to_string`. -/
  readFile : String → Option String
  /-- `SharedKey::from_base64`. -/
  base64 : String → Option Bytes
  /-- `BASE64_URL_SAFE_NO_PAD.decode`. -/
  base64Url : String → Option Bytes
  /-- `SecretKey::from_pem`. -/
  pem : String → Option Secret
  /-- `serde_json::from_str::<Jwk>`. -/
  json : String → Option Jwk
  /-- `JwkEcKey` with `SecretKey::from_jwk`: the curve, then `x`, `y` and `d`. -/
  ecKey : String → String → String → String → Option Bytes
  /-- The identifiers the library gives to keys. -/
  secretId : Secret → String
  sharedId : Bytes → String
  /-- `HttpMessageComponentId::try_from` of a header name. -/
  component : String → Bool
  /-- `HttpSignatureParams::try_new`. -/
  accepts : List Component → Bool

/-- A result, an error or a panic. -/
inductive Out (α : Type) where
  | ok (a : α)
  | error
  | panic
deriving DecidableEq, Repr

def Out.bind {α β : Type} (x : Out α) (f : α → Out β) : Out β :=
  match x with
  | .ok a => f a
  | .error => .error
  | .panic => .panic

def Out.of {α : Type} : Option α → Out α
  | some a => .ok a
  | none => .error

/-! ## Keys -/

/-- `ec_key_from_jwk` and `TryFrom<Jwk>` (signing.rs:443-450, 470-499). -/
def ecKeyOf (env : Env) (j : Jwk) : Option Bytes :=
  match j.crv, j.d, j.x, j.y with
  | some crv, some d, some x, some y => env.ecKey crv x y d
  | _, _, _, _ => none

/-- The private and the public key are put into 64 bytes (signing.rs:422-429): `copy_from_slice` panics unless it is given 32. -/
def ed25519Bytes (priv pub : Bytes) : Out Bytes :=
  if priv.length + pub.length ≠ 64 then .error
  else if priv.length ≠ 32 then .panic
  else .ok (priv ++ pub)

/-- `parse_ed25519` (signing.rs:409-435). -/
def parseEd25519 (env : Env) (j : Jwk) : Out Key :=
  match j.d, j.x with
  | some d, some x =>
    match env.base64Url d, env.base64Url x with
    | some priv, some pub => (ed25519Bytes priv pub).bind (fun b => .ok (.secret (.ed25519 b) j.kid))
    | _, _ => .error
  | _, _ => .error

/-- The key of an `EC` JWK (signing.rs:361-380). -/
def parseEc (env : Env) (j : Jwk) (make : Bytes → Secret) : Out Key :=
  match j.d with
  | none => .error
  | some _ => (Out.of (ecKeyOf env j)).bind (fun b => .ok (.secret (make b) j.kid))

/-- The key of an `oct` JWK (signing.rs:386-401). -/
def parseOct (env : Env) (j : Jwk) : Out Key :=
  if j.alg = some "HS256" then
    match j.k with
    | none => .error
    | some k => (Out.of (env.base64Url k)).bind (fun b => .ok (.shared b j.kid))
  else .error

/-- `parse_jwk` (signing.rs:355-407). -/
def parseJwk (env : Env) (data : String) : Out Key :=
  match env.json data with
  | none => .error
  | some j =>
    if j.kty = "EC" ∧ j.crv = some "P-256" then parseEc env j .p256
    else if j.kty = "EC" ∧ j.crv = some "P-384" then parseEc env j .p384
    else if j.kty = "OKP" ∧ j.crv = some "Ed25519" then parseEd25519 env j
    else if j.kty = "oct" then parseOct env j
    else .error

/-- `char::is_whitespace`. -/
def isSpace (c : Char) : Bool :=
  (9 ≤ c.toNat && c.toNat ≤ 13) || c.toNat == 0x20 || c.toNat == 0x85 || c.toNat == 0xA0 || c.toNat == 0x1680 ||
    (0x2000 ≤ c.toNat && c.toNat ≤ 0x200A) || c.toNat == 0x2028 || c.toNat == 0x2029 || c.toNat == 0x202F || c.toNat == 0x205F ||
    c.toNat == 0x3000

/-- `data.trim_start().starts_with('{')` (signing.rs:275). -/
def looksLikeJson (data : String) : Bool := (data.toList.dropWhile isSpace).head? == some '{'

/-- `Key::alg` (signing.rs:327-332). -/
def Key.alg : Key → Alg
  | .secret (.ed25519 _) _ => .ed25519
  | .secret (.p256 _) _ => .p256
  | .secret (.p384 _) _ => .p384
  | .shared _ _ => .hmac

/-- The key must be of the algorithm which is asked for (signing.rs:292-305). -/
def checkAlg (key : Key) (algorithm : Option Alg) : Out Key :=
  match key, algorithm with
  | _, none => .ok key
  | .shared _ _, some .hmac => .ok key
  | .secret (.ed25519 _) _, some .ed25519 => .ok key
  | .secret (.p256 _) _, some .p256 => .ok key
  | .secret (.p384 _) _, some .p384 => .ok key
  | _, some _ => .error

/-- `Key::from_file` (signing.rs:272-308). -/
def fromFile (env : Env) (name : String) (algorithm : Option Alg) : Out Key :=
  match env.readFile name with
  | none => .error
  | some data =>
    let key :=
      if looksLikeJson data then parseJwk env data
      else if algorithm = some .hmac then (Out.of (env.base64 data)).bind (fun b => .ok (.shared b none))
      else (Out.of (env.pem data)).bind (fun s => .ok (.secret s none))
    key.bind (fun key => checkAlg key algorithm)

/-- `Key::from_string` (signing.rs:258-270). -/
def fromString (env : Env) (contents : String) (algorithm : Option Alg) : Out Key :=
  match algorithm.getD .hmac with
  | .hmac => (Out.of (env.base64 contents)).bind (fun b => .ok (.shared b none))
  | _ => .error

/-- `Key::load_from` (signing.rs:251-256). -/
def loadFrom (env : Env) (key : Source) (algorithm : Option Alg) : Out Key :=
  match key with
  | .file name _ => fromFile env name algorithm
  | .inlined contents _ => fromString env contents algorithm

/-- `Key::key_id` (signing.rs:318-325). -/
def Key.id (env : Env) : Key → String
  | .secret _ (some id) => id
  | .secret s none => env.secretId s
  | .shared _ (some id) => id
  | .shared b none => env.sharedId b

/-- `MessageSigningKey::id` (message_signatures.rs:51-58). -/
def Source.id : Source → Option String
  | .file _ id => id
  | .inlined _ id => id

/-! ## Parameters -/

/-- `SigningParameters` (signing.rs:102-111). -/
structure Params where
  key : Key
  keyId : Option String
  expiry : Option Nat
  includes : Option (List String)
  excludes : List String
  derived : List Derived
  params : List Param
deriving DecidableEq, Repr

/-- `HOP_BY_HOP_HEADERS` (signing.rs:113-122). -/
def hopByHop : List String :=
  ["connection", "keep-alive", "proxy-authenticate", "proxy-authorization", "te", "trailers", "transfer-encoding", "upgrade"]

/-- `merge_config` (signing.rs:228-243). -/
def mergeConfig (into src : Config) : Config :=
  { enabled := into.enabled.or src.enabled
    algorithm := into.algorithm.or src.algorithm
    key := into.key.or src.key
    expiry := into.expiry.or src.expiry
    includes := into.includes.or src.includes
    excludes := into.excludes.or src.excludes
    derived := into.derived.or src.derived
    params := into.params.or src.params }

/-- The configuration with the gateway's, if it is given (signing.rs:129-132). -/
def effective (config : Config) (global : Option Config) : Config :=
  match global with
  | some g => mergeConfig config g
  | none => config

/-- `SigningParameters::from_config` (signing.rs:124-171). -/
def fromConfig (env : Env) (config : Config) (global : Option Config) : Out (Option Params) :=
  let c := effective config global
  if c.enabled.getD false then
    match c.key with
    | none => .error
    | some source =>
      (loadFrom env source c.algorithm).bind (fun key =>
        .ok (some
          { key := key
            keyId := source.id
            expiry := c.expiry
            includes := c.includes
            excludes := c.excludes.getD [] ++ hopByHop
            derived := c.derived.getD [.requestTarget]
            params := c.params.getD [] }))
  else .ok none

/-- `should_include_header` (signing.rs:213-226). -/
def shouldInclude (p : Params) (name : String) : Bool :=
  if p.excludes.contains name then false
  else
    match p.includes with
    | some includes => if includes.contains name then true else true
    | none => true

/-- `derived_component_to_message_component` (signing.rs:452-462). -/
def derivedName : Derived → String
  | .method => "@method"
  | .targetUri => "@target-uri"
  | .authority => "@authority"
  | .scheme => "@scheme"
  | .requestTarget => "@request-target"
  | .path => "@path"

/-- The parameters of a signature. -/
structure SigParams where
  components : List Component
  alg : Alg
  keyId : Option String
  nonce : Bool
  created : Nat
  expires : Option Nat
deriving DecidableEq, Repr

/-- The key identifier which is told (signing.rs:188-197). -/
def toldId (env : Env) (p : Params) : Option String :=
  let known :=
    match p.key with
    | .shared _ none => none
    | key => some (key.id env)
  match p.keyId with
  | some id => some id
  | none => known

/-- The components of the headers (signing.rs:174-178). -/
def headerComponents (env : Env) (p : Params) (headers : List String) : Out (List Component) :=
  let names := headers.filter (shouldInclude p)
  if names.all env.component then .ok (names.map .header) else .error

/-- `httpsig_params` (signing.rs:173-211) at the time `now`, in seconds. -/
def sigParams (env : Env) (p : Params) (now : Nat) (headers : List String) : Out SigParams :=
  (headerComponents env p headers).bind (fun hs =>
    let components := hs ++ p.derived.map (fun d => .derived (derivedName d))
    if env.accepts components then
      .ok
        { components := components
          alg := p.key.alg
          keyId := toldId env p
          nonce := !p.params.isEmpty
          created := now
          expires := p.expiry.map (fun e => now + e / 1000000000) }
    else .error)

/-! ## The signer -/

/-- `RequestSigner` (signing.rs:22-25): the later entry of a subgraph is the one which counts. -/
structure Signer where
  subgraphs : List (Nat × Option Params)
  fallback : Option Params
deriving DecidableEq, Repr

/-- `generate_subgraph_signing_parameters` (signing.rs:41-61): `ids` are the subgraphs of the schema by name. -/
def subgraphParams (env : Env) (global : Config) (ids : List (String × Nat)) :
    List (String × Option Config) → Out (List (Nat × Option Params))
  | [] => .ok []
  | (name, own) :: rest =>
    match ids.lookup name, own with
    | some id, some own =>
      (fromConfig env own (some global)).bind (fun p =>
        (subgraphParams env global ids rest).bind (fun ps => .ok ((id, p) :: ps)))
    | _, _ => subgraphParams env global ids rest

/-- `RequestSigner::new` (signing.rs:27-39). -/
def newSigner (env : Env) (global : Config) (ids : List (String × Nat)) (subgraphs : List (String × Option Config)) : Out Signer :=
  (fromConfig env global none).bind (fun d =>
    (subgraphParams env global ids subgraphs).bind (fun ps => .ok ⟨ps, d⟩))

/-- What becomes of a request. -/
inductive Sent where
  | plain
  | signed (key : Key) (params : SigParams)
  | failed
deriving DecidableEq, Repr

/-- The parameters of a subgraph (signing.rs:69-74). -/
def Signer.params (s : Signer) (id : Nat) : Option Params :=
  match s.subgraphs.reverse.lookup id with
  | some p => p
  | none => s.fallback

/-- `sign` (signing.rs:63-99). -/
def sign (env : Env) (s : Signer) (id now : Nat) (headers : List String) : Sent :=
  match s.params id with
  | none => .plain
  | some p =>
    match sigParams env p now headers with
    | .ok params => .signed p.key params
    | _ => .failed

/-- How a request is made (fetch.rs). -/
inductive Transport where
  | http
  | sse
  | websocket
deriving DecidableEq, Repr

/-- `execute` (fetch.rs:87-101), `graphql_over_sse_stream` (fetch.rs:164-200) and `graphql_over_websocket_stream` (fetch.rs:202-235). -/
def send (env : Env) (s : Signer) (t : Transport) (id now : Nat) (headers : List String) : Sent :=
  match t with
  | .http => sign env s id now headers
  | .sse => .plain
  | .websocket => .plain

end Verif.Signing
