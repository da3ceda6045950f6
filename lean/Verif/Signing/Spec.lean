import Verif.Signing.Model

/-!
# What signatures are to be
-/
namespace Verif.Signing

/-- A setting of the subgraph if it has one, and of the gateway otherwise. -/
inductive Chosen {α : Type} : Option α → Option α → Option α → Prop where
  | own {a : α} {g : Option α} : Chosen (some a) g (some a)
  | gateway {g : Option α} : Chosen none g g

/-- The key of a JSON Web Key. -/
inductive OfJwk (env : Env) (j : Jwk) : Key → Prop where
  | p256 {d x y b} : j.kty = "EC" → j.crv = some "P-256" → j.d = some d → j.x = some x → j.y = some y →
      env.ecKey "P-256" x y d = some b → OfJwk env j (.secret (.p256 b) j.kid)
  | p384 {d x y b} : j.kty = "EC" → j.crv = some "P-384" → j.d = some d → j.x = some x → j.y = some y →
      env.ecKey "P-384" x y d = some b → OfJwk env j (.secret (.p384 b) j.kid)
  | ed25519 {d x priv pub} : j.kty = "OKP" → j.crv = some "Ed25519" → j.d = some d → j.x = some x →
      env.base64Url d = some priv → env.base64Url x = some pub → priv.length = 32 → pub.length = 32 →
      OfJwk env j (.secret (.ed25519 (priv ++ pub)) j.kid)
  | oct {k b} : j.kty = "oct" → j.alg = some "HS256" → j.k = some k → env.base64Url k = some b → OfJwk env j (.shared b j.kid)

/-- The characters which are `White_Space`. -/
def White (c : Char) : Prop :=
  c.toNat ∈ [0x9, 0xA, 0xB, 0xC, 0xD, 0x20, 0x85, 0xA0, 0x1680, 0x2000, 0x2001, 0x2002, 0x2003, 0x2004, 0x2005, 0x2006, 0x2007, 0x2008,
    0x2009, 0x200A, 0x2028, 0x2029, 0x202F, 0x205F, 0x3000]

/-- White space, then a brace. -/
def JsonLike (data : String) : Prop := ∃ before rest, data.toList = before ++ '{' :: rest ∧ ∀ c ∈ before, White c

/-- The algorithm a key is for. -/
inductive For : Key → Alg → Prop where
  | ed25519 {b kid} : For (.secret (.ed25519 b) kid) .ed25519
  | p256 {b kid} : For (.secret (.p256 b) kid) .p256
  | p384 {b kid} : For (.secret (.p384 b) kid) .p384
  | hmac {b kid} : For (.shared b kid) .hmac

/-- The keys of the configuration. -/
inductive Loads (env : Env) : Source → Option Alg → Key → Prop where
  | inlined {c id alg b} : (alg = none ∨ alg = some .hmac) → env.base64 c = some b → Loads env (.inlined c id) alg (.shared b none)
  | base64 {n id data b} : env.readFile n = some data → ¬ JsonLike data → env.base64 data = some b →
      Loads env (.file n id) (some .hmac) (.shared b none)
  | pem {n id alg data s} : env.readFile n = some data → ¬ JsonLike data → env.pem data = some s → alg ≠ some .hmac →
      (∀ a, alg = some a → For (.secret s none) a) → Loads env (.file n id) alg (.secret s none)
  | jwk {n id alg data j key} : env.readFile n = some data → JsonLike data → env.json data = some j → OfJwk env j key →
      (∀ a, alg = some a → For key a) → Loads env (.file n id) alg key

/-- The JSON Web Keys which cannot be loaded: the keys have 64 bytes, but not 32 each. -/
def BadLengths (env : Env) (j : Jwk) : Prop :=
  j.kty = "OKP" ∧ j.crv = some "Ed25519" ∧ ∃ d x priv pub, j.d = some d ∧ j.x = some x ∧ env.base64Url d = some priv ∧
    env.base64Url x = some pub ∧ priv.length + pub.length = 64 ∧ priv.length ≠ 32

/-- The headers which are said to hop. -/
def Hops (name : String) : Prop :=
  name = "connection" ∨ name = "keep-alive" ∨ name = "proxy-authenticate" ∨ name = "proxy-authorization" ∨ name = "te" ∨
    name = "trailers" ∨ name = "transfer-encoding" ∨ name = "upgrade"

instance (name : String) : Decidable (Hops name) := by unfold Hops; infer_instance

/-- The identifier which is told: the configured one, then the key's, then the library's for secret keys. -/
inductive Told (env : Env) : Option String → Key → Option String → Prop where
  | configured {id key} : Told env (some id) key (some id)
  | secret {s kid} : Told env none (.secret s (some kid)) (some kid)
  | shared {b kid} : Told env none (.shared b (some kid)) (some kid)
  | library {s} : Told env none (.secret s none) (some (env.secretId s))
  | nothing {b} : Told env none (.shared b none) none

/-- The names of derived components (RFC 9421, 2.2). -/
inductive Named : Derived → String → Prop where
  | method : Named .method "@method"
  | targetUri : Named .targetUri "@target-uri"
  | authority : Named .authority "@authority"
  | scheme : Named .scheme "@scheme"
  | requestTarget : Named .requestTarget "@request-target"
  | path : Named .path "@path"

/-- The settings of a subgraph: its own if it is configured, over the gateway's. -/
structure Settings (own global s : Config) : Prop where
  enabled : Chosen own.enabled global.enabled s.enabled
  algorithm : Chosen own.algorithm global.algorithm s.algorithm
  key : Chosen own.key global.key s.key
  expiry : Chosen own.expiry global.expiry s.expiry
  includes : Chosen own.includes global.includes s.includes
  excludes : Chosen own.excludes global.excludes s.excludes
  derived : Chosen own.derived global.derived s.derived
  params : Chosen own.params global.params s.params

/-- The headers which are not left out, and the derived components. -/
def Covers (components : List Component) (headers : List String) (derived : List Derived) (out : String → Prop) : Prop :=
  ∃ hs ds, components = hs ++ ds ∧
    (∀ c, c ∈ hs ↔ ∃ n ∈ headers, ¬ out n ∧ c = .header n) ∧
    (∀ c, c ∈ ds ↔ ∃ d ∈ derived, ∃ n, Named d n ∧ c = .derived n)

/-- The headers which are left out. -/
def LeftOut (s : Config) (n : String) : Prop := Hops n ∨ ∃ l, s.excludes = some l ∧ n ∈ l

/-- A signature made of settings. -/
structure Signature (env : Env) (s : Config) (now : Nat) (headers : List String) (key : Key) (p : SigParams) : Prop where
  loaded : ∃ source, s.key = some source ∧ Loads env source s.algorithm key ∧
    ∃ id, Told env id key p.keyId ∧ ((∃ n, source = .file n id) ∨ ∃ c, source = .inlined c id)
  alg : For key p.alg
  covers : Covers p.components headers (s.derived.getD [.requestTarget]) (LeftOut s)
  times : ∀ n, (Component.header n ∈ p.components) → p.components.count (.header n) = headers.count n
  nonce : p.nonce = true ↔ ∃ l, s.params = some l ∧ .nonce ∈ l
  created : p.created = now
  expires : (s.expiry = none → p.expires = none) ∧
    ∀ e, s.expiry = some e → ∃ t, p.expires = some t ∧ t * 1000000000 ≤ now * 1000000000 + e ∧
      now * 1000000000 + e < (t + 1) * 1000000000

/-- The configuration of a subgraph. -/
inductive Own (subs : List (String × Option Config)) (name : String) : Config → Prop where
  | configured {own} : (name, some own) ∈ subs → Own subs name own
  | unset : (∀ own, (name, some own) ∉ subs) → Own subs name {}

/-- The key there must be is there. -/
def Ready (env : Env) (s : Config) : Prop :=
  s.enabled = some true → ∃ source key, s.key = some source ∧ Loads env source s.algorithm key

end Verif.Signing
