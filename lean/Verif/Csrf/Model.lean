/-
Model of federated-server/src/router/layers/csrf.rs:62-88 and of the order of layers in
federated-server/src/router/mod.rs:58-124: every request to the GraphQL, websocket and MCP routes goes through the
CORS layer (tower-http), then the CSRF layer, then the service behind it. Header names are lists of characters.
-/
namespace Verif.Csrf

abbrev Str := List Char

/-- gateway-config/src/lib.rs:531-543 -/
structure Config where
  enabled : Bool
  headerName : Str
  deriving DecidableEq, Repr

inductive Method where
  | get | post | options
  | other (name : Str)
  deriving DecidableEq, Repr

structure Request where
  method : Method
  headers : List (Str × Str)
  deriving DecidableEq, Repr

/-- The characters allowed in header names by the `http` crate. -/
def isToken (c : Char) : Bool := c.isAlphanum || c ∈ "!#$%&'*+-.^_`|~".toList

/-- `http::HeaderName` from a string: not empty, only token characters, in lower case. -/
def toHeaderName (s : Str) : Option Str :=
  if s ≠ [] ∧ s.all isToken then some (s.map Char.toLower) else none

/-- `HeaderMap::contains_key` with a string: false if it is not a header name. The names in a map are those of
`HeaderName`s. -/
def containsKey (headers : List (Str × Str)) (key : Str) : Bool :=
  match toHeaderName key with
  | some name => headers.any (fun h => h.1 == name)
  | none => false

/-- What happens to a request. -/
inductive Outcome where
  | preflight
  | forbidden
  | service
  deriving DecidableEq, Repr

/-- csrf.rs:77-79 -/
def validCsrf (config : Config) (r : Request) : Bool :=
  !config.enabled || decide (r.method = .options) || containsKey r.headers config.headerName

/-- csrf.rs:72-88: `inner` answers a request that is let through. -/
def csrf (config : Config) (inner : Request → Outcome) (r : Request) : Outcome :=
  if validCsrf config r then inner r else .forbidden

/-- tower-http's `CorsLayer` answers every `OPTIONS` request itself and passes on all others. -/
def cors (inner : Request → Outcome) (r : Request) : Outcome :=
  if r.method = .options then .preflight else inner r

/-- router/mod.rs:79, 85-124 -/
def router (config : Config) (r : Request) : Outcome := cors (csrf config (fun _ => .service)) r

end Verif.Csrf
