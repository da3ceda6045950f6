/-!
# Cross-origin requests

Modelled from `crates/federated-server/src/router/layers/cors.rs`, `crates/federated-server/src/router/mod.rs` (59-80) and
`crates/gateway-config/src/cors.rs`, with the parts of `tower_http::cors` (0.6.8) they use.

Strings are lists of characters. The matcher of patterns (`fast_glob::glob_match`) is a parameter. The origins of the settings are what
`&origin[..url::Position::BeforePath]` gives. Of responses just the headers of cross-origin requests are kept, one value of each; the
`vary` header is left out.
-/
namespace Verif.Cors

abbrev Str := List Char

/-- What is done, or that the gateway panics while it starts. -/
inductive Res (α : Type) where
  | ok (a : α)
  | panic
deriving DecidableEq

/-! ## Settings (gateway-config cors.rs) -/

/-- `AnyOrArray` (cors.rs:88-92). -/
inductive AnyOr (α : Type) where
  | any
  | explicit (l : List α)
deriving DecidableEq

/-- `HttpMethod` (cors.rs:26-38). -/
inductive Method where
  | get
  | post
  | put
  | delete
  | head
  | options
  | connect
  | patch
  | trace
deriving DecidableEq

/-- `http::Method::from` (cors.rs:68-82). -/
def Method.name : Method → Str
  | .get => "GET".toList
  | .post => "POST".toList
  | .put => "PUT".toList
  | .delete => "DELETE".toList
  | .head => "HEAD".toList
  | .options => "OPTIONS".toList
  | .connect => "CONNECT".toList
  | .patch => "PATCH".toList
  | .trace => "TRACE".toList

/-- `CorsConfig` (cors.rs:6-24). -/
structure Config where
  credentials : Bool := false
  origins : Option (AnyOr Str) := none
  maxAge : Option Nat := none
  methods : Option (AnyOr Method) := none
  headers : Option (AnyOr Str) := none
  expose : Option (AnyOr Str) := none
  privateNetwork : Bool := false

/-- What is in the file: a string or a list. -/
inductive Setting (α : Type) where
  | str (s : Str)
  | seq (l : List α)

/-- `AnyOrArray::deserialize` (cors.rs:94-143): `parse` reads a string as a value; `none` is an error. -/
def AnyOr.read {α : Type} (parse : Str → Option α) : Setting α → Option (AnyOr α)
  | .str s =>
    if s = "*".toList ∨ s = "any".toList then some .any
    else
      match parse s with
      | some a => some (.explicit [a])
      | none => none
  | .seq l => some (.explicit l)

/-! ## `tower_http::cors` -/

/-- `AllowOrigin`. -/
inductive AllowOrigin where
  | any
  | list (l : List Str)
  | predicate (p : Str → Bool)

/-- `CorsLayer`, with the values of its headers. -/
structure Layer where
  credentials : Bool
  privateNetwork : Bool
  origin : AllowOrigin
  maxAge : Option Nat
  methods : Option Str
  headers : Option Str
  expose : Option Str

/-- `CorsLayer::new`. -/
def Layer.new : Layer :=
  { credentials := false, privateNetwork := false, origin := .list [], maxAge := none, methods := none, headers := none, expose := none }

def wildcard : Str := ['*']

/-- `CorsLayer::permissive`. -/
def Layer.permissive : Layer :=
  { Layer.new with headers := some wildcard, methods := some wildcard, origin := .any, expose := some wildcard }

/-- `separated_by_commas`. -/
def commas : List Str → Option Str
  | [] => none
  | a :: l => some (a ++ l.flatMap (fun s => ',' :: s))

def AllowOrigin.isWildcard : AllowOrigin → Bool
  | .any => true
  | _ => false

/-- `ensure_usable_cors_rules`: asserted where the layer is put around a service. -/
def Layer.usable (l : Layer) : Bool :=
  !(l.credentials && (l.headers == some wildcard || l.methods == some wildcard || l.origin.isWildcard || l.expose == some wildcard))

/-- The headers of requests which matter. -/
structure Request where
  method : Str
  origin : Option Str
  privateNetwork : Bool

/-- The headers of responses. -/
structure Headers where
  allowOrigin : Option Str := none
  allowCredentials : Option Str := none
  allowPrivateNetwork : Option Str := none
  allowMethods : Option Str := none
  allowHeaders : Option Str := none
  maxAge : Option Nat := none
  exposeHeaders : Option Str := none
deriving DecidableEq

/-- `AllowOrigin::to_future`. -/
def AllowOrigin.header : AllowOrigin → Option Str → Option Str
  | .any, _ => some wildcard
  | .list l, origin => origin.filter (fun o => l.contains o)
  | .predicate p, origin => origin.filter p

def trueValue : Str := "true".toList

/-- The headers of both kinds of responses. -/
def Layer.common (l : Layer) (r : Request) : Headers :=
  { allowOrigin := l.origin.header r.origin
    allowCredentials := if l.credentials then some trueValue else none
    allowPrivateNetwork := if r.privateNetwork && l.privateNetwork then some trueValue else none }

/-- Headers of the layer replace those of the service. -/
def Headers.over (h inner : Headers) : Headers :=
  { allowOrigin := h.allowOrigin.or inner.allowOrigin
    allowCredentials := h.allowCredentials.or inner.allowCredentials
    allowPrivateNetwork := h.allowPrivateNetwork.or inner.allowPrivateNetwork
    allowMethods := h.allowMethods.or inner.allowMethods
    allowHeaders := h.allowHeaders.or inner.allowHeaders
    maxAge := h.maxAge.or inner.maxAge
    exposeHeaders := h.exposeHeaders.or inner.exposeHeaders }

/-- `Cors::call`: the headers of the response, and whether the service is called. -/
def Layer.call (l : Layer) (r : Request) (service : Request → Headers) : Headers × Bool :=
  if r.method = Method.options.name then
    ({ l.common r with allowMethods := l.methods, allowHeaders := l.headers, maxAge := l.maxAge }, false)
  else ({ l.common r with exposeHeaders := l.expose }.over (service r), true)

/-! ## `cors_layer` (layers/cors.rs) -/

def special (c : Char) : Bool := "?*[]{}!\\".toList.contains c

/-- The loop over origins (cors.rs:45-52): what is compared, and the patterns. -/
def splitOrigins : List Str → List Str × List Str
  | [] => ([], [])
  | o :: rest =>
    let (constants, globs) := splitOrigins rest
    if o.any special then (constants, o :: globs) else (o :: constants, globs)

/-- cors.rs:40-81. -/
def allowOrigin (glob : Str → Str → Bool) : AnyOr Str → AllowOrigin
  | .any => .any
  | .explicit origins =>
    let (constants, globs) := splitOrigins origins
    if globs.isEmpty then .list constants
    else if constants.isEmpty then .predicate (fun o => globs.any (fun g => glob g o))
    else .predicate (fun o => constants.any (fun c => o == c) || globs.any (fun g => glob g o))

/-- cors.rs:39: without origins there are none. -/
def originOf (glob : Str → Str → Bool) : Option (AnyOr Str) → AllowOrigin
  | some o => allowOrigin glob o
  | none => Layer.new.origin

/-- The characters of names of headers. -/
def tokenChar (c : Char) : Bool :=
  "!#$%&'*+-.^_`|~".toList.contains c || (48 ≤ c.toNat && c.toNat ≤ 57) || (65 ≤ c.toNat && c.toNat ≤ 90) || (97 ≤ c.toNat && c.toNat ≤ 122)

def lowerChar (c : Char) : Char := if 65 ≤ c.toNat ∧ c.toNat ≤ 90 then Char.ofNat (c.toNat + 32) else c

/-- `HeaderName::from_bytes`; names of more than 65535 bytes are left out. -/
def headerName (s : Str) : Option Str :=
  if s ≠ [] ∧ s.all tokenChar then some (s.map lowerChar) else none

/-- The names of headers, with `expect` (cors.rs:101-107, 115-121). -/
def headerNames : List Str → Res (List Str)
  | [] => .ok []
  | s :: rest =>
    match headerName s with
    | none => .panic
    | some n =>
      match headerNames rest with
      | .ok l => .ok (n :: l)
      | .panic => .panic

/-- cors.rs:98-109 and 112-123. -/
def headerList : Option (AnyOr Str) → Res (Option Str)
  | none => .ok none
  | some .any => .ok (some wildcard)
  | some (.explicit l) =>
    match headerNames l with
    | .ok names => .ok (commas names)
    | .panic => .panic

/-- cors.rs:88-96. -/
def methodList : Option (AnyOr Method) → Option Str
  | none => none
  | some .any => some wildcard
  | some (.explicit l) => commas (l.map Method.name)

/-- `cors_layer` (cors.rs:23-126). -/
def corsLayer (glob : Str → Str → Bool) (c : Config) : Res Layer :=
  match headerList c.headers with
  | .panic => .panic
  | .ok headers =>
    match headerList c.expose with
    | .panic => .panic
    | .ok expose =>
      .ok
        { credentials := c.credentials
          privateNetwork := c.privateNetwork
          origin := originOf glob c.origins
          maxAge := c.maxAge
          methods := methodList c.methods
          headers := headers
          expose := expose }

/-- The layer of the router (router/mod.rs:61-64), once it is around a service. -/
def start (glob : Str → Str → Bool) : Option Config → Res Layer
  | none => if Layer.permissive.usable then .ok Layer.permissive else .panic
  | some c =>
    match corsLayer glob c with
    | .panic => .panic
    | .ok l => if l.usable then .ok l else .panic

end Verif.Cors
