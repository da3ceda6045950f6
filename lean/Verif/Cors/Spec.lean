import Verif.Cors.Model

/-! What browsers do with the headers, by the Fetch Standard, and what is allowed by the settings. -/
namespace Verif.Cors

/-! ## Browsers -/

/-- The parts of a value between commas. -/
def parts : Str → List Str
  | [] => [[]]
  | c :: s =>
    if c = ',' then [] :: parts s
    else
      match parts s with
      | [] => [[c]]
      | p :: ps => (c :: p) :: ps

/-- "Extract header list values": a header which is absent has none. -/
def values : Option Str → List Str
  | none => []
  | some s => parts s

/-- The CORS check of a response, for a request from an origin, with or without credentials. -/
def CorsCheck (h : Headers) (origin : Str) (credentials : Bool) : Prop :=
  ∃ v, h.allowOrigin = some v ∧
    ((credentials = false ∧ v = ['*']) ∨ (v = origin ∧ (credentials = true → h.allowCredentials = some ['t', 'r', 'u', 'e'])))

/-- Equality of names without regard to the case of letters of ASCII. -/
def sameName (a b : Str) : Prop := a.map Char.toLower = b.map Char.toLower

/-- The checks of a preflight response: of the method, and of the names of headers which are not safe. -/
def MethodPasses (h : Headers) (credentials : Bool) (method : Str) : Prop :=
  method ∈ values h.allowMethods ∨ method ∈ ["GET".toList, "HEAD".toList, "POST".toList] ∨ (credentials = false ∧ ['*'] ∈ values h.allowMethods)

def HeaderPasses (h : Headers) (credentials : Bool) (name : Str) : Prop :=
  (∃ n ∈ values h.allowHeaders, sameName n name) ∨
    (credentials = false ∧ ['*'] ∈ values h.allowHeaders ∧ ¬ sameName name "authorization".toList)

/-- A request of a site which needs a preflight is sent. -/
def Sent (h : Headers) (origin : Str) (credentials : Bool) (method : Str) (headers : List Str) : Prop :=
  CorsCheck h origin credentials ∧ MethodPasses h credentials method ∧ ∀ n ∈ headers, HeaderPasses h credentials n

/-- A header of a response which scripts may read (other than the safe ones). -/
def Exposed (h : Headers) (credentials : Bool) (name : Str) : Prop :=
  (∃ n ∈ values h.exposeHeaders, sameName n name) ∨ (credentials = false ∧ ['*'] ∈ values h.exposeHeaders)

/-! ## Settings -/

/-- Patterns have one of the characters `?*[]{}!\`. -/
def Pattern (o : Str) : Prop :=
  ∃ c ∈ o, c = '?' ∨ c = '*' ∨ c = '[' ∨ c = ']' ∨ c = '{' ∨ c = '}' ∨ c = '!' ∨ c = '\\'

/-- Without settings everything is allowed, but for credentials. -/
def settings : Option Config → Config
  | none => { origins := some .any, methods := some .any, headers := some .any, expose := some .any }
  | some c => c

/-- An origin is allowed: it is listed, or meets a pattern. -/
inductive OriginAllowed (glob : Str → Str → Bool) (c : Config) (o : Str) : Prop where
  | any : c.origins = some .any → OriginAllowed glob c o
  | listed {l : List Str} : c.origins = some (.explicit l) → o ∈ l → ¬ Pattern o → OriginAllowed glob c o
  | pattern {l : List Str} {p : Str} : c.origins = some (.explicit l) → p ∈ l → Pattern p → glob p o = true → OriginAllowed glob c o

/-- A method is allowed, which is always so for the safe ones. -/
inductive MethodAllowed (c : Config) : Str → Prop where
  | safe {m : Str} : m ∈ ["GET".toList, "HEAD".toList, "POST".toList] → MethodAllowed c m
  | any {m : Str} : c.methods = some .any → MethodAllowed c m
  | put {l} : c.methods = some (.explicit l) → .put ∈ l → MethodAllowed c "PUT".toList
  | delete {l} : c.methods = some (.explicit l) → .delete ∈ l → MethodAllowed c "DELETE".toList
  | options {l} : c.methods = some (.explicit l) → .options ∈ l → MethodAllowed c "OPTIONS".toList
  | connect {l} : c.methods = some (.explicit l) → .connect ∈ l → MethodAllowed c "CONNECT".toList
  | patch {l} : c.methods = some (.explicit l) → .patch ∈ l → MethodAllowed c "PATCH".toList
  | trace {l} : c.methods = some (.explicit l) → .trace ∈ l → MethodAllowed c "TRACE".toList

/-- A name is in a list, where `*` is every other name for requests without credentials. -/
inductive Listed (s : Option (AnyOr Str)) (credentials : Bool) (name : Str) : Prop where
  | any : s = some .any → credentials = false → Listed s credentials name
  | named {l n} : s = some (.explicit l) → n ∈ l → sameName n name → Listed s credentials name
  | star {l} : s = some (.explicit l) → ['*'] ∈ l → credentials = false → Listed s credentials name

/-- Names of headers: tokens of HTTP. -/
def Token (s : Str) : Prop :=
  s ≠ [] ∧ ∀ c ∈ s, ('a' ≤ c ∧ c ≤ 'z') ∨ ('A' ≤ c ∧ c ≤ 'Z') ∨ ('0' ≤ c ∧ c ≤ '9') ∨
    c ∈ ['!', '#', '$', '%', '&', '\'', '*', '+', '-', '.', '^', '_', '`', '|', '~']

/-- Settings with which the gateway starts: names of headers are tokens, and credentials are not allowed beside what is allowed to all. -/
structure Starts (c : Config) : Prop where
  headers : ∀ l, c.headers = some (.explicit l) → ∀ s ∈ l, Token s
  expose : ∀ l, c.expose = some (.explicit l) → ∀ s ∈ l, Token s
  wild : c.credentials = true → c.origins ≠ some .any ∧ c.methods ≠ some .any ∧ c.headers ≠ some .any ∧ c.expose ≠ some .any ∧
    c.headers ≠ some (.explicit [['*']]) ∧ c.expose ≠ some (.explicit [['*']])

end Verif.Cors
