/-
Model of `ResponseFormat::extract_from`, engine/src/graphql_over_http/format.rs:100-168: the response format for the
`Accept` headers of a request. Header values are given as the media types the `mediatype` crate finds in them
(entries it rejects are skipped by the code); names compare without regard to ASCII case. `parse::<f32>` is a
parameter giving the 32 bits of the number.
-/
namespace Verif.Accept

abbrev Str := List Char

/-- `mediatype::MediaType` -/
structure MediaType where
  ty : Str
  subty : Str
  suffix : Option Str
  params : List (Str × Str)
  deriving DecidableEq, Repr

def lower (s : Str) : Str := s.map Char.toLower

/-- What `essence()` compares by. -/
structure Essence where
  ty : Str
  subty : Str
  suffix : Option Str
  deriving DecidableEq, Repr

def MediaType.essence (m : MediaType) : Essence := ⟨lower m.ty, lower m.subty, m.suffix.map lower⟩

/-- 104-115 -/
def starStar : Essence := ⟨"*".toList, "*".toList, none⟩
def applicationStar : Essence := ⟨"application".toList, "*".toList, none⟩
def multipartMixed : Essence := ⟨"multipart".toList, "mixed".toList, none⟩
def textEventStream : Essence := ⟨"text".toList, "event-stream".toList, none⟩
def applicationJson : Essence := ⟨"application".toList, "json".toList, none⟩
def applicationGraphqlResponseJson : Essence := ⟨"application".toList, "graphql-response".toList, some "json".toList⟩

/-- 116-123 -/
def supported : List Essence :=
  [starStar, applicationStar, applicationJson, applicationGraphqlResponseJson, textEventStream, multipartMixed]

/-- 3-35 -/
inductive Format where
  | json
  | graphqlResponseJson
  | incrementalDelivery
  | sse
  deriving DecidableEq, Repr

/-- The order of `f32::total_cmp` on the bits of the numbers. -/
def key (bits : Nat) : Int := if bits < 2147483648 then bits else 2147483647 - bits

/-- The bits of 1.0. -/
def one : Nat := 0x3f800000

/-- 140-147: the value of the first parameter `q`, 1.0 if there is none or it is not a number. -/
def quality (parse : Str → Option Nat) (m : MediaType) : Nat :=
  match m.params.find? (fun p => lower p.1 == ['q']) with
  | some p => (parse p.2).getD one
  | none => one

/-- `Iterator::max_by`: the last of the largest. -/
def maxBy : List (MediaType × Nat) → Option (MediaType × Nat)
  | [] => none
  | x :: xs => some (xs.foldl (fun best y => if key y.2 < key best.2 then best else y) x)

/-- 153-166 -/
def formatOf (e : Essence) : Option Format :=
  if e = starStar ∨ e = applicationStar then some .json
  else if e = applicationJson then some .json
  else if e = applicationGraphqlResponseJson then some .graphqlResponseJson
  else if e = multipartMixed then some .incrementalDelivery
  else if e = textEventStream then some .sse
  else none

/-- 126-168: `none` for no `Accept` header. -/
def extractFrom (parse : Str → Option Nat) (accept : Option (List MediaType)) : Option Format :=
  match accept with
  | none => some .json
  | some l =>
    match maxBy ((l.filter (fun m => m.essence ∈ supported)).map (fun m => (m, quality parse m))) with
    | none => none
    | some best => formatOf best.1.essence

end Verif.Accept
