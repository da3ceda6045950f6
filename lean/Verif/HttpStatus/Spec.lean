import Verif.HttpStatus.Model

/-!
# What HTTP responses should say

From the GraphQL-over-HTTP specification and the documentation of the codes, without the functions of the model.
-/
namespace Verif.HttpStatus

/-! ## Statuses -/

/-- The status a code stands for. -/
def httpStatus (c : Code) : Nat :=
  if c = .unauthenticated then 401
  else if c = .unauthorized then 403
  else if c = .rateLimited then 429
  else if c ∈ [Code.subgraphError, .subgraphInvalidResponseError, .subgraphRequestError] then 502
  else if c = .gatewayTimeout then 504
  else if c ∈ [Code.extensionError, .internalServerError] then 500
  else 400

/-- The status of errors with these codes is `s`: the most helpful one. -/
def Helpful (codes : List Code) (s : Nat) : Prop :=
  let has (x : Nat) : Prop := ∃ c ∈ codes, httpStatus c = x
  (s = 400 ∧ has 400) ∨
  (s = 403 ∧ has 403 ∧ ¬ has 400) ∨
  (s = 401 ∧ has 401 ∧ ¬ has 400 ∧ ¬ has 403) ∨
  (s = 429 ∧ has 429 ∧ ¬ has 400 ∧ ¬ has 403 ∧ ¬ has 401) ∨
  (s = 502 ∧ has 502 ∧ ¬ has 400 ∧ ¬ has 403 ∧ ¬ has 401 ∧ ¬ has 429) ∨
  (s = 504 ∧ has 504 ∧ ¬ has 400 ∧ ¬ has 403 ∧ ¬ has 401 ∧ ¬ has 429 ∧ ¬ has 502) ∨
  (s = 500 ∧ ∀ c ∈ codes, httpStatus c = 500)

/-- A body has data. -/
def HasData {V : Type} (b : List (Entry V)) : Prop := ∃ v, Entry.data v ∈ b

def HasErrors {V : Type} (b : List (Entry V)) : Prop := ∃ l, Entry.errors l ∈ b

/-- The status of a batch: of the first mistake of the client; else of the last failure; else of success. -/
def BatchStatus (statuses : List Nat) (s : Nat) : Prop :=
  (∃ a b, statuses = a ++ s :: b ∧ (400 ≤ s ∧ s < 500) ∧ ∀ x ∈ a, ¬ (400 ≤ x ∧ x < 500)) ∨
  ((∀ x ∈ statuses, ¬ (400 ≤ x ∧ x < 500)) ∧ ∃ a b, statuses = a ++ s :: b ∧ ¬ (200 ≤ s ∧ s < 300) ∧ ∀ x ∈ b, 200 ≤ x ∧ x < 300) ∨
  ((∀ x ∈ statuses, 200 ≤ x ∧ x < 300) ∧ s = 200)

/-! ## Errors -/

def errorsOf {V : Type} (ps : List (Push V)) : List (Err V) :=
  ps.filterMap (fun p => match p with | .error e => some e | .query _ _ _ => none)

def queriesOf {V : Type} (ps : List (Push V)) : List (Nat × Location × List Seg) :=
  ps.filterMap (fun p => match p with | .error _ => none | .query i l path => some (i, l, path))

/-- The first of each error of the query. -/
structure Firsts (l q : List (Nat × Location × List Seg)) : Prop where
  kept : q.Sublist l
  once : (q.map (·.1)).Nodup
  all : ∀ x ∈ l, ∃ y ∈ q, y.1 = x.1
  first : ∀ y ∈ q, ∃ a b, l = a ++ y :: b ∧ ∀ x ∈ a, x.1 ≠ y.1

/-- The codes of the errors of a part. -/
def codesOf {V : Type} (query : Nat → Code) (ps : List (Push V)) (q : List (Nat × Location × List Seg)) : List Code :=
  (errorsOf ps).map (·.code) ++ q.map (fun x => query x.1)

/-- The number of field errors of a status. -/
def fieldErrors : GraphqlStatus → Nat
  | .fieldError k _ => k
  | _ => 0

/-- The status of a stream. -/
def StreamStatus (l : List GraphqlStatus) (s : GraphqlStatus) : Prop :=
  (.refusedRequest ∈ l ∧ s = .refusedRequest) ∨
  (.refusedRequest ∉ l ∧ ∃ a n b, l = a ++ .requestError n :: b ∧ (∀ m, .requestError m ∉ a) ∧ s = .requestError n) ∨
  (.refusedRequest ∉ l ∧ (∀ m, .requestError m ∉ l) ∧
    ∃ a n d b, l = a ++ .fieldError n d :: b ∧ (∀ x ∈ a, x = .success) ∧
      s = .fieldError ((l.map fieldErrors).sum) d) ∨
  ((∀ x ∈ l, x = .success) ∧ s = .success)

end Verif.HttpStatus
