import Verif.Bind.Values

/-!
# A schema and some operations

```graphql
type Query { me: User, search(deep: Boolean): Search, query: Query, secret: User @inaccessible }
interface Node { name: String }
type User implements Node { name: String, friend: User }
union Search = User
scalar Hidden @inaccessible
```
-/

namespace Verif.Bind.Demo

open Verif.Common Verif.Bind
open Verif.Coercion (Str InputField Ty VarDef SchemaOk)
open Verif.Literals (Lit Q)
open Verif.Wrapping (Wrapping Reachable)

def nMe : Str := ['m', 'e']
def nSearch : Str := ['s']
def nQuery : Str := ['q']
def nSchema : Str := ['_', '_', 's']
def nSecret : Str := ['x']
def nName : Str := ['n']
def nFriend : Str := ['f']
def nDeep : Str := ['d']
def tUser : Str := ['U']
def tNode : Str := ['N']
def tBoolean : Str := ['B']
def tHidden : Str := ['H']
def fragF : Str := ['F']
def fragG : Str := ['G']
def varV : Str := ['v']

def deepArg : InputField := ⟨0, nDeep, ⟨0, .new⟩, none, false⟩

def fields : Comp → Str → Option FieldDef
  | .object 0, n =>
    if n = nMe then some ⟨0, false, some (.object 1), []⟩
    else if n = nSearch then some ⟨1, false, some (.union 0), [deepArg]⟩
    else if n = nQuery then some ⟨2, false, some (.object 0), []⟩
    else if n = nSchema then some ⟨3, false, none, []⟩
    else if n = nSecret then some ⟨4, true, some (.object 1), []⟩
    else none
  | .object 1, n =>
    if n = nName then some ⟨5, false, none, []⟩
    else if n = nFriend then some ⟨6, false, some (.object 1), []⟩
    else none
  | .interface 0, n => if n = nName then some ⟨7, false, none, []⟩ else none
  | _, _ => none

def types (n : Str) : Option TypeDef :=
  if n = tUser then some ⟨.composite (.object 1), false⟩
  else if n = tNode then some ⟨.composite (.interface 0), false⟩
  else if n = tBoolean then some ⟨.input 0, false⟩
  else if n = tHidden then some ⟨.input 1, true⟩
  else none

def intersects : Comp → Comp → Bool
  | .object 1, .interface 0 => true
  | .interface 0, .object 1 => true
  | .union 0, .object 1 => true
  | .object 1, .union 0 => true
  | .union 0, .interface 0 => true
  | .interface 0, .union 0 => true
  | a, b => a == b

def input : Verif.Coercion.Schema
  | 0 => .scalar .boolean
  | 1 => .scalar .unknown
  | _ => .output

def schema : Schema where
  types := types
  fields := fields
  intersects := intersects
  query := 0
  mutation := none
  subscription := none
  input := input
  boolean := 0
  introspection := [3]
  disableIntrospection := true
  maxHeight := some 5

theorem schema_ok : Ok schema := by
  refine ⟨⟨?_, ?_, ?_, ?_, ?_⟩, ?_⟩
  · intro d o fields h
    match d, h with
    | 0, h => cases h
    | 1, h => cases h
    | n + 2, h => cases h
  · intro d o fields h
    match d, h with
    | 0, h => cases h
    | 1, h => cases h
    | n + 2, h => cases h
  · intro d o fields h
    match d, h with
    | 0, h => cases h
    | 1, h => cases h
    | n + 2, h => cases h
  · intro d vs h
    match d, h with
    | 0, h => cases h
    | 1, h => cases h
    | n + 2, h => cases h
  · intro d o fields h
    match d, h with
    | 0, h => cases h
    | 1, h => cases h
    | n + 2, h => cases h
  · intro c n d h
    have key : d.args = [] ∨ d.args = [deepArg] := by
      change fields c n = some d at h
      unfold fields at h
      split at h <;> (repeat' split at h) <;> first | (cases h; exact .inl rfl) | (cases h; exact .inr rfl) | cases h
    rcases key with e | e
    · rw [e]; simp
    · rw [e]
      refine ⟨fun f hf => ?_, by simp, by simp⟩
      simp at hf
      subst hf
      exact ⟨_, reachable_new⟩

def leaf (n : Str) (rest : Sels) : Sels := .field n none [] [] .nil rest
def node (n : Str) (sub rest : Sels) : Sels := .field n none [] [] sub rest

def fragments : Frags := [(fragF, ⟨tUser, leaf nName .nil⟩), (fragG, ⟨['?'], .nil⟩)]

/-- `query($v: Boolean!) { me { ...F f { ...F } } s(d: $v) { __typename ... on U { a: n @include(if: $v) } } }` -/
def doc : Doc where
  ty := .query
  decls := [⟨varV, tBoolean, .nonNull .named, none⟩]
  sels := node nMe (.spread fragF [] (node nFriend (.spread fragF [] .nil) .nil))
    (.field nSearch none [(nDeep, .var varV)] []
      (leaf typenameName (.inline (some tUser) [] (.field nName (some ['a']) [] [⟨includeName, [(ifName, .var varV)]⟩] .nil .nil) .nil)) .nil)
  frags := fragments

def query (sels : Sels) : Doc := ⟨.query, [], sels, fragments⟩

/-- `{ __typename { a } }` and `{ __typename(x: 1) }` -/
def typenameWith : Doc := query (.field typenameName none [(['x'], .int 1)] [] (leaf ['a'] .nil) .nil)

/-- `{ me { n @skip(foo: true, bar: 1) @skip(if: false) @unknown } }` -/
def directives : Doc := query (node nMe (.field nName none []
  [⟨skipName, [(['f'], .bool true), (['b'], .int 1)]⟩, ⟨skipName, [(ifName, .bool false)]⟩, ⟨['u'], []⟩] .nil .nil) .nil)

/-- `{ q { __schema } }` -/
def nested : Doc := query (node nQuery (leaf nSchema .nil) .nil)

/-- `nested`, bound. -/
def nestedOp : Operation where
  ty := .query
  root := 0
  vars := ⟨[], [], []⟩
  st := { St.init with
    keys := [nSchema, nQuery]
    data := [⟨3, [], 0, (0, 0), (0, 0)⟩, ⟨2, [], 1, (0, 0), (0, 1)⟩]
    shared := [.data 0, .data 1] }
  sels := (1, 2)

theorem nestedOp_reads : Reads nestedOp.st (slice nestedOp.st.shared nestedOp.sels)
    (.field 2 nQuery [] [] (.field 3 nSchema [] [] .nil .nil) .nil) :=
  Reads.data (st := nestedOp.st) (i := 1) (d := ⟨2, [], 1, (0, 0), (0, 1)⟩) (ids := []) rfl rfl (Nat.zero_le _) (by decide)
    (Reads.data (st := nestedOp.st) (i := 0) (d := ⟨3, [], 0, (0, 0), (0, 0)⟩) (ids := []) rfl rfl (Nat.zero_le _) (by decide) .nil .nil) .nil

/-- `{ __schema }` -/
def direct : Doc := query (leaf nSchema .nil)

/-- `query($v: Hidden) { me @skip(if: true) …` has a variable of a hidden type; it is used nowhere. -/
def hiddenDecl : Decl := ⟨varV, tHidden, .named, none⟩

/-- `n` times `__typename`. -/
def many : Nat → Sels
  | 0 => .nil
  | n + 1 => leaf typenameName (many n)

/-- `n` lists. -/
def lists : Nat → GType
  | 0 => .named
  | n + 1 => .list (lists n)

end Verif.Bind.Demo
