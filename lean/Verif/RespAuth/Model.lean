import Verif.NullProp.Model

/-!
# Authorization of the response

Model of `crates/engine/src/execution/operation/response_modifier.rs`, on the response of
`Verif.NullProp.Model`.  Paths below are relative to `crates/engine/src/`.

Simplifications:
* An error is a number and its path; its location is left out.
* The decisions of the extension for a target are an input.  What the extension is told about the
  objects is not modelled.
* A path is stored innermost element first, as in `Verif.NullProp.Model`.
* A set index in a reference to a parent object is always 0 (`response/object_set.rs:43-58`), so parent
  objects are a list of references.  The limits on the number of sets and objects are left out.
-/
namespace Verif.RespAuth

open Verif.NullProp
open Verif.DefaultMerge (Key)

/-- `ErrorPathSegment`. -/
inductive Seg where
  | key (k : Nat)
  | ix (i : Nat)
  deriving DecidableEq, Repr

/-- `InsertIntoErrorPath for &ResponseValueId`, `response/path.rs:78-87`. -/
def seg : VId → Seg
  | .field _ k _ => .key k.key
  | .index _ i _ => .ix i
  | .packed _ i => .ix i

/-- An error of the response, with its path from the root. -/
structure Err where
  err : Nat
  path : List Seg
  deriving DecidableEq, Repr

/-- `ResponseModifierRuleTarget`, as far as it matters: the rule is for a field of the objects
(`Field`, `FieldParentEntity`) or for the objects (`FieldOutput`). -/
inductive Rule where
  | field
  | output
  deriving DecidableEq, Repr

/-- `ResponseModifierTarget`, with the key of the target field and whether its type is non-null. -/
structure Target where
  set : Nat
  ty : Nat
  key : Key
  required : Bool
  deriving DecidableEq, Repr

/-- `Result<AuthorizationDecisions, GraphqlError>`, `crates/runtime/src/extension/authorization.rs:64-71`. -/
inductive Decisions where
  | grantAll
  | denyAll (err : Nat)
  | denySome (elements : List (Nat × Nat)) (errors : List Nat)
  | failed (err : Nat)
  deriving DecidableEq, Repr

/-- The sets of object references: `state[set_id]`, the type of each set, and which object types are
possible for a type. -/
structure Sets where
  refs : Nat → Option (List Ref)
  ty : Nat → Nat
  possible : Nat → Nat → Bool

/-- The response and the errors pushed by the modifiers. -/
structure St where
  resp : Response
  errors : List Err

/-- `ResponseBuilder::propagate_null`, `response/write/mod.rs:51-57`. -/
def propagateNull (r : Response) (path : List VId) : Option Response :=
  match path.find? VId.nullable with
  | none => some { r with root := none }
  | some v => (makeInaccessible r.parts v).map fun ps => { r with parts := ps }

/-- `ResponseBuilder::make_inacessible`, `response/write/mod.rs:59-61`. -/
def hideValue (r : Response) (v : VId) : Option Response :=
  (makeInaccessible r.parts v).map fun ps => { r with parts := ps }

/-- The data removed for a denied object: `response_modifier.rs:88-89`, `:101-110`, `:123-124`,
`:136-143` for fields, `:195` and `:206` for objects. -/
def removeData (rule : Rule) (t : Target) (ref : Ref) (r : Response) : Option Response :=
  match rule with
  | .field => if t.required then propagateNull r ref.path else hideValue r (.field ref.id t.key true)
  | .output => propagateNull r ref.path

/-- The path of the error: `response_modifier.rs:92`, `:113`, `:127`, `:146` for fields, `:198` and
`:209` for objects. -/
def errorPath (rule : Rule) (t : Target) (ref : Ref) : List Seg :=
  match rule with
  | .field => (ref.path.map seg).reverse ++ [.key t.key.key]
  | .output => (ref.path.map seg).reverse

/-- One denied object. -/
def denyOne (rule : Rule) (t : Target) (ref : Ref) (err : Nat) (s : St) : Option St :=
  (removeData rule t ref s.resp).map fun r => ⟨r, s.errors ++ [⟨err, errorPath rule t ref⟩]⟩

/-- The loop of `DenySome`, `response_modifier.rs:83-117` and `:190-202`; `none` is an index panic. -/
def denyElements (rule : Rule) (t : Target) (refs : List Ref) (errors : List Nat) : List (Nat × Nat) → St → Option St
  | [], s => some s
  | (i, e) :: els, s =>
    match refs[i]?, errors[e]? with
    | some ref, some err =>
      match denyOne rule t ref err s with
      | none => none
      | some s => denyElements rule t refs errors els s
    | _, _ => none

/-- The loop of `DenyAll`, `response_modifier.rs:119-148` and `:203-213`. -/
def denyRefs (rule : Rule) (t : Target) (err : Nat) : List Ref → St → Option St
  | [], s => some s
  | ref :: refs, s =>
    match denyOne rule t ref err s with
    | none => none
    | some s => denyRefs rule t err refs s

/-- The parent objects of a target, `response_modifier.rs:25-33`. -/
def parents (sets : Sets) (t : Target) : List Ref :=
  match sets.refs t.set with
  | none => []
  | some refs => if sets.ty t.set = t.ty then refs else refs.filter fun r => sets.possible t.ty r.ty

/-- One round of the loop of `execute_response_modifier`, `response_modifier.rs:24-215`. -/
def runTarget (sets : Sets) (rule : Rule) (t : Target) (d : Decisions) (s : St) : Option St :=
  let refs := parents sets t
  if refs.isEmpty then some s
  else
    match d with
    | .grantAll => some s
    | .denySome els errors => denyElements rule t refs errors els s
    | .denyAll err => denyRefs rule t err refs s
    | .failed err => denyRefs rule t err refs s

/-- `execute_response_modifier` of modifiers one after the other: rule, target and decisions of every
round. -/
def runModifiers (sets : Sets) : List (Rule × Target × Decisions) → St → Option St
  | [], s => some s
  | (rule, t, d) :: ms, s =>
    match runTarget sets rule t d s with
    | none => none
    | some s => runModifiers sets ms s

end Verif.RespAuth
