import Verif.Hidden.Model

/-!
# Contracts: a schema for a group of clients

Model of crates/wasi-component-loader/src/extension/runtime/contracts.rs (what an extension decides about
directives becomes marks on elements) and crates/engine/schema/src/builder/mutable.rs (marks become a schema).

Simplifications: an `i8` is an integer between -128 and 127; its priority fits into a `u8`. The order in which
directives come out of the hash map, and the order `sort_unstable_by` leaves those of the same priority in, is a
parameter. Elements have the ids of `Verif.Hidden`. The three names of root types and the two meta fields are in
the schema.
-/

namespace Verif.Contracts

open Verif.Hidden

/-! ## Priorities -/

/-- `priority`, contracts.rs:122-130. -/
def priority (a : Int) : Nat := a.natAbs + if 0 ≤ a then 1 else 0

/-- `replace_if_higher_priority`, contracts.rs:381-385. -/
def replaceIfHigher (current new : Int) : Int := if priority current < priority new then new else current

/-- The `IdToOne`s of `InaccessibilityIngester`, contracts.rs:197-207. -/
abbrev Values := Site → Int

def Values.set (v : Values) (s : Site) (a : Int) : Values := fun t => if t = s then a else v t

/-- contracts.rs:51-56: missing answers are -1, further ones are dropped. -/
def fit (n : Nat) (accessible : List Int) : List Int :=
  if accessible.length < n then accessible ++ List.replicate (n - accessible.length) (-1) else accessible.take n

/-- The answers with the sites of the directives, contracts.rs:58-67 and 93-95. -/
def results (sites : List (List Site)) (accessible : List Int) : List (Int × List Site) :=
  (fit sites.length accessible).zip sites

/-- `InaccessibilityIngester::new`, contracts.rs:213. -/
def defaultValue (accessibleByDefault : Bool) : Int := (if accessibleByDefault then 1 else 0) - 1

/-- The loop over the sorted answers, contracts.rs:93-97, and `ingest`, :232-262. -/
def ingestAll (dflt : Int) (sorted : List (Int × List Site)) : Values :=
  sorted.foldl (fun v r => r.2.foldl (fun v s => v.set s r.1) v) fun _ => dflt

/-! ## Propagation -/

/-- The elements of an element: fields, values, arguments. -/
def children (S : Schema) : Site → List Site
  | .object n => S.kids (.object n)
  | .interface n => S.kids (.interface n)
  | .enum n => S.kids (.enum n)
  | .input n => S.kids (.input n)
  | .field n => (S.fields[n]?.map fun f => f.args.map Site.value).getD []
  | _ => []

/-- `parent_enum_id`, `parent_id` and `parent_entity_id`. -/
def parentOf (S : Schema) : Site → Option Site
  | .field n => S.fields[n]?.map (·.parent)
  | .value n => S.values[n]?.map (·.parent)
  | .enumValue n => S.enumValues[n]?.map Site.enum
  | _ => none

/-- A loop that propagates downwards, contracts.rs:270-298. -/
def down (S : Schema) (mk : Nat → Site) (n : Nat) (v : Values) : Values :=
  (List.range n).foldl (fun v i => (children S (mk i)).foldl (fun v k => v.set k (replaceIfHigher (v k) (v (mk i)))) v) v

/-- contracts.rs:268-298. -/
def downAll (S : Schema) (v : Values) : Values :=
  let v := down S .input S.inputs.length v
  let v := down S .object S.objects.length v
  let v := down S .interface S.interfaces.length v
  let v := down S .field S.fields.length v
  down S .enum S.enums.length v

/-- Propagate a value to an element above. -/
def raise (v : Values) (a : Int) (p : Option Site) : Values :=
  match p with
  | none => v
  | some p => v.set p (replaceIfHigher (v p) a)

/-- One round of the loop over enum values, contracts.rs:302-308. -/
def upEnumValue (S : Schema) (v : Values) (ix : Nat) : Values :=
  let a := v (.enumValue ix)
  if 0 ≤ a then raise v a (parentOf S (.enumValue ix)) else v

/-- One round of the loop over input values, contracts.rs:310-331. -/
def upValue (S : Schema) (v : Values) (ix : Nat) : Values :=
  let a := v (.value ix)
  if 0 ≤ a then
    match parentOf S (.value ix) with
    | some (.field f) => raise (raise v a (some (.field f))) a (parentOf S (.field f))
    | p => raise v a p
  else v

/-- One round of the loop over fields, contracts.rs:333-345. -/
def upField (S : Schema) (v : Values) (ix : Nat) : Values :=
  let a := v (.field ix)
  if 0 ≤ a then raise v a (parentOf S (.field ix)) else v

/-- contracts.rs:300-345. -/
def upAll (S : Schema) (v : Values) : Values :=
  let v := (List.range S.enumValues.length).foldl (upEnumValue S) v
  let v := (List.range S.values.length).foldl (upValue S) v
  (List.range S.fields.length).foldl (upField S) v

/-- Is the element one of the schema? -/
def inRange (S : Schema) : Site → Bool
  | .object n => decide (n < S.objects.length)
  | .interface n => decide (n < S.interfaces.length)
  | .union n => decide (n < S.unions.length)
  | .enum n => decide (n < S.enums.length)
  | .scalar n => decide (n < S.scalars.length)
  | .input n => decide (n < S.inputs.length)
  | .field n => decide (n < S.fields.length)
  | .value n => decide (n < S.values.length)
  | .enumValue n => decide (n < S.enumValues.length)

/-- `into_mutable_schema`, contracts.rs:264-377, with `update_inaccessible`, mutable.rs:38-49. -/
def applyValues (S : Schema) (m : Marks) (v : Values) : Marks :=
  let v := upAll S (downAll S v)
  fun s => m s || (inRange S s && decide (v s < 0))

/-! ## Reachability -/

/-- Visit elements from a stack: one that has been visited is skipped if `once`. -/
def visit (succ : Site → List Site) (ok once : Site → Bool) : Nat → Marks → List Site → Marks
  | 0, r, _ => r
  | _ + 1, r, [] => r
  | n + 1, r, s :: stack =>
    if !ok s || (once s && r s) then visit succ ok once n r stack
    else visit succ ok once n (r.set s true) ((succ s).reverse ++ stack)

/-- The types of a schema. -/
def allTypes (S : Schema) : List Site :=
  (List.range S.objects.length).map Site.object ++ (List.range S.interfaces.length).map Site.interface ++
    (List.range S.unions.length).map Site.union ++ (List.range S.enums.length).map Site.enum ++
    (List.range S.scalars.length).map Site.scalar ++ (List.range S.inputs.length).map Site.input

/-- `type_id` is a type, not a field, value or argument. -/
def isType : Site → Bool
  | .field _ => false
  | .value _ => false
  | .enumValue _ => false
  | _ => true

/-- The root types in the order they are pushed, mutable.rs:96-104. -/
def roots (S : Schema) : List Site :=
  [Site.object S.query] ++ (S.mutation.map Site.object).toList ++ (S.subscription.map Site.object).toList

/-- What a shown field leads to, mutable.rs:118-131. -/
def fieldTypes (S : Schema) (m : Marks) (ix : Nat) : List Site :=
  if m (.field ix) then []
  else match S.fields[ix]? with
    | none => []
    | some f => f.ty :: f.args.flatMap fun a =>
        if m (.value a) then [] else (S.values[a]?.map (·.ty)).toList

/-- What a type leads to, mutable.rs:107-215. -/
def reachStep (S : Schema) (m : Marks) : Site → List Site
  | .object n => match S.objects[n]? with
    | none => []
    | some o => o.fields.flatMap (fieldTypes S m) ++ o.interfaces.map Site.interface
  | .interface n => match S.interfaces[n]? with
    | none => []
    | some o => o.fields.flatMap (fieldTypes S m) ++ o.possible.map Site.object
  | .union n => match S.unions[n]? with
    | none => []
    | some l => l.map Site.object
  | .input n => match S.inputs[n]? with
    | none => []
    | some l => l.flatMap fun a => if m (.value a) then [] else (S.values[a]?.map (·.ty)).toList
  | _ => []

/-- `hide_unreachable_types`, mutable.rs:84-225. -/
def hideUnreachable (S : Schema) (m : Marks) : Marks :=
  let fuel := (roots S).length + ((allTypes S).map fun t => (reachStep S m t).length).sum
  let reached := visit (reachStep S m) (fun s => !m s) (fun _ => true) fuel (fun _ => false) (roots S).reverse
  fun s => m s || (isType s && inRange S s && !reached s)

/-- What an element leads to, mutable.rs:267-357. -/
def metaStep (S : Schema) : Site → List Site
  | .object n => match S.objects[n]? with
    | none => []
    | some o => o.fields.map Site.field ++ o.interfaces.map Site.interface
  | .interface n => match S.interfaces[n]? with
    | none => []
    | some o => o.fields.map Site.field ++ o.possible.map Site.object
  | .union n => match S.unions[n]? with
    | none => []
    | some l => l.map Site.object
  | .enum n => match S.enums[n]? with
    | none => []
    | some l => l.map Site.enumValue
  | .scalar _ => []
  | .input n => match S.inputs[n]? with
    | none => []
    | some l => l.map Site.value
  | .enumValue _ => []
  | .field n => match S.fields[n]? with
    | none => []
    | some f => f.args.map Site.value ++ [f.ty]
  | .value n => match S.values[n]? with
    | none => []
    | some v => [v.ty]

/-- How many elements are popped because of this one on the stack. -/
def weight (S : Schema) : Site → Nat
  | .field n => 2 + 2 * (S.fields[n]?.map fun f => f.args.length).getD 0
  | .value _ => 2
  | _ => 1

/-- The elements introspection needs, mutable.rs:255-357. -/
def introspection (S : Schema) : Marks :=
  let start := S.metaFields.map Site.field
  let fuel := (start.map (weight S)).sum + ((allTypes S).map fun t => ((metaStep S t).map (weight S)).sum).sum
  visit (metaStep S) (fun _ => true) isType fuel (fun _ => false) start.reverse

/-- The built-in scalars, mutable.rs:229-238. -/
def isBuiltin (S : Schema) : Site → Bool
  | .scalar n => (S.scalars[n]?).getD false
  | _ => false

/-- `mark_builtins_and_introspection_as_accessible`, mutable.rs:227-358. -/
def markBuiltins (S : Schema) (m : Marks) : Marks :=
  fun s => m s && !isBuiltin S s && !decide (s ∈ roots S) && !introspection S s

/-- `MutableSchema::finalize`, mutable.rs:74-81. -/
def finalizeContract (S : Schema) (hideUnreachableTypes : Bool) (m : Marks) : Marks :=
  let m := markBuiltins S m
  let m := if hideUnreachableTypes then hideUnreachable S m else m
  finalize S m

/-- `Builder`: the schema without contract, builder/mod.rs:168 after `finalize_inaccessible`. -/
def baseSchema (S : Schema) (m : Marks) : Marks := markBuiltins S (finalize S m)

/-- `construct`, contracts.rs:20-112, after the extension answered: `sorted` is the order the answers are applied in. -/
def construct (S : Schema) (m : Marks) (accessibleByDefault hideUnreachableTypes : Bool) (sorted : List (Int × List Site)) :
    Marks :=
  finalizeContract S hideUnreachableTypes (applyValues S m (ingestAll (defaultValue accessibleByDefault) sorted))

/-! ## Endpoints -/

/-- GraphQL subgraphs: name and index of the URL. -/
structure Endpoints where
  urls : List String
  subgraphs : List (String × Nat)
  deriving DecidableEq, Repr

/-- `get_or_insert_url`, mutable.rs:68-75. -/
def getOrInsertUrl (urls : List String) (url : String) : List String × Nat :=
  match urls.findIdx? (· == url) with
  | some pos => (urls, pos)
  | none => (urls ++ [url], urls.length)

/-- `update_graphql_endpoint`, mutable.rs:51-66. URLs are compared as the strings they are printed as. -/
def updateEndpoint (e : Endpoints) (name url : String) : Endpoints :=
  match e.subgraphs.findIdx? (fun s => s.1 == name) with
  | none => e
  | some i =>
    match e.subgraphs[i]? with
    | none => e
    | some s =>
      if e.urls[s.2]? = some url then
        let (urls, id) := getOrInsertUrl e.urls url
        { urls := urls, subgraphs := e.subgraphs.set i (s.1, id) }
      else e

/-- The updates of a contract, contracts.rs:99-108. -/
def updateEndpoints (e : Endpoints) (updates : List (String × String)) : Endpoints :=
  updates.foldl (fun e u => updateEndpoint e u.1 u.2) e

/-- The URLs requests are sent to. -/
def Endpoints.targets (e : Endpoints) : List (String × Option String) := e.subgraphs.map fun s => (s.1, e.urls[s.2]?)

end Verif.Contracts
