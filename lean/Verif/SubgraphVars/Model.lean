import Verif.Literals.Model
import Verif.SchemaPath.Model
/-!
Variables of the operations sent to GraphQL subgraphs, /repo/crates/engine/src/resolver/graphql/request/prepare.rs and types.rs, and the
comparison of argument values they rely on, /repo/crates/engine/operation/src/model/input_value/query/eq.rs and
/repo/crates/engine/schema/src/input_value/walker/ord.rs.

`none` is a panic. Floats are rational numbers, `-0.0` and `0.0` are the same. Strings of the schema are compared as strings, they
are interned.
-/
namespace Verif.SubgraphVars
open Verif.Coercion (Json Str Ty Num)
open Verif.Literals (Q Names Env serQ jsonInt isUndefined)
open Verif.SchemaPath (digits)

/-- `SchemaInputValueRecord`, schema/src/input_value/mod.rs:97-117, as a tree. -/
inductive S where
  | null
  | str (s : Str)
  | enumValue (id : Nat)
  | int (i : Int)
  | float (q : Rat)
  | bool (b : Bool)
  | object (fields : List (Nat × S))
  | list (items : List S)
  | map (fields : List (Str × S))
  | i64 (i : Int)
  | u64 (n : Nat)
  | unboundEnum (s : Str)

/-! ## Equality of schema values -/

mutual
/-- `SchemaInputValue::eq`, ord.rs:11-57: whether the comparison is `Equal`. Two unbound enum values reach `unreachable!()`. -/
def eqS : S → S → Option Bool
  | .null, .null => some true
  | .str l, .str r => some (decide (l = r))
  | .enumValue l, .enumValue r => some (decide (l = r))
  | .int l, .int r => some (decide (l = r))
  | .i64 l, .i64 r => some (decide (l = r))
  | .u64 l, .u64 r => some (decide (l = r))
  | .float l, .float r => some (decide (l = r))
  | .bool l, .bool r => some (decide (l = r))
  | .object l, .object r => if l.length ≠ r.length then some false else eqSFields l r
  | .list l, .list r => eqSItems l r
  | .map l, .map r => eqSMap l r
  | .unboundEnum _, .unboundEnum _ => none
  | _, _ => some false
/-- Lines 29-39. -/
def eqSFields : List (Nat × S) → List (Nat × S) → Option Bool
  | (i, x) :: xs, (j, y) :: ys =>
    if i ≠ j then some false
    else (eqS x y).bind fun b => if b then eqSFields xs ys else some false
  | _, _ => some true
/-- `Iterator::cmp`: elements first, then the lengths. -/
def eqSItems : List S → List S → Option Bool
  | [], [] => some true
  | x :: xs, y :: ys => (eqS x y).bind fun b => if b then eqSItems xs ys else some false
  | _, _ => some false
def eqSMap : List (Str × S) → List (Str × S) → Option Bool
  | [], [] => some true
  | (k, x) :: xs, (l, y) :: ys =>
    if k ≠ l then some false
    else (eqS x y).bind fun b => if b then eqSMap xs ys else some false
  | _, _ => some false
end

/-! ## Equivalence of values -/

mutual
/-- `is_query_value_equivalent_schema_value`, eq.rs:8-90; `defaults` are the values of the schema by id. -/
def eqQS (defaults : Nat → S) : Q → S → Option Bool
  | .null, .null => some true
  | .str l, .str r => some (decide (l = r))
  | .enumValue l, .enumValue r => some (decide (l = r))
  | .int l, .int r => some (decide (l = r))
  | .i64 l, .i64 r => some (decide (l = r))
  | .float l, .float r => some (decide (l = r))
  | .bool l, .bool r => some (decide (l = r))
  | .object _ l, .object r => if l.length ≠ r.length then some false else eqQSFields defaults l r
  | .list l, .list r => if l.length ≠ r.length then some false else eqQSItems defaults l r
  | .map l, .map r => if l.length ≠ r.length then some false else eqQSMap defaults l r
  | .default id, r => eqS (defaults id) r
  | _, _ => some false
def eqQSFields (defaults : Nat → S) : List (Nat × Q) → List (Nat × S) → Option Bool
  | (i, x) :: xs, (j, y) :: ys =>
    if i ≠ j then some false
    else (eqQS defaults x y).bind fun b => if b then eqQSFields defaults xs ys else some false
  | _, _ => some true
def eqQSItems (defaults : Nat → S) : List Q → List S → Option Bool
  | x :: xs, y :: ys => (eqQS defaults x y).bind fun b => if b then eqQSItems defaults xs ys else some false
  | _, _ => some true
/-- Lines 70-84: every key of the left is looked up on the right. -/
def eqQSMap (defaults : Nat → S) : List (Str × Q) → List (Str × S) → Option Bool
  | [], _ => some true
  | (k, x) :: xs, r =>
    match r.find? fun p => decide (p.1 = k) with
    | some p => (eqQS defaults x p.2).bind fun b => if b then eqQSMap defaults xs r else some false
    | none => some false
end

mutual
/-- `are_query_value_equivalent`, eq.rs:92-176. -/
def eqQ (defaults : Nat → S) : Q → Q → Option Bool
  | .null, .null => some true
  | .str l, .str r => some (decide (l = r))
  | .enumValue l, .enumValue r => some (decide (l = r))
  | .int l, .int r => some (decide (l = r))
  | .i64 l, .i64 r => some (decide (l = r))
  | .float l, .float r => some (decide (l = r))
  | .bool l, .bool r => some (decide (l = r))
  | .object _ l, .object _ r => if l.length ≠ r.length then some false else eqQFields defaults l r
  | .list l, .list r => if l.length ≠ r.length then some false else eqQItems defaults l r
  | .map l, .map r => if l.length ≠ r.length then some false else eqQMap defaults l r
  | .default l, .default r => eqS (defaults l) (defaults r)
  | .variable l, .variable r => some (decide (l = r))
  | _, _ => some false
def eqQFields (defaults : Nat → S) : List (Nat × Q) → List (Nat × Q) → Option Bool
  | (i, x) :: xs, (j, y) :: ys =>
    if i ≠ j then some false
    else (eqQ defaults x y).bind fun b => if b then eqQFields defaults xs ys else some false
  | _, _ => some true
def eqQItems (defaults : Nat → S) : List Q → List Q → Option Bool
  | x :: xs, y :: ys => (eqQ defaults x y).bind fun b => if b then eqQItems defaults xs ys else some false
  | _, _ => some true
/-- Lines 155-166. -/
def eqQMap (defaults : Nat → S) : List (Str × Q) → List (Str × Q) → Option Bool
  | [], _ => some true
  | (k, x) :: xs, r =>
    match r.find? fun p => decide (p.1 = k) with
    | some p => (eqQ defaults x p.2).bind fun b => if b then eqQMap defaults xs r else some false
    | none => some false
end

/-! ## Serialization of schema values -/

mutual
/-- `SchemaInputValue::serialize`, schema/src/input_value/walker/ser.rs. -/
def serS (nm : Names) : S → Json
  | .null => .null
  | .str s => .str s
  | .enumValue id => .str (nm.enumValue id)
  | .int i => jsonInt i
  | .i64 i => jsonInt i
  | .u64 n => .num (.pos n)
  | .float q => .num (.float q)
  | .bool b => .bool b
  | .object fields => .obj (serSFields nm fields)
  | .list items => .arr (serSItems nm items)
  | .map fields => .obj (serSMap nm fields)
  | .unboundEnum s => .str s
def serSFields (nm : Names) : List (Nat × S) → List (Str × Json)
  | [] => []
  | (i, x) :: xs => (nm.field i, serS nm x) :: serSFields nm xs
def serSItems (nm : Names) : List S → List Json
  | [] => []
  | x :: xs => serS nm x :: serSItems nm xs
def serSMap (nm : Names) : List (Str × S) → List (Str × Json)
  | [] => []
  | (k, x) :: xs => (k, serS nm x) :: serSMap nm xs
end

/-! ## Variables of a subgraph operation -/

/-- `PlanValueRecord`, prepare/cached/query_plan/field/argument.rs:13-16. -/
inductive PlanValue where
  | query (q : Q)
  | schema (id : Nat)
  | injection (id : Nat)

/-- `QueryVariable`, prepare.rs:115-119. -/
structure QueryVar where
  name : Str
  ty : Ty
  value : PlanValue

/-- What is used of the operation and the schema: the variable definitions of the client and the schema values by id. -/
structure Ctx where
  clientVars : List (Str × Ty)
  values : Nat → S

/-- Comparison of values, prepare.rs:381-395. -/
def eqPlan (ctx : Ctx) : PlanValue → PlanValue → Option Bool
  | .query l, .query r => eqQ ctx.values l r
  | .query q, .schema s => eqQS ctx.values q (ctx.values s)
  | .schema s, .query q => eqQS ctx.values q (ctx.values s)
  | .schema l, .schema r => some (decide (l = r))
  | .injection l, .injection r => some (decide (l = r))
  | _, _ => some false

/-- `Iterator::position` with a comparison that may panic, prepare.rs:376-396. -/
def position (ctx : Ctx) (ty : Ty) (value : PlanValue) : Nat → List QueryVar → Option (Option Nat)
  | _, [] => some none
  | i, v :: rest =>
    if v.ty ≠ ty then position ctx ty value (i + 1) rest
    else (eqPlan ctx v.value value).bind fun b => if b then some (some i) else position ctx ty value (i + 1) rest

def varPrefix : Str := ['v', 'a', 'r']

/-- `format!("{}{VARIABLE_PREFIX}{}", prefix, n)`. -/
def candidate (underscores n : Nat) : Str := List.replicate underscores '_' ++ varPrefix ++ digits n

/-- prepare.rs:401-414; `none` if no name was found with the given fuel. -/
def freshName (client : List Str) (n : Nat) : Nat → Nat → Option Str
  | 0, _ => none
  | fuel + 1, k =>
    if client.all fun c => decide (c ≠ candidate k n) then some (candidate k n) else freshName client n fuel (k + 1)

/-- The name and type of a variable of the client, prepare.rs:364-374. -/
def reused (ctx : Ctx) : PlanValue → Option (Str × Ty)
  | .query (.variable i) => ctx.clientVars[i]?
  | _ => none

/-- The name of a new variable, prepare.rs:400-415. -/
def newName (ctx : Ctx) (n : Nat) (value : PlanValue) : Option Str :=
  match reused ctx value with
  | some p => some p.1
  | none => freshName (ctx.clientVars.map (·.1)) n (ctx.clientVars.length + 1) 0

/-- `get_or_insert_var`, prepare.rs:360-425: the index and the variables. -/
def getOrInsert (ctx : Ctx) (vars : List QueryVar) (ty : Ty) (value : PlanValue) : Option (Nat × List QueryVar) :=
  let ty := ((reused ctx value).map (·.2)).getD ty
  match position ctx ty value 0 vars with
  | none => none
  | some (some i) => some (i, vars)
  | some none => (newName ctx vars.length value).map fun name => (vars.length, vars ++ [⟨name, ty, value⟩])

/-- `get_or_insert_var` for the arguments of an operation, one after the other. -/
def insertAll (ctx : Ctx) : List QueryVar → List (Ty × PlanValue) → Option (List Nat × List QueryVar)
  | vars, [] => some ([], vars)
  | vars, (ty, value) :: rest =>
    (getOrInsert ctx vars ty value).bind fun r => (insertAll ctx r.2 rest).map fun r' => (r.1 :: r'.1, r'.2)

/-- `entities_variable_name`, prepare.rs:83. -/
def entitiesName (vars : List QueryVar) : Str := varPrefix ++ digits vars.length

/-- The value of a variable when the operation is executed; `none` if undefined. -/
def planJson (ctx : Ctx) (nm : Names) (env : Env) : PlanValue → Option Json
  | .query q => if isUndefined env q then none else some (serQ nm env q)
  | .schema id => some (serS nm (ctx.values id))
  | .injection _ => none

/-- `SubgraphVariables::serialize`, types.rs:37-52, for the variables of the operation; the `unwrap` of an injection panics. -/
def sendVars (ctx : Ctx) (nm : Names) (env : Env) : List QueryVar → Option (List (Str × Json))
  | [] => some []
  | v :: rest =>
    match v.value with
    | .injection _ => none
    | value =>
      (sendVars ctx nm env rest).map fun out =>
        match planJson ctx nm env value with
        | some j => (v.name, j) :: out
        | none => out

/-- The request of an operation, and of an entity operation with its representations. -/
def sendEntities (ctx : Ctx) (nm : Names) (env : Env) (vars : List QueryVar) (representations : Json) : Option (List (Str × Json)) :=
  (sendVars ctx nm env vars).map fun out => out ++ [(entitiesName vars, representations)]

end Verif.SubgraphVars
