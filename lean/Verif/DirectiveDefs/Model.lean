/-!
# The definitions of composed directives

The definitions of directives which subgraphs ask for with `@composeDirective`, made one.

* `crates/graphql-composition/src/compose/directive_definitions.rs` (all of it)
* `crates/graphql-composition/src/emit_federated_graph/directive_definitions.rs` (all of it: what is composed is written as it is)

Simplifications: a string is its number; a type is its number with whether it is non-null (`wrapping.is_non_null()`); default
values and the directives of an argument are opaque; a set of locations is its bits. The order `sort_unstable_by_key` makes is
a parameter: only the names have to be in order. A diagnostic has the name of the directive and the two subgraphs it names.
-/
namespace Verif.DirectiveDefs

structure Ty where
  id : Nat
  nonNull : Bool
deriving DecidableEq, Repr

/-- `InputValueDefinition` (subgraphs/directives.rs). -/
structure Arg where
  name : Nat
  type : Ty
  default : Option Nat
  directives : List Nat
deriving DecidableEq, Repr

/-- `DirectiveDefinition` (subgraphs/directives.rs). -/
structure Definition where
  sg : Nat
  name : Nat
  locations : Nat
  arguments : List Arg
  repeatable : Bool
deriving DecidableEq, Repr

/-- `DirectiveDefinitionIr`. -/
structure Composed where
  name : Nat
  locations : Nat
  arguments : List Arg
  repeatable : Bool
deriving DecidableEq, Repr

inductive Diag where
  /-- A warning (lines 33-51). -/
  | locations (name first other : Nat)
  /-- Fatal (lines 62-85). -/
  | incompatible (name first other : Nat)
  /-- A warning (lines 110-129). -/
  | arguments (name first other : Nat)
  /-- Fatal (lines 130-138). -/
  | repeatable (name first other : Nat)
deriving DecidableEq, Repr

/-- `chunk_by`: the runs of definitions with the same name. -/
def chunks : List Definition → List (List Definition)
  | [] => []
  | d :: ds =>
    match chunks ds with
    | [] => [[d]]
    | [] :: rest => [d] :: [] :: rest
    | (e :: es) :: rest => if d.name = e.name then (d :: e :: es) :: rest else [d] :: (e :: es) :: rest

/-- The warnings about locations (lines 32-52). -/
def locationDiags (first : Definition) (others : List Definition) : List Diag :=
  (others.filter (fun d => decide (d.locations ≠ first.locations))).map (fun d => .locations first.name first.sg d.sg)

/-- All the locations (lines 54-56). -/
def allLocations (ds : List Definition) : Nat := ds.foldl (fun l d => l ||| d.locations) 0

/-- The condition for an argument (lines 63-68). -/
def clash (acc : List Arg) (ix : Nat) (a : Arg) : Bool :=
  match acc.find? (fun b => decide (b.name = a.name)) with
  | some b => decide (b.type ≠ a.type ∨ b.default ≠ a.default)
  | none => a.type.nonNull && decide (ix ≠ 0)

/-- The arguments of one definition (lines 62-109). -/
def addArgs (ix : Nat) (acc : List Arg) : List Arg → Option (List Arg)
  | [] => some acc
  | a :: as => if clash acc ix a then none else addArgs ix (acc ++ [a]) as

/-- The arguments of all of them (lines 60-139). -/
def addDefs (first : Definition) (ix : Nat) (acc : List Arg) : List Definition → List Diag × Option (List Arg)
  | [] => ([], some acc)
  | d :: ds =>
    match addArgs ix acc d.arguments with
    | none => ([.incompatible first.name first.sg d.sg], none)
    | some acc =>
      let warning := if d.arguments ≠ first.arguments then [Diag.arguments first.name first.sg d.sg] else []
      if d.repeatable ≠ first.repeatable then (warning ++ [.repeatable first.name first.sg d.sg], none)
      else
        let r := addDefs first (ix + 1) acc ds
        (warning ++ r.1, r.2)

/-- The definitions with one name (lines 21-151). -/
def composeChunk : List Definition → List Diag × Option Composed
  | [] => ([], none)
  | first :: others =>
    let r := addDefs first 0 [] (first :: others)
    (locationDiags first others ++ r.1,
      r.2.map (fun as => ⟨first.name, allLocations (first :: others), as, first.repeatable⟩))

/-- `compose_directive_definitions` (lines 6-153), with what is asked for and the order of sorting. -/
def compose (sort : List Definition → List Definition) (asked : Nat → Nat → Bool) (definitions : List Definition) :
    List Diag × List Composed :=
  let rs := (chunks (sort (definitions.filter (fun d => asked d.sg d.name)))).map composeChunk
  (rs.flatMap (·.1), rs.filterMap (·.2))

end Verif.DirectiveDefs
