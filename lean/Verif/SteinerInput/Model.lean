import Verif.Updater.Model
import Verif.OpChecks.Model
/-!
# The Steiner input of a query, and the part of the query a solution stands for

Model of `crates/engine/query-solver/src/solve/input/builder/mod.rs`, `input/builder/requirements.rs` and of
`included_space_edges` in `solve/solution.rs`.

Simplifications:
* The solution space is a `StableGraph`; a node is its index, an edge its index in `edges`, and the slots of
  removed edges are of kind `gone`.  Edges of a node are seen newest first.
* Of the nodes it only matters which ones are leaf fields, and which of these are indispensable.
* `required_space_nodes` with its interner is a list of lists without duplicates: an `IdRange` is a list, ranges
  are ordered like their positions.
* `u32::MAX` for "not there" is `none`; `edge_id_to_space_edge_id` and capacities are left out.
* The unstable sort of the dependent edges by source and requirements keeps the order of equal ones.
* Loops have fuel.
-/
namespace Verif.SteinerInput

open Verif.Flac Verif.Updater Verif.OpChecks

/-- `SpaceEdge`, solution_space/edge.rs:4-29. -/
inductive Kind where
  | createChildResolver
  | canProvide
  | provides
  | «requires»
  /-- `Field`, `TypenameField`, `HasChildResolver`. -/
  | other
  | gone
  deriving DecidableEq, Repr

structure SEdge where
  src : Nat
  dst : Nat
  kind : Kind
  deriving DecidableEq, Repr

/-- `QuerySolutionSpace`: its graph; the leaf fields with whether they are indispensable. -/
structure Space where
  edges : List SEdge
  root : Nat
  leaf : List (Nat × Bool)
  deriving Repr

def Space.src (sp : Space) (e : Nat) : Nat := ((sp.edges[e]?).map (·.src)).getD 0
def Space.dst (sp : Space) (e : Nat) : Nat := ((sp.edges[e]?).map (·.dst)).getD 0
def Space.kind (sp : Space) (e : Nat) : Kind := ((sp.edges[e]?).map (·.kind)).getD .gone

/-- The edges that are kept, mod.rs:253-257 and solution.rs:80-83. -/
def Kind.isParent : Kind → Bool
  | .createChildResolver | .canProvide | .provides => true
  | _ => false

/-- Their weight; `RESOLVER_BASE_WEIGHT` is 10. -/
def Kind.weight : Kind → Nat
  | .createChildResolver => 10
  | _ => 0

/-- Incoming edges that are kept. -/
def Space.incoming (sp : Space) (n : Nat) : List Nat :=
  (List.range sp.edges.length).reverse.filter fun e => decide (sp.dst e = n) && (sp.kind e).isParent

/-- `edges_directed(n, Outgoing)`. -/
def Space.outgoing (sp : Space) (n : Nat) : List Nat :=
  (List.range sp.edges.length).reverse.filter fun e => decide (sp.src e = n) && decide (sp.kind e ≠ .gone)

/-- `edge_count`. -/
def Space.edgeCount (sp : Space) : Nat := (sp.edges.filter fun e => e.kind != .gone).length

/-- `DispensableRequirementsBuilder::collect`, requirements.rs:83-107. -/
def Space.requires (sp : Space) (n : Nat) : List Nat :=
  ((sp.outgoing n).filter fun e => decide (sp.kind e = .requires) && sp.leaf.contains (sp.dst e, false)).map sp.dst

/-- Whether a providable field gives what is required without requirements of its own, requirements.rs:166-175. -/
def providesFreely (sp : Space) (p r : Nat) : Bool :=
  (sp.outgoing p).all (fun e => decide (sp.kind e ≠ .requires)) && (sp.outgoing p).any fun e => decide (sp.kind e = .provides ∧ sp.dst e = r)

/-- `is_free`, requirements.rs:161-177. -/
def isFree (sp : Space) (source : Nat) (ids : List Nat) : Bool :=
  ids.all fun r => (sp.outgoing source).any fun e => decide (sp.kind e = .canProvide) && providesFreely sp (sp.dst e) r

/-- `NodeToProcess`, mod.rs:41-48: the child with the edge to it and its weight. -/
structure Item where
  node : Nat
  child : Option (Nat × Nat × Nat)
  deriving DecidableEq, Repr

/-- `SteinerInputBuilder` and `DispensableRequirementsBuilder`; the tops of stacks are first. -/
structure B where
  /-- The edges of the Steiner graph. -/
  edges : List Edge
  /-- `node_id_to_space_node_id`. -/
  rep : List Nat
  /-- `space_node_id_to_node_id`. -/
  map : Nat → Option Nat
  /-- `space_edge_id_to_edge_id`. -/
  emap : Nat → Option Nat
  /-- `indispensable_terminal_space_node_ids`. -/
  indisp : List Nat
  /-- `dispensable_terminal_space_node_ids`. -/
  disp : List Nat
  /-- `space_node_relative_depth_weight_to_steiner_node`. -/
  depth : Nat → Nat
  /-- `tmp_space_node_path_stack`. -/
  path : List (Nat × Nat)
  /-- `interner`. -/
  interned : List (List Nat)
  /-- `free_requirements_by_node`. -/
  byNode : List (Nat × List Nat)
  /-- `free_requirements_by_edge`: with ids of edges of the space. -/
  byEdge : List (Nat × List Nat)
  /-- `requirements_by_edge`: source, edge, required nodes. -/
  byReq : List (Nat × Nat × List Nat)

def upd (f : Nat → Option Nat) (k v : Nat) : Nat → Option Nat := fun i => if i = k then some v else f i

/-- `add_node`, mod.rs:414-419. -/
def B.addNode (b : B) (n : Nat) : B := { b with rep := b.rep ++ [n], map := upd b.map n b.rep.length }

/-- `add_edge`, mod.rs:421-432. -/
def B.addEdge (b : B) (src dst w e : Nat) : B :=
  { b with edges := b.edges ++ [⟨src, dst, w⟩], emap := upd b.emap e b.edges.length }

/-- The path is mapped to a node, mod.rs:397-402. -/
def B.popPath (node : Nat) : List (Nat × Nat) → Nat → B → B
  | [], _, b => { b with path := [] }
  | (n, w) :: l, d, b =>
    let d := (d + w) % 256
    B.popPath node l d { b with map := upd b.map n node, depth := fun i => if i = n then d else b.depth i }

/-- `handle_children`, mod.rs:386-412. -/
def B.handle (b : B) (node : Nat) (it : Item) : B :=
  let b := B.popPath node b.path 0 b
  match it.child with
  | none => b
  | some (c, e, w) => b.addEdge node c (w + b.depth it.node) e

/-- `add`, mod.rs:364-384. -/
def B.add (b : B) (it : Item) : B := (b.addNode it.node).handle b.rep.length it

/-- `ingest` of requirements, requirements.rs:119-194. -/
def B.register (sp : Space) (b : B) (node n : Nat) (ids : List Nat) : B :=
  if ids = [] then b
  else
    let ids := sortBy (fun x y => decide (x ≤ y)) ids
    let b := { b with interned := if b.interned.contains ids then b.interned else b.interned ++ [ids] }
    let es := (sp.incoming n).filter fun e => decide (sp.kind e ≠ .provides)
    let b := { b with byReq := b.byReq ++ (es.filter fun e => !isFree sp (sp.src e) ids).map fun e => (sp.src e, e, ids) }
    let b :=
      if es.all fun e => isFree sp (sp.src e) ids then { b with byNode := b.byNode ++ [(node, ids)] }
      else { b with byEdge := b.byEdge ++ (es.filter fun e => isFree sp (sp.src e) ids).map fun e => (e, ids) }
    { b with disp := ids.reverse ++ b.disp }

/-- The loop of `ingest_nodes_from_terminal`, mod.rs:224-361; `term` is `terminal_node_id`. -/
def ingest (sp : Space) : Nat → B → List Item → Option Nat → Out (B × Option Nat)
  | 0, _, _, _ => .timeout
  | _ + 1, b, [], term => .ok (b, term)
  | n + 1, b, it :: st, term =>
    match b.map it.node with
    | some m => ingest sp n (b.handle m it) st (some (term.getD m))
    | none =>
      match sp.incoming it.node with
      | [] => .panic
      | [e] =>
        let w := (sp.kind e).weight
        if term = none then
          ingest sp n { b with indisp := (sp.requires it.node).reverse ++ b.indisp, path := (it.node, if w > 0 then 1 else 0) :: b.path }
            (⟨sp.src e, it.child⟩ :: st) term
        else if sp.requires it.node ≠ [] ∨ w > 0 then
          let m := b.rep.length
          ingest sp n ((b.add it).register sp m it.node (sp.requires it.node)) (⟨sp.src e, some (m, e, w)⟩ :: st) term
        else
          ingest sp n { b with path := (it.node, if w > 0 then 1 else 0) :: b.path } (⟨sp.src e, it.child⟩ :: st) term
      | e :: e' :: es =>
        let m := b.rep.length
        let b := b.add it
        let b :=
          if term = none then { b with indisp := (sp.requires it.node).reverse ++ b.indisp }
          else b.register sp m it.node (sp.requires it.node)
        ingest sp n b (((e :: e' :: es).map fun e => ⟨sp.src e, some (m, e, (sp.kind e).weight)⟩).reverse ++ st) (some (term.getD m))

/-- The loop over indispensable terminals, mod.rs:159-181. -/
def indispensable (sp : Space) (fuel : Nat) : Nat → Nat → B → List Nat → List Nat → Out (B × List Nat × List Nat)
  | 0, _, _, _, _ => .timeout
  | n + 1, i, b, T, S =>
    match b.indisp with
    | [] => .ok (b, T, S)
    | x :: xs =>
      if i > sp.edgeCount then .cycle
      else
        (ingest sp fuel { b with indisp := xs } [⟨x, none⟩] none).bind fun (b, term) =>
          match term with
          | none => .panic
          | some m => indispensable sp fuel n (i + 1) b (if m ≠ 0 ∧ m ∉ T then T ++ [m] else T) (x :: S)

/-- The loop over dispensable terminals, mod.rs:183-185. -/
def dispensable (sp : Space) (fuel : Nat) : Nat → B → Out B
  | 0, _ => .timeout
  | n + 1, b =>
    match b.disp with
    | [] => .ok b
    | x :: xs => (ingest sp fuel { b with disp := xs } [⟨x, none⟩] (some 0)).bind fun (b, _) => dispensable sp fuel n b

/-- `extend_extra_required_nodes`, requirements.rs:327-348. -/
def reqNodes (b : B) (T : List Nat) (ids : List Nat) : List Nat :=
  (sortBy (fun x y => decide (x ≤ y)) ((ids.map fun i => (b.map i).getD 4294967295).filter fun m => m ≠ 0 && !T.contains m)).eraseDups

/-- The chain of single parents, requirements.rs:283-293. -/
def parents (g : Graph) : Nat → Nat → List Nat
  | 0, _ => []
  | f + 1, n =>
    match g.incoming n with
    | [e] => e :: parents g f (g.src e)
    | _ => []

/-- The edges of a group with their weights, requirements.rs:257-276; `none` is a panic. -/
def depsOf (b : B) : List Nat → Option (List (Nat × Nat))
  | [] => some []
  | e :: es => (b.emap e).bind fun k => (depsOf b es).map ((k, Graph.weight ⟨b.edges⟩ k) :: ·)

def keyLe (a b : Nat × Nat) : Bool := decide (a.1 < b.1 ∨ a.1 = b.1 ∧ a.2 ≤ b.2)

/-- The source and the requirements of a dependent edge. -/
def B.key (b : B) (r : Nat × Nat × List Nat) : Nat × Nat := (r.1, b.interned.idxOf r.2.2)

/-- A group of dependent edges, requirements.rs:246-301. -/
def group (b : B) (T : List Nat) (k : Nat × Nat) : Option Req :=
  let ids := b.interned[k.2]?.getD []
  (depsOf b ((b.byReq.filter fun r => b.key r = k).map (·.2.1))).map fun deps =>
    ⟨parents ⟨b.edges⟩ (b.edges.length + 1) ((b.map k.1).getD 0), reqNodes b T ids, ids, deps⟩

def groups (b : B) (T : List Nat) : List (Nat × Nat) → Option (List Req)
  | [] => some []
  | k :: ks => (group b T k).bind fun r => (groups b T ks).map (r :: ·)

/-- `DispensableRequirementsBuilder::build`, requirements.rs:205-304: ids of edges of the space are taken for
ids of edges of the graph. -/
def finish (b : B) (T S : List Nat) : Option Input :=
  (groups b T (sortBy keyLe (b.byReq.map b.key).eraseDups)).map fun rs =>
    ⟨⟨b.edges⟩, b.byNode.map fun x => ⟨x.1, reqNodes b T x.2, x.2⟩, b.byEdge.map fun x => ⟨x.1, reqNodes b T x.2, x.2⟩, rs, S⟩

/-- What `build_input_and_terminals` starts with, mod.rs:104-157. -/
def B.init (sp : Space) : B :=
  ⟨[], [sp.root], upd (fun _ => none) sp.root 0, fun _ => none, ((sp.leaf.filter (·.2)).map (·.1)).reverse, [], fun _ => 0, [], [], [], [], []⟩

/-- `build_input_and_terminals`, mod.rs:100-212. -/
def build (sp : Space) (fuel : Nat) : Out (B × Input × List Nat) :=
  (indispensable sp fuel fuel 0 (.init sp) [] []).bind fun (b, T, S) =>
    (dispensable sp fuel fuel b).bind fun b =>
      match finish b T S with
      | none => .panic
      | some inp => .ok (b, inp, T)

/-- Whether an edge of the space is included, solution.rs:80-89. -/
def B.takes (b : B) (t : Tree) (e : Nat) : Bool :=
  match b.emap e with
  | none => true
  | some k => t.edges.contains k

/-- `included_space_edges`, solution.rs:72-97. -/
def included (sp : Space) (b : B) (t : Tree) : Nat → List Nat → List Nat → Out (List Nat)
  | 0, _, _ => .timeout
  | _ + 1, [], inc => .ok inc
  | n + 1, x :: st, inc =>
    let es := (sp.incoming x).filter (b.takes t)
    included sp b t n ((es.map sp.src).reverse ++ st) (inc ++ es)

/-- From the space to the edges of the solution. -/
def plan (sp : Space) (fuel : Nat) (c : Cfg) : Out (B × Tree × Input × List Nat) :=
  (build sp fuel).bind fun (b, inp, T) =>
    (solve c fuel inp (Tree.new 0 T)).bind fun (t, inp) =>
      (included sp b t fuel inp.space []).bind fun es => .ok (b, t, inp, es)

end Verif.SteinerInput
