import Verif.QueryGraph.Model
/-!
# What the query graph of a plan has to be
-/
namespace Verif.QueryGraph

/-- Edges a plan goes through. -/
def Kind.IsStep (k : Kind) : Prop := k = .createChildResolver ∨ k = .canProvide ∨ k = .provides

def Node.IsField (v : Node) (typename : Bool) : Prop := ∃ id split, v = .field id split typename
def Node.IsResolver (v : Node) : Prop := ∃ entity definition, v = .resolver entity definition

/-- Resolvers and providable fields. -/
def Node.IsSource (v : Node) : Prop := v.IsResolver ∨ v = .providable

/-- How the nodes of a solution space are connected.  A providable field provides one field. -/
structure Space.Typed (sp : Space) : Prop where
  order : sp.order.Nodup
  seen : ∀ e, e < sp.edges.length → e ∈ sp.order
  root : sp.node sp.root = .root
  create : ∀ d ∈ sp.edges, d.kind = .createChildResolver → (sp.node d.dst).IsResolver ∧ (d.src = sp.root ∨ sp.node d.src = .providable)
  canProvide : ∀ d ∈ sp.edges, d.kind = .canProvide → sp.node d.dst = .providable ∧ (sp.node d.src).IsSource
  provides : ∀ d ∈ sp.edges, d.kind = .provides → sp.node d.src = .providable ∧ (sp.node d.dst).IsField false
  one : ∀ d ∈ sp.edges, ∀ d' ∈ sp.edges, d.kind = .provides → d'.kind = .provides → d.src = d'.src → d.dst = d'.dst
  some : ∀ n, sp.node n = .providable → ∃ f, ⟨n, f, .provides⟩ ∈ sp.edges
  typename : ∀ d ∈ sp.edges, d.kind = .typename → (sp.node d.dst).IsField true ∧ (d.src = sp.root ∨ (sp.node d.src).IsField false)
  typenameOnce : ∀ (e e' : Nat) (d d' : SEdge), sp.edges[e]? = .some d → sp.edges[e']? = .some d' → d.kind = .typename → d'.kind = .typename →
    d.dst = d'.dst → e = e'
  requires : ∀ d ∈ sp.edges, d.kind = .requires → ∃ b, (sp.node d.dst).IsField b

/-- A node can be reached from the root through chosen edges. -/
inductive Reach (sp : Space) (es : List Nat) : Nat → Prop
  | root : Reach sp es sp.root
  | step {e : Nat} {d : SEdge} : e ∈ es → sp.edges[e]? = some d → Reach sp es d.src → Reach sp es d.dst

/-- Chosen edges form a tree. -/
structure Chosen (sp : Space) (es : List Nat) : Prop where
  step : ∀ e ∈ es, ∃ d, sp.edges[e]? = some d ∧ d.kind.IsStep
  once : ∀ (e e' : Nat) (d d' : SEdge), e ∈ es → e' ∈ es → sp.edges[e]? = some d → sp.edges[e']? = some d' → d.dst = d'.dst → e = e'
  root : ∀ (e : Nat) (d : SEdge), e ∈ es → sp.edges[e]? = some d → d.dst ≠ sp.root

/-- Node `i` of the query graph was made for node `n` of the space. -/
def QGraph.MadeFor (g : QGraph) (i n : Nat) : Prop := ∃ q, g.nodes[i]? = some (q, n)

/-- `i` is below `p`. -/
def QGraph.Below (g : QGraph) (p i : Nat) : Prop := ⟨p, i, .partition⟩ ∈ g.edges ∨ ⟨p, i, .field⟩ ∈ g.edges

/-- Node `i` stands for the field `f`. -/
def QGraph.StandsFor (g : QGraph) (sp : Space) (i f : Nat) : Prop :=
  ∃ id split b n, sp.node f = .field id split b ∧ g.nodes[i]? = some (.field id split b, n) ∧ ⟨n, f, .provides⟩ ∈ sp.edges

/-- What the node made for a node of the space shows. -/
inductive Shows (sp : Space) : Nat → QNode → Prop
  | root : Shows sp sp.root .root
  | partition {n entity definition : Nat} : sp.node n = .resolver entity definition → Shows sp n (.partition entity definition)
  | field {n f id split : Nat} {b : Bool} : sp.node n = .providable → ⟨n, f, .provides⟩ ∈ sp.edges → sp.node f = .field id split b →
    Shows sp n (.field id split b)
  | typename {n id split : Nat} : sp.node n = .field id split true → Shows sp n (.field id split true)

/-- The nodes of the space that must have a node. -/
inductive Wanted (sp : Space) (es : List Nat) : Nat → Prop
  | root : Wanted sp es sp.root
  | source {n : Nat} : (sp.node n).IsSource → Reach sp es n → Wanted sp es n
  | rootTypename {n : Nat} : ⟨sp.root, n, .typename⟩ ∈ sp.edges → Wanted sp es n
  | typename {m f n : Nat} : Reach sp es m → ⟨m, f, .provides⟩ ∈ sp.edges → ⟨f, n, .typename⟩ ∈ sp.edges → Wanted sp es n

/-- Where the node `i` made for `n` must be. -/
inductive Placed (sp : Space) (es : List Nat) (g : QGraph) (p i n : Nat) : Prop
  | chosen {e : Nat} {d : SEdge} (k : QKind) : e ∈ es → sp.edges[e]? = some d → d.dst = n → g.MadeFor p d.src → ⟨p, i, k⟩ ∈ g.edges →
    (k = .partition ∧ (sp.node n).IsResolver ∨ k = .field ∧ sp.node n = .providable) → Placed sp es g p i n
  | rootTypename : ⟨sp.root, n, .typename⟩ ∈ sp.edges → p = 0 → ⟨p, i, .field⟩ ∈ g.edges → Placed sp es g p i n
  | typename {f : Nat} : ⟨f, n, .typename⟩ ∈ sp.edges → g.StandsFor sp p f → ⟨p, i, .field⟩ ∈ g.edges → Placed sp es g p i n

/-- Node `n` of the space asks for the field `r`, either for its subgraph or, as a field is provided, for the gateway. -/
inductive AsksFor (sp : Space) (n r : Nat) : QKind → Prop
  | subgraph : ⟨n, r, .requires⟩ ∈ sp.edges → AsksFor sp n r .requiredBySubgraph
  | supergraph {f : Nat} : ⟨n, f, .provides⟩ ∈ sp.edges → ⟨f, r, .requires⟩ ∈ sp.edges → AsksFor sp n r .requiredBySupergraph

/-- Node `i` is a `__typename`. -/
def QGraph.IsTypename (g : QGraph) (i : Nat) : Prop := ∃ id split n, g.nodes[i]? = some (.field id split true, n)

/-- Node `i` is a partition. -/
def QGraph.IsPartition (g : QGraph) (i : Nat) : Prop := ∃ entity definition n, g.nodes[i]? = some (.partition entity definition, n)

/-- A field at position `x` of the query is next to node `i`. -/
def QGraph.HasField (g : QGraph) (pos : Positions) (i x : Nat) : Prop :=
  ∃ e ∈ g.edges, e.src = i ∧ ∃ id split b n, g.nodes[e.dst]? = some (.field id split b, n) ∧ pos id = some x

/-- `g'` is `g` with the `__typename` fields of the root below partition `p`. -/
structure Assigned (pos : Positions) (entity definition : Nat) (g g' : QGraph) (root p : Nat) : Prop where
  /-- There was a partition: the one with the first field is taken.  Otherwise there is a new one. -/
  first : (g'.nodes = g.nodes ∧ g.IsPartition p ∧ ⟨root, p, .partition⟩ ∈ g.edges ∧
      ∀ p' x, ⟨root, p', .partition⟩ ∈ g.edges → g.HasField pos p' x → x < 65535 → ∃ y, g.HasField pos p y ∧ y ≤ x) ∨
    (g'.nodes = g.nodes ++ [(.partition entity definition, 0)] ∧ p = g.nodes.length ∧ ∀ p', ⟨root, p', .partition⟩ ∉ g.edges)
  edges : ∀ e, e ∈ g'.edges ↔ (e ∈ g.edges ∧ ¬ (e.src = root ∧ g.IsTypename e.dst)) ∨ e = ⟨root, p, .partition⟩ ∨
    ∃ t, ⟨root, t, .field⟩ ∈ g.edges ∧ g.IsTypename t ∧ e = ⟨p, t, .field⟩

end Verif.QueryGraph
