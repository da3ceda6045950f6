import Verif.Flac.Model
/-!
# What a Steiner tree is
-/
namespace Verif.Flac

/-- `b` is reached from `a` through the edges `es`. -/
inductive Path (g : Graph) (es : List Nat) : Nat → Nat → Prop
  | refl (x : Nat) : Path g es x x
  | step {e c : Nat} : e ∈ es → Path g es (g.dst e) c → Path g es (g.src e) c

/-- The edges that can be taken: `u16::MAX` is not a weight. -/
def Graph.usable (g : Graph) : List Nat := (List.range g.edges.length).filter fun e => g.weight e < 65535

/-- The nodes and edges are a tree with the root. -/
structure IsTree (g : Graph) (root : Nat) (t : Tree) : Prop where
  start : root ∈ t.nodes
  edge : ∀ e ∈ t.edges, e < g.edges.length ∧ g.src e ∈ t.nodes ∧ g.dst e ∈ t.nodes ∧ g.dst e ≠ root
  one : ∀ e ∈ t.edges, ∀ e' ∈ t.edges, g.dst e = g.dst e' → e = e'
  reach : ∀ n ∈ t.nodes, Path g t.edges root n

/-- The sum of the weights. -/
def Graph.sum (g : Graph) (es : List Nat) : Nat := (es.map g.weight).sum

/-- `t'` has more edges than `t`, each to a new node; every new node has one, is reached from `t` and leads
to a terminal. -/
structure Ext (g : Graph) (t t' : Tree) : Prop where
  terminals : t'.terminals = t.terminals ∧ t'.isTerminal = t.isTerminal
  nodes : ∀ n ∈ t.nodes, n ∈ t'.nodes
  edges : ∃ new : List Nat, t'.edges = new ++ t.edges ∧ new.Nodup ∧
    t'.total % 65536 = (t.total + g.sum new) % 65536 ∧
    (∀ e ∈ new, e ∈ g.usable ∧ g.src e ∈ t'.nodes ∧ g.dst e ∈ t'.nodes ∧ g.dst e ∉ t.nodes) ∧
    (∀ e ∈ new, ∀ e' ∈ new, g.dst e = g.dst e' → e = e') ∧
    (∀ n ∈ t'.nodes, ∃ a ∈ t.nodes, Path g new a n) ∧
    ∀ n ∈ t'.nodes, n ∉ t.nodes → ∃ x ∈ t.terminals, Path g new n x

/-- The tree can be extended. -/
def Ends (g : Graph) (t : Tree) : Prop := ∀ e ∈ t.edges, g.dst e ∈ t.nodes

/-- The terminals with a position from which no water has reached the tree. -/
def Unfed (t : Tree) (s : State) (n : Nat) : Prop := ∃ ix, t.terminals[ix]? = some n ∧ ix ∉ s.rootFeeding

/-- The trees and states a caller can come to: `T` are the terminals at first. -/
inductive Reach (g : Graph) (root : Nat) (T : List Nat) : Tree → State → Prop
  | new : Reach g root T (Tree.new root T) State.new
  | run {t t' s s' inner outer pick b} : Reach g root T t s → run g inner outer pick t s = .done b t' s' → Reach g root T t' s'
  | extend {t s} (new : List Nat) : Reach g root T t s → Reach g root T (t.extend new).2 s

/-- The states in the loop of a run from `t0` and `s0`. -/
inductive During (g : Graph) (t0 : Tree) (s0 : State) : Tree → State → Prop
  | start {s} : init g t0 s0 = some s → During g t0 s0 t0 s
  | go {t s s' i e inner} : During g t0 s0 t s → s.heap[i]? = some e →
      update g inner t { s with heap := s.heap.eraseIdx i } e = some (.continue, s') → During g t0 s0 t s'
  | found {t t' s s' i e v inner} : During g t0 s0 t s → s.heap[i]? = some e →
      update g inner t { s with heap := s.heap.eraseIdx i } e = some (.found v, s') →
      subtree g s'.saturated inner [v] (addEdge g t e) = some t' → During g t0 s0 t' s'

end Verif.Flac
