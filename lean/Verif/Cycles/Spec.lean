import Verif.Cycles.Model
/-!
# Specification of the split
-/
namespace Verif.Cycles

/-- A field reaches another through what subgraphs require. -/
inductive Path (g : Graph) : Nat → Nat → Prop
  | refl (a : Nat) : Path g a a
  | step {a b c : Nat} : ⟨a, b, .requiredBySubgraph⟩ ∈ g.edges → Path g b c → Path g a c

/-- Edges that make the tree of partitions and fields. -/
def Hier (k : Kind) : Prop := k = .queryPartition ∨ k = .field

instance (k : Kind) : Decidable (Hier k) := by unfold Hier; infer_instance

/-- The graph is a tree of partitions and fields with other edges on top, and no partition requires or
otherwise points at a field which a partition next to it with the same resolver provides. -/
structure WF (g : Graph) : Prop where
  bound : ∀ e ∈ g.edges, e.src < g.nodes.length ∧ e.dst < g.nodes.length
  part : ∀ e ∈ g.edges, e.kind = .queryPartition → ∃ a r, g.nodes[e.dst]? = some (.partition a r)
  fld : ∀ e ∈ g.edges, e.kind = .field → ∃ p, g.nodes[e.dst]? = some (.field p)
  tree : ((g.edges.filter fun e => decide (Hier e.kind)).map (·.dst)).Nodup
  single : ∀ q p p' f r, ⟨q, p, .queryPartition⟩ ∈ g.edges → ⟨q, p', .queryPartition⟩ ∈ g.edges →
    (∃ a, g.nodes[p]? = some (.partition a r)) → (∃ a, g.nodes[p']? = some (.partition a r)) →
    ⟨p', f, .field⟩ ∈ g.edges → ∀ e ∈ g.edges, e.src = p → e.dst = f → e.kind = .field

/-- Field `f` is provided for `q` by a partition with the resolver. -/
def Under (g : Graph) (q r f : Nat) : Prop :=
  ∃ p a, ⟨q, p, .queryPartition⟩ ∈ g.edges ∧ g.nodes[p]? = some (.partition a r) ∧ ⟨p, f, .field⟩ ∈ g.edges

/-- Field `f` is in the selection set of `q`, itself or through a partition. -/
def Below (g : Graph) (q f : Nat) : Prop := ⟨q, f, .field⟩ ∈ g.edges ∧ (∀ a r, g.nodes[q]? ≠ some (.partition a r)) ∨ ∃ r, Under g q r f

/-- The nodes whose selection sets are looked at. -/
inductive Visited (g : Graph) (start : List Nat) : Nat → Prop
  | start {q : Nat} : q ∈ start → Visited g start q
  | next {q f : Nat} : Visited g start q → Below g q f → Visited g start f

/-- No field of a partition of `q` reaches another one of the same partition. -/
def Independent (g : Graph) (q : Nat) : Prop :=
  ∀ p, ⟨q, p, .queryPartition⟩ ∈ g.edges → ∀ a b, ⟨p, a, .field⟩ ∈ g.edges → ⟨p, b, .field⟩ ∈ g.edges →
    a ≠ b → ¬ Path g a b

/-- The field or partition is in the selection set of the partition, at any depth. -/
inductive Inside (g : Graph) : Nat → Nat → Prop
  | self (p : Nat) : Inside g p p
  | field {p x y : Nat} : Inside g p x → ⟨x, y, .field⟩ ∈ g.edges → Inside g p y

/-- A partition needs something another one provides. -/
def DependsOn (g : Graph) (p p' : Nat) : Prop :=
  p ≠ p' ∧ ∃ x y, Inside g p x ∧ Inside g p' y ∧ ⟨x, y, .requiredBySubgraph⟩ ∈ g.edges

/-- `a.position.cmp(&b.position)`: `None` is the least. -/
def PosLe : Option Nat → Option Nat → Prop
  | none, _ => True
  | some _, none => False
  | some a, some b => a ≤ b

instance : ∀ a b, Decidable (PosLe a b)
  | none, _ => .isTrue trivial
  | some _, none => .isFalse id
  | some a, some b => inferInstanceAs (Decidable (a ≤ b))

/-- What `sort_unstable_by` may do. -/
def Sorts (sort : List Fld → List Fld) : Prop :=
  ∀ l, (sort l).Perm l ∧ (sort l).Pairwise fun a b => PosLe a.position b.position

end Verif.Cycles
