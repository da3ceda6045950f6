import Verif.SteinerInput.Model
/-!
# What a plan of a query has to be

A plan is a choice of edges of the space.
-/
namespace Verif.SteinerInput

/-- A node can be reached from the root through chosen edges. -/
inductive Reach (sp : Space) (es : List Nat) : Nat → Prop
  | root : Reach sp es sp.root
  | step {e : Nat} : e ∈ es → Reach sp es (sp.src e) → Reach sp es (sp.dst e)

/-- Resolvers, providable and provided fields are what a plan goes through. -/
def SEdge.IsStep (e : SEdge) : Prop := e.kind = .createChildResolver ∨ e.kind = .canProvide ∨ e.kind = .provides

/-- Node `n` requires the leaf field `r`. -/
def Needs (sp : Space) (n r : Nat) : Prop := ⟨n, r, .requires⟩ ∈ sp.edges ∧ ∃ i, (r, i) ∈ sp.leaf

/-- Nothing leads to the root, nothing is required by it, a leaf field is in the list once; fields are provided and
resolvers and providable fields are not. -/
structure Space.Valid (sp : Space) : Prop where
  once : (sp.leaf.map Prod.fst).Nodup
  root : ∀ e ∈ sp.edges, e.IsStep → e.dst ≠ sp.root
  start : ∀ r, ¬ Needs sp sp.root r
  provided : ∀ e ∈ sp.edges, ∀ e' ∈ sp.edges, e.dst = e'.dst → e.kind = .provides → e'.kind ≠ .createChildResolver ∧ e'.kind ≠ .canProvide

/-- Parent `p` provides field `r` through a providable field without requirements. -/
def Freely (sp : Space) (p r : Nat) : Prop :=
  ∃ q, ⟨p, q, .canProvide⟩ ∈ sp.edges ∧ ⟨q, r, .provides⟩ ∈ sp.edges ∧ ∀ x, ⟨q, x, .requires⟩ ∉ sp.edges

/-- The requirements of a node come for free with each of its parents, or with none. -/
def Space.Uniform (sp : Space) : Prop :=
  ∀ n, ∀ e ∈ sp.edges, ∀ e' ∈ sp.edges, e.dst = n → e'.dst = n → e.IsStep → e'.IsStep →
    (∀ r, Needs sp n r → (r, false) ∈ sp.leaf → Freely sp e.src r) → ∀ r, Needs sp n r → (r, false) ∈ sp.leaf → Freely sp e'.src r

/-- The edges a plan can go through. -/
def Space.steps (sp : Space) : List Nat := (List.range sp.edges.length).filter fun e => (sp.kind e).isParent

/-- Every leaf field and every parent can be reached from the root. -/
structure Space.Connected (sp : Space) : Prop where
  leaf : ∀ p ∈ sp.leaf, Reach sp sp.steps p.1 ∧ p.1 ≠ sp.root
  parent : ∀ e ∈ sp.edges, e.IsStep → Reach sp sp.steps e.src

end Verif.SteinerInput
