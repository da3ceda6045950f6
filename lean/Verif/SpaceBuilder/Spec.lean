import Verif.SpaceBuilder.Model
/-!
# What a solution space has to be
-/
namespace Verif.SpaceBuilder

open Verif.QueryGraph (Kind SEdge)

def St.Field (st : St) (n : Nat) (f : FNode) : Prop := st.nodes[n]? = some (.field f)
def St.Resolver (st : St) (n r : Nat) : Prop := ∃ entity, st.nodes[n]? = some (.resolver entity r)
def St.Provider (st : St) (n : Nat) (p : PNode) : Prop := st.nodes[n]? = some (.providable p)
def St.Edge (st : St) (a b : Nat) (k : Kind) : Prop := ⟨a, b, k⟩ ∈ st.edges

/-- Node `n` is a field with this definition (`none` for `__typename`) and these arguments. -/
def St.Def (st : St) (n : Nat) (d : Option Nat) (args : Nat) : Prop :=
  ∃ f fl, st.Field n f ∧ st.fields[f.id]? = some fl ∧ fl.definition = d ∧ fl.args = args

/-- The type of the objects below node `g`. -/
inductive Output (E : Env) (st : St) : Nat → Nat → Prop
  | root : Output E st 0 E.rootType
  | field {g d args o : Nat} : st.Def g (some d) args → E.out d = some o → Output E st g o

/-- The objects below `g` come from `s`. -/
inductive Source (st : St) : Nat → Nat → Prop
  | root : Source st 0 0
  | provider {g s : Nat} {p : PNode} : st.Provider s p → st.Edge s g .provides → Source st g s

/-- Field `n` is in the selection set of `g`. -/
def Child (st : St) (g n : Nat) : Prop := st.Edge g n .field ∨ st.Edge g n .typename

/-- `a` can provide field `f` of the selection set of `g`, with `p`. -/
inductive CanProvide (E : Env) (st : St) (a f : Nat) (p : PNode) : Prop
  /-- `a` provides the parent, and its subgraph has the field. -/
  | parent {g o d args : Nat} {pa : PNode} : st.Edge g f .field → Output E st g o → st.Def f (some d) args → st.Provider a pa → Source st g a →
    p.resolver = pa.resolver → E.provide pa o args d = .yes p.data → CanProvide E st a f p
  /-- `a` is a resolver of the field. -/
  | resolver {g o d args : Nat} : st.Edge g f .field → Output E st g o → st.Def f (some d) args → st.Resolver a p.resolver →
    st.Edge g a .hasChildResolver → p.resolver ∈ E.resolvers d → p.data = E.provides d (E.subgraph p.resolver) →
    (E.isLookup p.resolver = true → E.connected (E.subgraph p.resolver) o d = true) → CanProvide E st a f p

/-- The source of the selection set of `g` has a resolver, which provides the field `f`. -/
def Resolved (st : St) (s g f r : Nat) : Prop :=
  ∃ i, st.Resolver i r ∧ st.Edge g i .hasChildResolver ∧ st.Edge s i .createChildResolver ∧
    ∃ j p, st.Provider j p ∧ p.resolver = r ∧ st.Edge i j .canProvide ∧ st.Edge j f .provides

/-- All ways for `s` to get the field `f` of the selection set of `g` are in the space. -/
structure Complete (E : Env) (st : St) (s g f : Nat) : Prop where
  /-- From the source itself. -/
  source : ∀ o d args p data, Output E st g o → st.Def f (some d) args → st.Provider s p → E.provide p o args d = .yes data →
    ∃ j p', st.Provider j p' ∧ p'.resolver = p.resolver ∧ p'.data = data ∧ st.Edge s j .canProvide ∧ st.Edge j f .provides
  /-- From another resolver, unless the field is known not to be there, or it is one of the same subgraph. -/
  resolver : ∀ o d args r, Output E st g o → st.Def f (some d) args → r ∈ E.resolvers d →
    (E.isLookup r = true → E.connected (E.subgraph r) o d = true) →
    (∀ p, st.Provider s p → E.provide p o args d ≠ .unreachable ∧ ∀ data, E.provide p o args d = .yes data → E.subgraph r ≠ E.subgraph p.resolver) →
    Resolved st s g f r
  /-- Otherwise something is done about it later. -/
  flag : ∃ fn, st.Field f fn ∧ (fn.providable = true ∨ ∃ g', (g', f) ∈ st.unplannable)

/-- A field is the one an item asks for. -/
def Fits (E : Env) (fl : SpaceBuilder.Field) (item : Nat) : Prop :=
  fl.definition = some (E.itemDef item) ∧ (fl.args = E.itemArgs item ∨ E.argsEq fl.args item = true)

/-- All items are next to each other below `g`, and `n` requires them; unless there is something left to do. -/
def Met (E : Env) (st : St) (left : List Req) (n : Nat) : Nat → Sel → Prop
  | _, .nil => True
  | g, .cons item sub rest =>
    (∃ c f fl, st.Edge g c .field ∧ st.Edge n c .requires ∧ st.Field c f ∧ st.fields[f.id]? = some fl ∧ Fits E fl item ∧
      ((E.out (E.itemDef item)).isSome → (∃ q ∈ left, q.dependent = n ∧ q.parent = c ∧ q.items = sub) ∨ Met E st left n c sub)) ∧
    Met E st left n g rest

/-- The space after `ingest_operation_fields`. -/
structure Start (E : Env) (st : St) : Prop where
  root : st.nodes[0]? = some .root
  /-- Other nodes are fields of the operation, with a field each. -/
  node : ∀ (n : Nat) (v : Node), st.nodes[n]? = some v → n ≠ 0 → ∃ f fl, v = .field f ∧ f.extra = false ∧ f.providable = false ∧ st.fields[f.id]? = some fl ∧
    (f.leaf = true ↔ ∃ d, fl.definition = some d ∧ E.out d = none)
  once : ∀ n m f f', st.Field n f → st.Field m f' → f.id = f'.id → n = m
  /-- They are in the selection set of the root or of another field, which was there before. -/
  edge : ∀ e ∈ st.edges, e.src < e.dst ∧ (∃ o, Output E st e.src o) ∧
    (e.kind = .field ∧ (∃ d args, st.Def e.dst (some d) args) ∨ e.kind = .typename ∧ ∃ args, st.Def e.dst none args)
  parent : ∀ n f, st.Field n f → ∃ g, Child st g n
  single : ∀ (i j : Nat) (e e' : SEdge), st.edges[i]? = some e → st.edges[j]? = some e' → e.dst = e'.dst → i = j
  used : ∀ fl ∈ st.fields, fl.used = none
  tasks : st.tasks = []
  unplannable : st.unplannable = []
  /-- Requirements are those of a field. -/
  req : ∀ q ∈ st.reqs, (∃ f, st.Field q.dependent f) ∧ Output E st q.parent q.output

/-- There is one resolver per selection set and definition, and it provides a field once. -/
structure Once (st : St) : Prop where
  resolver : ∀ g i i' r, st.Edge g i .hasChildResolver → st.Edge g i' .hasChildResolver → st.Resolver i r → st.Resolver i' r → i = i'
  parent : ∀ g g' i, st.Edge g i .hasChildResolver → st.Edge g' i .hasChildResolver → g = g'
  provider : ∀ i r j j' f, st.Resolver i r → st.Edge i j .canProvide → st.Edge i j' .canProvide → st.Edge j f .provides → st.Edge j' f .provides → j = j'

/-- `a` is `n`, or one of the fields it is below. -/
inductive Above (st : St) : Nat → Nat → Prop
  | refl {n : Nat} : Above st n n
  | step {a g n : Nat} : Above st a g → Child st g n → Above st a n

/-- A leaf of the query: a scalar or enum, or a field with nothing but `__typename` below it. -/
inductive IsLeaf (E : Env) (st : St) : Nat → Prop
  | scalar {n d args : Nat} : st.Def n (some d) args → E.out d = none → IsLeaf E st n
  | bare {n t d args : Nat} : st.Def n (some d) args → st.Edge n t .typename → (∀ c, ¬ st.Edge n c .field) → IsLeaf E st n

/-- A field that is provided is a leaf, or a resolver or provider can get to one. -/
inductive Leads (E : Env) (st : St) : Nat → Prop
  | leaf {n : Nat} : IsLeaf E st n → Leads E st n
  | create {a b : Nat} : st.Edge a b .createChildResolver → Leads E st b → Leads E st a
  | canProvide {a b : Nat} : st.Edge a b .canProvide → Leads E st b → Leads E st a
  | provides {a b : Nat} : st.Edge a b .provides → Leads E st b → Leads E st a

end Verif.SpaceBuilder
