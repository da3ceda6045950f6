import Verif.SpaceBuilder.Prune
import Verif.QueryGraph.Props
/-!
# C67: the solution space offers all the ways to get the fields of the query, and only those
-/
namespace Verif.SpaceBuilder

open Verif.QueryGraph (Kind SEdge)
open Verif.Updater (Out)

variable {E : Env} {st st' : St} {fuel : Nat}

theorem final (h : Start E st) (hb : build E fuel st = .ok st') : Inv E st.reqs st' [] [] ∧ Grows st st' := by
  rcases build_inv h (fuel := fuel) with h1 | ⟨st'', h1, h2⟩
  · rw [hb] at h1; cases h1
  · rw [hb] at h1; cases h1; exact h2

theorem Owed.met {n g : Nat} {S : Sel} (h : Owed E st [] n g S) : Met E st [] n g S := by
  rcases h with ⟨q, hq, _⟩ | h
  · cases hq
  · exact h

/-- Building the space does not panic. -/
theorem C67_no_panic (h : Start E st) : build E fuel st = .timeout ∨ ∃ st', build E fuel st = .ok st' := by
  rcases build_inv h (fuel := fuel) with h1 | ⟨st', h1, _⟩
  · exact .inl h1
  · exact .inr ⟨st', h1⟩

/-- The fields of the query stay where they are, with their definitions and arguments. -/
theorem C67_kept (h : Start E st) (hb : build E fuel st = .ok st') :
    (∀ g n, Child st g n → Child st' g n) ∧ ∀ n f d args, st.Field n f → st.Def n d args →
      st'.Def n d args ∧ ∃ f', st'.Field n f' ∧ f'.id = f.id ∧ f'.extra = false ∧ f'.indispensable = f.indispensable := by
  obtain ⟨_, hg⟩ := final h hb
  refine ⟨fun g n => hg.child, fun n f d args hf hd => ⟨hg.def hd, ?_⟩⟩
  obtain ⟨f', h1, h2, h3, _, h4, _⟩ := hg.field n f hf
  exact ⟨f', h1, h2, h3.trans (h.field hf).1, h4⟩

/-- What is offered can be had: a providable field is for one field of the query; what can provide it is a resolver of
the selection set of the field which has it, or a providable field for the parent whose subgraph has it; resolvers are
reached from what provides the parent. -/
theorem C67_offered (h : Start E st) (hb : build E fuel st = .ok st') :
    (∀ j p, st'.Provider j p → ∃ f fn, (∀ n, st'.Edge j n .provides ↔ n = f) ∧ st'.Field f fn ∧ p.field = fn.id ∧ fn.providable = true ∧
      (∃ d args, st'.Def f (some d) args) ∧ (∃ a, st'.Edge a j .canProvide) ∧ ∀ a, st'.Edge a j .canProvide → CanProvide E st' a f p) ∧
    (∀ a j, st'.Edge a j .canProvide → ∃ p, st'.Provider j p) ∧
    (∀ j n, st'.Edge j n .provides → ∃ p, st'.Provider j p) ∧
    (∀ s i, st'.Edge s i .createChildResolver → (∃ r, st'.Resolver i r) ∧ ∃ g, st'.Edge g i .hasChildResolver ∧ Source st' g s) ∧
    ∀ g i, st'.Edge g i .hasChildResolver → (∃ r, st'.Resolver i r) ∧ (∃ o, Output E st' g o) ∧ ∃ s, st'.Edge s i .createChildResolver ∧ Source st' g s := by
  obtain ⟨hi, _⟩ := final h hb
  have hs := hi.shape
  refine ⟨fun j p hp => ?_, fun a j he => ?_, fun j n he => ?_, fun s i he => hs.edge _ he, fun g i he => hs.edge _ he⟩
  · obtain ⟨f, hf⟩ := hs.some j p hp
    obtain ⟨⟨p', fn, h1, h2, h3, h4⟩, h5, h6⟩ := hs.edge _ hf
    have h1' := h1
    simp only [St.Provider] at hp h1'
    rw [hp] at h1'
    cases h1'
    refine ⟨f, fn, fun n => ⟨fun hn => hs.one _ _ _ hn hf, fun hn => by rw [hn]; exact hf⟩, h2, h3, h4, h5, h6, fun a ha => ?_⟩
    obtain ⟨p', f', h7, h8, h9⟩ := hs.edge _ ha
    simp only [St.Provider] at h7
    rw [hp] at h7
    cases h7
    cases hs.one _ _ _ h8 hf
    exact h9
  · obtain ⟨p, _, h1, _⟩ := hs.edge _ he
    exact ⟨p, h1⟩
  · obtain ⟨⟨p, _, h1, _⟩, _⟩ := hs.edge _ he
    exact ⟨p, h1⟩

/-- All that can be had is offered: for each field, from each provider of its parent. -/
theorem C67_complete (h : Start E st) (hb : build E fuel st = .ok st') {g n s : Nat} (hc : Child st' g n) (hs : Source st' g s) :
    Complete E st' s g n := by
  rcases (final h hb).1.cover g n s hc hs with ⟨t, ht, _⟩ | h1
  · cases ht
  · exact h1

/-- A resolver is there once for a selection set, and provides a field once. -/
theorem C67_once (h : Start E st) (hb : build E fuel st = .ok st') : Once st' := (final h hb).1.once

/-- What is required is in the query: for fields of the operation, for each resolver, and for each field taken from a
resolver whose subgraph requires something for it. -/
theorem C67_requirements (h : Start E st) (hb : build E fuel st = .ok st') :
    (∀ q ∈ st.reqs, Met E st' [] q.dependent q.parent q.items) ∧
    (∀ g i r S, st'.Edge g i .hasChildResolver → st'.Resolver i r → E.required r = some S → Met E st' [] i g S) ∧
    ∀ i j r f d args S, st'.Edge i j .canProvide → st'.Resolver i r → st'.Edge j f .provides → st'.Def f (some d) args →
      E.needs d (E.subgraph r) = some S → ∃ g, st'.Edge g i .hasChildResolver ∧ st'.Edge g f .field ∧ Met E st' [] j g S := by
  obtain ⟨hi, _⟩ := final h hb
  refine ⟨fun q hq => (hi.init q hq).met, fun g i r S h1 h2 h3 => (hi.res g i r S h1 h2 h3).met, fun i j r f d args S h1 h2 h3 h4 h5 => ?_⟩
  obtain ⟨g, h6, h7, h8⟩ := hi.need i j r f d args S h1 h2 h3 h4 h5
  exact ⟨g, h6, h7, h8.met⟩

/-- A field is provided, or it or one it is below is put aside as unplannable; and it is marked as provided only if it is. -/
theorem C67_provided (h : Start E st) (hb : build E fuel st = .ok st') {n : Nat} {f : FNode} (hf : st'.Field n f) :
    (f.providable = true ∨ ∃ a g, Above st' a n ∧ (g, a) ∈ st'.unplannable) ∧
    (f.providable = true → (∃ args, st'.Def n none args) ∨ ∃ j p, st'.Provider j p ∧ st'.Edge j n .provides) := by
  obtain ⟨hi, _⟩ := final h hb
  refine ⟨hi.provided hf, fun hp => ?_⟩
  rcases hi.shape.flagged n f hf hp with h1 | ⟨j, h1⟩
  · exact .inl h1
  · obtain ⟨⟨p, _, h2, _⟩, _⟩ := hi.shape.edge _ h1
    exact .inr ⟨j, p, h2, h1⟩

/-- Pruning removes the resolvers and providable fields that lead to no leaf, and nothing else. -/
theorem C67_pruned (h : Start E st) (hb : build E fuel st = .ok st') (order : List Nat) :
    (∀ n v, st'.nodes[n]? = some v → (st'.prune order).node n =
      (open Classical in if ((∃ r, st'.Resolver n r) ∨ ∃ p, st'.Provider n p) ∧ ¬ Leads E st' n then .gone else st'.show v)) ∧
    (∀ a b k, k ≠ .gone → (⟨a, b, k⟩ ∈ (st'.prune order).edges ↔ st'.Edge a b k ∧ (st'.prune order).node a ≠ .gone ∧ (st'.prune order).node b ≠ .gone)) ∧
    ∀ n b, (n, b) ∈ st'.leafs ↔ IsLeaf E st' n ∧ ∃ f, st'.Field n f ∧ f.indispensable = b := by
  obtain ⟨hi, _⟩ := final h hb
  have hs := hi.shape
  have hkept : ∀ n v, st'.nodes[n]? = some v → (st'.kept st'.visited n = true ↔ ¬ (((∃ r, st'.Resolver n r) ∨ ∃ p, st'.Provider n p) ∧ ¬ Leads E st' n)) := by
    intro n v hv
    rw [kept_iff hs]
    constructor
    · rintro ⟨_, h1⟩ ⟨h2, h3⟩
      exact h3 (h1 h2)
    · intro h1
      exact ⟨exists_lt ⟨v, hv⟩, fun h2 => Classical.byContradiction fun h3 => h1 ⟨h2, h3⟩⟩
  have hgone : ∀ n, (st'.prune order).node n ≠ .gone ↔ st'.kept st'.visited n = true := by
    intro n
    rw [prune_node]
    unfold St.kept
    cases st'.nodes[n]? with
    | none => simp
    | some v =>
      simp only
      cases hk : v.kept st'.visited n with
      | false => simp
      | true => cases v <;> simp [St.show]
  refine ⟨fun n v hv => ?_, fun a b k hk => ?_, fun n b => mem_leafs hs⟩
  · have := hkept n v hv
    rw [prune_node, hv]
    simp only [St.kept, hv] at this
    simp only
    split
    · rename_i h1
      rw [if_neg (this.1 h1)]
    · rename_i h1
      rw [this, Classical.not_not] at h1
      rw [if_pos h1]
  · rw [prune_edge hs hk, hgone, hgone]

/-- The pruned space is what the solver and the query graph work with; with nothing unplannable the solver gets to all leafs,
and what it comes up with has all indispensable ones. -/
theorem C67_planned (h : Start E st) (hb : build E fuel st = .ok st') {order : List Nat} (ho : order.Nodup) (hc : ∀ e, e < st'.edges.length → e ∈ order) :
    (st'.prune order).Typed ∧ ((st'.prune order).steiner st'.leafs).Valid ∧
    (st'.unplannable = [] → ∃ N, ∀ n, N ≤ n → ∃ b inp T, SteinerInput.build ((st'.prune order).steiner st'.leafs) n = .ok (b, inp, T)) ∧
    ∀ (c : Updater.Cfg) n b t inp es k, SteinerInput.plan ((st'.prune order).steiner st'.leafs) n c = .ok (b, t, inp, es) → es.length < k →
      ∃ g, QueryGraph.ingestNodes (st'.prune order) es k = .ok g ∧
        ∀ r f, IsLeaf E st' r → st'.Field r f → f.indispensable = true → ∃ i, g.StandsFor (st'.prune order) i r := by
  obtain ⟨hi, _⟩ := final h hb
  have hs := hi.shape
  have ht := prune_typed hs ho hc
  have hv := QueryGraph.steiner_valid ht (leafs_nodup (st := st')) (prune_root_requires hs)
  refine ⟨ht, hv, fun hu => SteinerInput.C64_ends hv (prune_connected hi hu), fun c n b t inp es k hp hk => ?_⟩
  obtain ⟨g, h1, h2⟩ := QueryGraph.C66_planned ht (leafs_nodup (st := st')) (prune_root_requires hs) hp hk
  refine ⟨g, h1, fun r f hl hf hx => h2 r ((mem_leafs hs).2 ⟨hl, f, hf, hx⟩) ?_⟩
  obtain ⟨d, args, hd⟩ := hl.def
  exact prune_def hs hd

/-! ## Two subgraphs -/

instance {a b : Nat} {k : Kind} : Decidable (st.Edge a b k) := inferInstanceAs (Decidable (_ ∈ _))

theorem ok_of {α : Type} {x : Out α} {a : α} (h : x.get? = some a) : x = .ok a := by
  cases x with
  | ok b => cases h; rfl
  | _ => cases h

/-- `{ user { __typename name } }`.  Definitions: `Query.user` 0, `User.id` 1, `User.name` 2.  Subgraph 0 has the user with id
and name, subgraph 1 the name for the id. -/
def exEnv : Env where
  rootType := 9
  out := fun d => if d = 0 then some 8 else none
  entity := fun d => if d = 0 then 9 else 8
  resolvers := fun d => if d = 0 then [0] else if d = 2 then [1] else []
  subgraph := id
  isLookup := fun _ => false
  connected := fun _ _ _ => false
  required := fun r => if r = 1 then some (.cons 1 .nil .nil) else none
  needs := fun _ _ => none
  provides := fun _ _ => 0
  provide := fun p _ _ d => if p.resolver = 0 ∧ (d = 1 ∨ d = 2) then .yes 0 else .no
  itemDef := id
  itemArgs := fun _ => 0
  argsEq := fun a _ => a = 0

/-- The gateway requires the id for the user: it is to authorize who asks for it. -/
def exStart : St where
  nodes := [.root, .field ⟨0, false, true, false, false, false⟩, .field ⟨1, false, true, false, false, false⟩, .field ⟨2, false, true, true, false, false⟩]
  edges := [⟨0, 1, .field⟩, ⟨1, 2, .typename⟩, ⟨1, 3, .field⟩]
  fields := [⟨some 0, 0, none⟩, ⟨none, 0, none⟩, ⟨some 2, 0, none⟩]
  tasks := []
  reqs := [⟨1, true, 1, 8, .cons 1 .nil .nil⟩]
  unplannable := []

theorem exStart_start : Start exEnv exStart := by
  have hn : ∀ (n : Nat) (v : Node), exStart.nodes[n]? = some v → n ≠ 0 → n = 1 ∧ v = .field ⟨0, false, true, false, false, false⟩ ∨
      n = 2 ∧ v = .field ⟨1, false, true, false, false, false⟩ ∨ n = 3 ∧ v = .field ⟨2, false, true, true, false, false⟩ := by
    intro n v h h0
    match n, h with
    | 1, h => cases h; exact .inl ⟨rfl, rfl⟩
    | 2, h => cases h; exact .inr (.inl ⟨rfl, rfl⟩)
    | 3, h => cases h; exact .inr (.inr ⟨rfl, rfl⟩)
    | n + 4, h => cases h
  have hf : ∀ n f, exStart.Field n f → n = 1 ∧ f.id = 0 ∨ n = 2 ∧ f.id = 1 ∨ n = 3 ∧ f.id = 2 := by
    intro n f h
    have h0 : n ≠ 0 := by rintro rfl; cases h
    rcases hn n _ h h0 with ⟨h1, h2⟩ | ⟨h1, h2⟩ | ⟨h1, h2⟩ <;> cases h2 <;> simp [h1]
  have d1 : exStart.Def 1 (some 0) 0 := ⟨_, _, rfl, rfl, rfl, rfl⟩
  have d2 : exStart.Def 2 none 0 := ⟨_, _, rfl, rfl, rfl, rfl⟩
  have d3 : exStart.Def 3 (some 2) 0 := ⟨_, _, rfl, rfl, rfl, rfl⟩
  have o1 : Output exEnv exStart 1 8 := .field d1 rfl
  refine ⟨rfl, fun n v h h0 => ?_, fun n m f f' h h' hi => ?_, fun e he => ?_, fun n f h => ?_, fun i j e e' hi hj hd => ?_, by decide, rfl, rfl, fun q hq => ?_⟩
  · rcases hn n v h h0 with ⟨-, rfl⟩ | ⟨-, rfl⟩ | ⟨-, rfl⟩
    · exact ⟨_, _, rfl, rfl, rfl, rfl, by simp [exEnv]⟩
    · exact ⟨_, _, rfl, rfl, rfl, rfl, by simp⟩
    · exact ⟨_, _, rfl, rfl, rfl, rfl, by simp [exEnv]⟩
  · rcases hf n f h with ⟨h1, h2⟩ | ⟨h1, h2⟩ | ⟨h1, h2⟩ <;> rcases hf m f' h' with ⟨h3, h4⟩ | ⟨h3, h4⟩ | ⟨h3, h4⟩ <;> omega
  · simp only [exStart, List.mem_cons, List.not_mem_nil, or_false] at he
    rcases he with rfl | rfl | rfl
    · exact ⟨by decide, ⟨9, .root⟩, .inl ⟨rfl, 0, 0, d1⟩⟩
    · exact ⟨by decide, ⟨8, o1⟩, .inr ⟨rfl, 0, d2⟩⟩
    · exact ⟨by decide, ⟨8, o1⟩, .inl ⟨rfl, 2, 0, d3⟩⟩
  · rcases hf n f h with ⟨rfl, -⟩ | ⟨rfl, -⟩ | ⟨rfl, -⟩
    · exact ⟨0, .inl (by decide)⟩
    · exact ⟨1, .inr (by decide)⟩
    · exact ⟨1, .inl (by decide)⟩
  · have key : ∀ (i : Nat) (e : SEdge), exStart.edges[i]? = some e → e.dst = i + 1 := by
      intro i e h
      match i, h with
      | 0, h => cases h; rfl
      | 1, h => cases h; rfl
      | 2, h => cases h; rfl
      | i + 3, h => cases h
    have h1 := key i e hi
    have h2 := key j e' hj
    omega
  · simp only [exStart, List.mem_cons, List.not_mem_nil, or_false] at hq
    subst hq
    exact ⟨⟨_, rfl⟩, o1⟩

/-- What is built: the user (1) from a first subgraph (4, 5), its name (3) from there (6) or from the second one (7, 8), its id
(9), which the second one and the gateway require, from the first one (10). -/
def exDone : St where
  nodes := [.root, .field ⟨0, false, true, false, true, false⟩, .field ⟨1, false, true, false, true, false⟩, .field ⟨2, false, true, true, true, false⟩,
    .resolver 9 0, .providable ⟨0, 0, 0⟩, .providable ⟨0, 2, 0⟩, .resolver 8 1, .providable ⟨1, 2, 0⟩, .field ⟨3, true, false, true, true, false⟩,
    .providable ⟨0, 3, 0⟩]
  edges := [⟨0, 1, .field⟩, ⟨1, 2, .typename⟩, ⟨1, 3, .field⟩, ⟨0, 4, .createChildResolver⟩, ⟨0, 4, .hasChildResolver⟩, ⟨4, 5, .canProvide⟩,
    ⟨5, 1, .provides⟩, ⟨5, 6, .canProvide⟩, ⟨6, 3, .provides⟩, ⟨5, 7, .createChildResolver⟩, ⟨1, 7, .hasChildResolver⟩, ⟨7, 8, .canProvide⟩,
    ⟨8, 3, .provides⟩, ⟨1, 9, .field⟩, ⟨7, 9, .requires⟩, ⟨5, 10, .canProvide⟩, ⟨10, 9, .provides⟩, ⟨1, 9, .requires⟩]
  fields := [⟨some 0, 0, none⟩, ⟨none, 0, none⟩, ⟨some 2, 0, none⟩, ⟨some 1, 0, some 1⟩]
  tasks := []
  reqs := []
  unplannable := []

theorem exDone_build : build exEnv 50 exStart = .ok exDone := ok_of (by decide +kernel)

/-- Nothing is removed, and the leafs are the name and, not indispensable, the id. -/
example : (exDone.prune (List.range 18)).nodes = [.root, .field 0 0 false, .field 1 0 true, .field 2 0 false, .resolver 9 0, .providable, .providable,
    .resolver 8 1, .providable, .field 3 0 false, .providable] ∧ (exDone.prune (List.range 18)).edges = exDone.edges ∧
    exDone.leafs = [(3, true), (9, false)] := by decide +kernel

/-- The hypotheses of the theorems hold, and so do their claims for things that are there. -/
example : Complete exEnv exDone 5 1 3 ∧ Resolved exDone 5 1 3 1 ∧ Met exEnv exDone [] 7 1 (.cons 1 .nil .nil) := by
  have h := C67_complete exStart_start exDone_build (g := 1) (n := 3) (s := 5) (.inl (by decide)) (.provider (p := ⟨0, 0, 0⟩) rfl (by decide))
  refine ⟨h, h.resolver 8 2 0 1 (.field (d := 0) (args := 0) ⟨_, _, rfl, rfl, rfl, rfl⟩ rfl) ⟨_, _, rfl, rfl, rfl, rfl⟩ (by decide) (by decide) ?_,
    (C67_requirements exStart_start exDone_build).2.1 1 7 1 _ (by decide) ⟨8, rfl⟩ rfl⟩
  intro p hp
  simp only [St.Provider, exDone] at hp
  cases hp
  exact ⟨by decide, fun _ _ => by decide⟩

/-- With the second subgraph gone, `name` has nothing to be taken from: it is put aside. -/
example : ((build { exEnv with resolvers := fun d => if d = 0 then [0] else [], provide := fun _ _ _ _ => .no } 50 exStart).get?.map fun st => st.unplannable) =
    some [(1, 6), (1, 3)] := by decide +kernel

/-- A providable field that leads to no leaf is removed: the second subgraph also has the user, but nothing of it. -/
example : ((build { exEnv with resolvers := fun d => if d = 0 then [0, 2] else [], subgraph := fun r => if r = 2 then 1 else r } 50 exStart).get?.map
    fun st => ((st.nodes.zip (st.prune (List.range st.edges.length)).nodes).filter fun v => decide (v.2 = .gone)).map (·.1)) =
    some [.resolver 9 2, .providable ⟨2, 0, 0⟩] := by decide +kernel

/-- What the gateway requires for a field is not indispensable if a resolver required it first; and then it need not be in
what is planned. -/
theorem C67_gateway_lost : ∃ E st st' order b t inp es g q r, Start E st ∧ build E 50 st = .ok st' ∧ q ∈ st.reqs ∧ q.indispensable = true ∧
    st'.Edge q.dependent r .requires ∧ SteinerInput.plan ((st'.prune order).steiner st'.leafs) 50 Updater.cfg = .ok (b, t, inp, es) ∧
    QueryGraph.ingestNodes (st'.prune order) es 10 = .ok g ∧ (∃ i, g.StandsFor (st'.prune order) i q.dependent) ∧
    (¬ ∃ i, g.StandsFor (st'.prune order) i r) ∧ ∀ e ∈ g.edges, e.kind ≠ .requiredBySupergraph := by
  obtain ⟨b, t, inp, h⟩ := QueryGraph.plan_of (sp := (exDone.prune (List.range 18).reverse).steiner exDone.leafs) (n := 50) (c := Updater.cfg) (es := [8, 7, 5, 3])
    (by decide +kernel)
  have hg : (QueryGraph.ingestNodes (exDone.prune (List.range 18).reverse) [8, 7, 5, 3] 10).get? = some
      ⟨[(.root, 0), (.partition 9 0, 4), (.field 0 0 false, 5), (.field 1 0 true, 2), (.field 2 0 false, 6)],
        [⟨0, 1, .partition⟩, ⟨1, 2, .field⟩, ⟨2, 3, .field⟩, ⟨2, 4, .field⟩]⟩ := by decide +kernel
  refine ⟨exEnv, exStart, exDone, (List.range 18).reverse, b, t, inp, _, _, ⟨1, true, 1, 8, .cons 1 .nil .nil⟩, 9, exStart_start, exDone_build, by decide, rfl,
    by decide, h, ok_of hg, ⟨2, 0, 0, false, 5, by decide +kernel, rfl, by decide +kernel⟩, ?_, by decide⟩
  rintro ⟨i, id, s, b, n, h1, h2, h3⟩
  have h0 : (exDone.prune (List.range 18).reverse).node 9 = .field 3 0 false := by decide +kernel
  rw [h0] at h1
  cases h1
  have := List.mem_of_getElem? h2
  simp at this

/-! ## A key with a nested field -/

/-- `{ user { email } }`.  Definitions: `Query.user` 0, `User.friend` 1, `User.id` 2, `User.email` 3.  Subgraph 0 has users with
their id and friend; subgraph 1 has id and email of a user with the key `friend { id }`. -/
def loopEnv : Env where
  rootType := 9
  out := fun d => if d ≤ 1 then some 8 else none
  entity := fun d => if d = 0 then 9 else 8
  resolvers := fun d => if d = 0 then [0] else if d = 1 then [] else [1]
  subgraph := id
  isLookup := fun _ => false
  connected := fun _ _ _ => false
  required := fun r => if r = 1 then some (.cons 1 (.cons 2 .nil .nil) .nil) else none
  needs := fun _ _ => none
  provides := fun _ _ => 0
  provide := fun p _ _ d => if p.resolver = 0 ∧ (d = 1 ∨ d = 2) then .yes 0 else .no
  itemDef := id
  itemArgs := fun _ => 0
  argsEq := fun a _ => a = 0

def loopStart : St where
  nodes := [.root, .field ⟨0, false, true, false, false, false⟩, .field ⟨1, false, true, true, false, false⟩]
  edges := [⟨0, 1, .field⟩, ⟨1, 2, .field⟩]
  fields := [⟨some 0, 0, none⟩, ⟨some 3, 0, none⟩]
  tasks := []
  reqs := []
  unplannable := []

theorem loopStart_start : Start loopEnv loopStart := by
  have hn : ∀ (n : Nat) (v : Node), loopStart.nodes[n]? = some v → n ≠ 0 → n = 1 ∧ v = .field ⟨0, false, true, false, false, false⟩ ∨
      n = 2 ∧ v = .field ⟨1, false, true, true, false, false⟩ := by
    intro n v h h0
    match n, h with
    | 1, h => cases h; exact .inl ⟨rfl, rfl⟩
    | 2, h => cases h; exact .inr ⟨rfl, rfl⟩
    | n + 3, h => cases h
  have hf : ∀ n f, loopStart.Field n f → n = 1 ∧ f.id = 0 ∨ n = 2 ∧ f.id = 1 := by
    intro n f h
    have h0 : n ≠ 0 := by rintro rfl; cases h
    rcases hn n _ h h0 with ⟨h1, h2⟩ | ⟨h1, h2⟩ <;> cases h2 <;> simp [h1]
  have d1 : loopStart.Def 1 (some 0) 0 := ⟨_, _, rfl, rfl, rfl, rfl⟩
  have d2 : loopStart.Def 2 (some 3) 0 := ⟨_, _, rfl, rfl, rfl, rfl⟩
  refine ⟨rfl, fun n v h h0 => ?_, fun n m f f' h h' hi => ?_, fun e he => ?_, fun n f h => ?_, fun i j e e' hi hj hd => ?_, by decide, rfl, rfl, by simp [loopStart]⟩
  · rcases hn n v h h0 with ⟨-, rfl⟩ | ⟨-, rfl⟩
    · exact ⟨_, _, rfl, rfl, rfl, rfl, by simp [loopEnv]⟩
    · exact ⟨_, _, rfl, rfl, rfl, rfl, by simp [loopEnv]⟩
  · rcases hf n f h with ⟨h1, h2⟩ | ⟨h1, h2⟩ <;> rcases hf m f' h' with ⟨h3, h4⟩ | ⟨h3, h4⟩ <;> omega
  · simp only [loopStart, List.mem_cons, List.not_mem_nil, or_false] at he
    rcases he with rfl | rfl
    · exact ⟨by decide, ⟨9, .root⟩, .inl ⟨rfl, 0, 0, d1⟩⟩
    · exact ⟨by decide, ⟨8, .field d1 rfl⟩, .inl ⟨rfl, 3, 0, d2⟩⟩
  · rcases hf n f h with ⟨rfl, -⟩ | ⟨rfl, -⟩
    · exact ⟨0, .inl (by decide)⟩
    · exact ⟨1, .inl (by decide)⟩
  · have key : ∀ (i : Nat) (e : SEdge), loopStart.edges[i]? = some e → e.dst = i + 1 := by
      intro i e h
      match i, h with
      | 0, h => cases h; rfl
      | 1, h => cases h; rfl
      | i + 2, h => cases h
    have h1 := key i e hi
    have h2 := key j e' hj
    omega

/-- A user from the first subgraph with an email or an id has a friend, as the second subgraph needs one for it; and the friend
has an id. -/
theorem loop_step {st : St} (hb : build loopEnv fuel loopStart = .ok st) {g s n d args : Nat} {p : PNode} (ho : Output loopEnv st g 8) (hp : st.Provider s p)
    (h0 : p.resolver = 0) (hs : st.Edge s g .provides) (hc : st.Edge g n .field) (hd : st.Def n (some d) args) (hd' : d = 2 ∨ d = 3) :
    ∃ g' s' n' p', g < g' ∧ Output loopEnv st g' 8 ∧ st.Provider s' p' ∧ p'.resolver = 0 ∧ st.Edge s' g' .provides ∧ st.Edge g' n' .field ∧
      ∃ args, st.Def n' (some 2) args := by
  have hr := (C67_complete loopStart_start hb (.inl hc) (.provider hp hs)).resolver 8 d args 1 ho hd (by rcases hd' with rfl | rfl <;> decide) (fun h => by cases h) ?_
  · obtain ⟨i, h1, h2, _⟩ := hr
    obtain ⟨⟨f, fn, fl, a1, a2, a3, a4, a5, a6⟩, _⟩ := (C67_requirements loopStart_start hb).2.1 g i 1 _ h2 h1 rfl
    have hdf : st.Def f (some 1) fl.args := ⟨fn, fl, a3, a4, a5.1, rfl⟩
    rcases a6 rfl with ⟨q, hq, _⟩ | ⟨⟨c, cn, cl, b1, b2, b3, b4, b5, b6⟩, _⟩
    · cases hq
    · have hcd : st.Def c (some 2) cl.args := ⟨cn, cl, b3, b4, b5.1, rfl⟩
      obtain ⟨j, p', c1, c2, c3, c4, c5⟩ := (C67_complete loopStart_start hb (.inl a1) (.provider hp hs)).source 8 1 fl.args p 0 ho hdf hp (by simp [loopEnv, h0])
      exact ⟨f, j, c, p', field_src (final loopStart_start hb).1.shape (.inl a1), .field hdf rfl, c1, c2.trans h0, c5, b1, _, hcd⟩
  · intro p' hp'
    simp only [St.Provider] at hp hp'
    rw [hp] at hp'
    cases hp'
    refine ⟨?_, fun _ _ => by simp [loopEnv, h0]⟩
    simp only [loopEnv]
    split <;> simp

/-- Building the space does not end if a key has a nested field that the subgraph has the same key for. -/
theorem C67_diverges : ∃ E st, Start E st ∧ ∀ fuel, build E fuel st = .timeout := by
  refine ⟨loopEnv, loopStart, loopStart_start, fun fuel => ?_⟩
  rcases C67_no_panic loopStart_start (fuel := fuel) with h | ⟨st, hb⟩
  · exact h
  · exfalso
    obtain ⟨hi, hg⟩ := final loopStart_start hb
    have key : ∀ k g s n d args p, st.nodes.length - g ≤ k → Output loopEnv st g 8 → st.Provider s p → p.resolver = 0 → st.Edge s g .provides →
        st.Edge g n .field → st.Def n (some d) args → (d = 2 ∨ d = 3) → False := by
      intro k
      induction k with
      | zero =>
        intro g s n d args p hk ho hp h0 hs hc hd hd'
        have := exists_lt (ho.exists hi.shape.root)
        omega
      | succ k ih =>
        intro g s n d args p hk ho hp h0 hs hc hd hd'
        obtain ⟨g', s', n', p', h1, h2, h3, h4, h5, h6, args', h7⟩ := loop_step hb ho hp h0 hs hc hd hd'
        have := exists_lt (h2.exists hi.shape.root)
        exact ih g' s' n' 2 args' p' (by omega) h2 h3 h4 h5 h6 h7 (.inl rfl)
    have hd1 : st.Def 1 (some 0) 0 := hg.def ⟨_, _, rfl, rfl, rfl, rfl⟩
    have hd2 : st.Def 2 (some 3) 0 := hg.def ⟨_, _, rfl, rfl, rfl, rfl⟩
    obtain ⟨i, _, _, _, j, p, h1, h2, _, h3⟩ := (C67_complete loopStart_start hb (hg.child (.inl (by decide) : Child loopStart 0 1)) .root).resolver 9 0 0 0 .root hd1
      (by decide) (by decide) fun p hp => by simp only [St.Provider, hi.shape.root] at hp; cases hp
    exact key st.nodes.length 1 j 2 3 0 p (by omega) (.field hd1 rfl) h1 h2 h3 (hg.edge (by decide)) hd2 (.inr rfl)

end Verif.SpaceBuilder
