import Verif.SpaceBuilder.Run
import Verif.QueryGraph.Plan
/-!
# Pruning
-/
namespace Verif.SpaceBuilder

open Verif.QueryGraph (Kind SEdge)
open Verif.Updater (Out)

variable {E : Env} {st st' st'' : St} {vs : List Node} {es : List SEdge} {L L' : List Task} {R R' : List Req} {Q : List Req} {t : Task} {q : Req}

/-- What the search finds. -/
inductive Found (st : St) : Nat → Prop
  | seed {n : Nat} : n ∈ st.seeds → Found st n
  | step {e : SEdge} : e ∈ st.edges → follows e.kind = true → Found st e.dst → Found st e.src

theorem search_spec {fuel : Nat} {visited stack : List Nat}
    (hfuel : stack.length + (st.edges.filter fun e => decide (e.dst ∉ visited)).length ≤ fuel)
    (hv : ∀ n ∈ visited, Found st n) (hs : ∀ n ∈ stack, Found st n)
    (hc : ∀ e ∈ st.edges, follows e.kind = true → e.dst ∈ visited → e.src ∈ visited ∨ e.src ∈ stack) :
    ∃ v, search st fuel visited stack = some v ∧ (∀ n ∈ v, Found st n) ∧ (∀ n ∈ visited, n ∈ v) ∧ (∀ n ∈ stack, n ∈ v) ∧
      ∀ e ∈ st.edges, follows e.kind = true → e.dst ∈ v → e.src ∈ v := by
  induction fuel generalizing visited stack with
  | zero =>
    cases stack with
    | nil =>
      refine ⟨visited, by simp [search], hv, fun n h => h, by simp, fun e h1 h2 h3 => ?_⟩
      exact (hc e h1 h2 h3).elim id (by simp)
    | cons n stack => simp only [List.length_cons] at hfuel; omega
  | succ fuel ih =>
    cases stack with
    | nil =>
      refine ⟨visited, by simp [search], hv, fun n h => h, by simp, fun e h1 h2 h3 => ?_⟩
      exact (hc e h1 h2 h3).elim id (by simp)
    | cons n stack =>
      simp only [List.length_cons] at hfuel
      simp only [search]
      split
      · rename_i hn
        obtain ⟨v, h1, h2, h3, h4, h5⟩ := ih (visited := visited) (stack := stack) (by omega) hv (fun m hm => hs m (by simp [hm])) fun e h1 h2 h3 => by
          rcases hc e h1 h2 h3 with h | h
          · exact .inl h
          · rcases List.mem_cons.1 h with h | h
            · exact .inl (by rw [h]; exact hn)
            · exact .inr h
        refine ⟨v, h1, h2, h3, fun m hm => ?_, h5⟩
        rcases List.mem_cons.1 hm with rfl | hm
        · exact h3 _ hn
        · exact h4 m hm
      · rename_i hn
        have hlen : ((((st.incoming n).filter fun e => follows e.kind).map (·.src)).reverse ++ stack).length +
            (st.edges.filter fun e => decide (e.dst ∉ n :: visited)).length ≤ fuel := by
          have h1 : ((st.incoming n).filter fun e => follows e.kind).length ≤ (st.edges.filter fun e => decide (e.dst = n)).length := by
            refine Nat.le_trans (List.length_filter_le _ _) ?_
            simp [St.incoming, List.filter_reverse]
          have h2 : ∀ l : List SEdge, (l.filter fun e => decide (e.dst = n)).length + (l.filter fun e => decide (e.dst ∉ n :: visited)).length ≤
              (l.filter fun e => decide (e.dst ∉ visited)).length := by
            intro l
            induction l with
            | nil => simp
            | cons e l ih =>
              by_cases he : e.dst = n
              · have h3 : e.dst ∉ visited := by rw [he]; exact hn
                simp only [List.filter_cons, he, decide_true, if_true, List.mem_cons, true_or, not_true, decide_false, Bool.false_eq_true, if_false, hn,
                  not_false_eq_true, List.length_cons] at ih ⊢
                omega
              · by_cases h3 : e.dst ∈ visited
                · simp only [List.filter_cons, he, decide_false, Bool.false_eq_true, if_false, List.mem_cons, h3, or_true, not_true] at ih ⊢
                  omega
                · simp only [List.filter_cons, he, decide_false, Bool.false_eq_true, if_false, List.mem_cons, h3, or_self, not_false_eq_true, decide_true,
                    if_true, List.length_cons] at ih ⊢
                  omega
          have := h2 st.edges
          simp only [List.length_append, List.length_reverse, List.length_map]
          omega
        have hnf : Found st n := hs n (by simp)
        obtain ⟨v, h1, h2, h3, h4, h5⟩ := ih hlen (fun m hm => by
            rcases List.mem_cons.1 hm with rfl | hm
            · exact hnf
            · exact hv m hm)
          (fun m hm => by
            simp only [List.mem_append, List.mem_reverse, List.mem_map, List.mem_filter, mem_incoming] at hm
            rcases hm with ⟨e, ⟨⟨h1, h2⟩, h3⟩, rfl⟩ | hm
            · exact .step h1 h3 (by rw [h2]; exact hnf)
            · exact hs m (by simp [hm]))
          (fun e h1 h2 h3 => by
            rcases List.mem_cons.1 h3 with h3 | h3
            · right
              simp only [List.mem_append, List.mem_reverse, List.mem_map, List.mem_filter, mem_incoming]
              exact .inl ⟨e, ⟨⟨h1, h3⟩, h2⟩, rfl⟩
            · rcases hc e h1 h2 h3 with h | h
              · exact .inl (by simp [h])
              · rcases List.mem_cons.1 h with h | h
                · exact .inl (by simp [h])
                · exact .inr (by simp [h]))
        refine ⟨v, h1, h2, fun m hm => h3 m (by simp [hm]), fun m hm => ?_, h5⟩
        rcases List.mem_cons.1 hm with rfl | hm
        · exact h3 _ (by simp)
        · exact h4 m (by simp [hm])

theorem mem_visited {n : Nat} : n ∈ st.visited ↔ Found st n := by
  obtain ⟨v, h1, h2, -, h4, h5⟩ := search_spec (st := st) (fuel := st.seeds.length + st.edges.length) (visited := []) (stack := st.seeds.reverse)
    (by simp [List.length_filter_le]) (by simp) (fun n hn => .seed (by simpa using hn)) (by simp)
  have : st.visited = v := by simp [St.visited, h1]
  rw [this]
  refine ⟨h2 n, fun h => ?_⟩
  induction h with
  | seed h => exact h4 _ (by simpa using h)
  | step h1 h2 _ ih => exact h5 _ h1 h2 ih

theorem isTypename_eq (hs : Shape E st) {n : Nat} {f : FNode} (hf : st.Field n f) : st.isTypename f = true ↔ ∃ args, st.Def n none args := by
  obtain ⟨fl, h1, _⟩ := hs.ids n f hf
  simp only [St.isTypename, h1, Option.map_some, Option.getD_some]
  constructor
  · intro h
    exact ⟨fl.args, f, fl, hf, h1, by simpa using h, rfl⟩
  · rintro ⟨args, f', fl', a1, a2, a3, _⟩
    simp only [St.Field] at hf a1
    rw [hf] at a1
    cases a1
    rw [h1] at a2
    cases a2
    simp [a3]

theorem not_typename (hs : Shape E st) {n : Nat} {f : FNode} (hf : st.Field n f) (h : st.isTypename f = false) : ∃ d args, st.Def n (some d) args := by
  obtain ⟨fl, h1, _⟩ := hs.ids n f hf
  cases hd : fl.definition with
  | none =>
    have := (isTypename_eq hs hf).2 ⟨fl.args, f, fl, hf, h1, hd, rfl⟩
    rw [h] at this
    cases this
  | some d => exact ⟨d, fl.args, f, fl, hf, h1, hd, rfl⟩

theorem bareParent_some (hs : Shape E st) {n m : Nat} (h : st.bareParent n = some m) : st.Edge m n .typename ∧ (∃ f, st.Field m f) ∧
    ∀ c, ¬ st.Edge m c .field := by
  unfold St.bareParent at h
  split at h
  · rename_i e he
    obtain ⟨h1, h2⟩ := And.intro (List.find?_some he) (List.mem_of_find?_eq_some he)
    rw [mem_incoming] at h2
    simp only [Bool.and_eq_true, decide_eq_true_eq] at h1
    split at h
    · cases h
    · rename_i ha
      cases h
      obtain ⟨f, hf⟩ := Option.isSome_iff_exists.1 h1.2
      refine ⟨?_, ⟨f, asField_eq.1 hf⟩, fun c hc => ha ?_⟩
      · obtain ⟨a, b, k⟩ := e
        simp only at h1 h2
        rw [← h1.1, ← h2.2]
        exact h2.1
      · rw [List.any_eq_true]
        exact ⟨_, mem_outgoing.2 ⟨hc, rfl⟩, by simp⟩
  · cases h

/-- The typename edge of a field is the only one. -/
theorem bareParent_of (hs : Shape E st) {n m : Nat} {f : FNode} (h1 : st.Edge m n .typename) (hf : st.Field m f) (h2 : ∀ c, ¬ st.Edge m c .field) :
    st.bareParent n = some m := by
  unfold St.bareParent
  have huniq : ∀ e ∈ st.incoming n, e.kind = .typename → e.src = m := by
    intro e he hk
    rw [mem_incoming] at he
    obtain ⟨i, hi⟩ := List.mem_iff_getElem?.1 he.1
    obtain ⟨j, hj⟩ := List.mem_iff_getElem?.1 h1
    have := hs.typenameOnce i j _ _ hi hj hk rfl he.2
    subst this
    rw [hi] at hj
    cases hj
    rfl
  split
  · rename_i e he
    have h3 := List.find?_some he
    have h4 := List.mem_of_find?_eq_some he
    simp only [Bool.and_eq_true, decide_eq_true_eq] at h3
    have h5 := huniq e h4 h3.1
    rw [if_neg, h5]
    intro ha
    rw [List.any_eq_true] at ha
    obtain ⟨⟨a, b, k⟩, h6, h7⟩ := ha
    rw [mem_outgoing] at h6
    simp only [decide_eq_true_eq] at h7 h6
    rw [h5] at h6
    obtain ⟨h6, rfl⟩ := h6
    subst h7
    exact h2 _ h6
  · rename_i he
    rw [List.find?_eq_none] at he
    have := he _ (mem_incoming.2 ⟨h1, rfl⟩)
    simp [asField_eq.2 hf] at this

theorem bare_iff (hs : Shape E st) {m : Nat} : m ∈ st.bare ↔ ∃ n, st.Edge m n .typename ∧ (∃ f, st.Field m f) ∧ ∀ c, ¬ st.Edge m c .field := by
  simp only [St.bare, List.mem_filterMap, List.mem_range]
  constructor
  · rintro ⟨n, h1, h2⟩
    split at h2
    · split at h2
      · exact ⟨n, bareParent_some hs h2⟩
      · cases h2
    · cases h2
  · rintro ⟨n, h1, ⟨f, h2⟩, h3⟩
    obtain ⟨_, ⟨args, h4⟩, _⟩ := hs.edge _ h1
    have h5 := h4
    obtain ⟨fn, _, h6, _⟩ := h5
    refine ⟨n, exists_lt ⟨_, h6⟩, ?_⟩
    rw [asField_eq.2 h6]
    simp only [(isTypename_eq hs h6).2 ⟨args, h4⟩, if_true]
    exact bareParent_of hs h1 h2 h3

theorem composite_of_typename (hs : Shape E st) {m n : Nat} {f : FNode} (h : st.Edge m n .typename) (hf : st.Field m f) :
    ∃ d args, st.Def m (some d) args ∧ (E.out d).isSome := by
  obtain ⟨⟨o, h1⟩, _⟩ := hs.edge _ h
  simp only at h1
  cases h1 with
  | root => simp only [St.Field, hs.root] at hf; cases hf
  | field hd ho => exact ⟨_, _, hd, by simp [ho]⟩

theorem mem_seeds (hs : Shape E st) {n : Nat} : n ∈ st.seeds ↔ IsLeaf E st n := by
  have hb := bare_iff hs (m := n)
  simp only [St.bare, List.mem_filterMap, List.mem_range] at hb
  simp only [St.seeds, List.mem_filterMap, List.mem_range]
  constructor
  · rintro ⟨m, h1, h2⟩
    split at h2
    · rename_i f hf
      rw [asField_eq] at hf
      split at h2
      · rename_i ht
        obtain ⟨a1, ⟨f', a2⟩, a3⟩ := bareParent_some hs h2
        obtain ⟨d, args, a4, _⟩ := composite_of_typename hs a1 a2
        exact .bare a4 a1 a3
      · rename_i ht
        split at h2
        · rename_i hl
          cases h2
          obtain ⟨fl, b1, b2⟩ := hs.ids _ f hf
          obtain ⟨d, b3, b4⟩ := b2.1 hl
          exact .scalar ⟨f, fl, hf, b1, b3, rfl⟩ b4
        · cases h2
    · cases h2
  · intro h
    cases h with
    | scalar hd ho =>
      obtain ⟨f, fl, a1, a2, a3, a4⟩ := id hd
      refine ⟨n, exists_lt ⟨_, a1⟩, ?_⟩
      rw [asField_eq.2 a1]
      have h1 : st.isTypename f = false := by
        cases h : st.isTypename f with
        | false => rfl
        | true =>
          obtain ⟨args, h⟩ := (isTypename_eq hs a1).1 h
          cases (def_unique hd h).1
      obtain ⟨fl', b1, b2⟩ := hs.ids n f a1
      rw [a2] at b1
      cases b1
      simp [h1, b2.2 ⟨_, a3, ho⟩]
    | bare hd h1 h2 =>
      obtain ⟨f, fl, a1, a2, a3, a4⟩ := hd
      obtain ⟨m, c1, c2⟩ := hb.2 ⟨_, h1, ⟨f, a1⟩, h2⟩
      refine ⟨m, c1, ?_⟩
      split at c2
      · rename_i f' hf'
        split at c2
        · rename_i ht
          simp [ht, c2]
        · cases c2
      · cases c2

theorem Source.not_field (hs : Shape E st) {g s : Nat} {f : FNode} (h : Source st g s) : ¬ st.Field s f := by
  intro hf
  cases h with
  | root => simp only [St.Field, hs.root] at hf; cases hf
  | provider hp _ => simp only [St.Field, St.Provider] at hf hp; rw [hf] at hp; cases hp

theorem Source.not_resolver (hs : Shape E st) {g s r : Nat} (h : Source st g s) : ¬ st.Resolver s r := by
  rintro ⟨_, hf⟩
  cases h with
  | root => rw [hs.root] at hf; cases hf
  | provider hp _ => simp only [St.Provider] at hp; rw [hf] at hp; cases hp

theorem canProvide_not_field {n f : Nat} {p : PNode} {v : FNode} (h : CanProvide E st n f p) : ¬ st.Field n v := by
  intro hf
  cases h with
  | parent _ _ _ hp => simp only [St.Field, St.Provider] at hf hp; rw [hf] at hp; cases hp
  | resolver _ _ _ hr => obtain ⟨_, hr⟩ := hr; simp only [St.Field] at hf; rw [hf] at hr; cases hr

theorem Leads.not_typename (hs : Shape E st) {n args : Nat} (h : Leads E st n) : ¬ st.Def n none args := by
  intro hd
  have hf := hd
  obtain ⟨f, _, hf, _⟩ := hf
  cases h with
  | leaf h =>
    cases h with
    | scalar h _ => cases (def_unique hd h).1
    | bare h _ _ => cases (def_unique hd h).1
  | create h _ =>
    obtain ⟨_, g, _, h⟩ := hs.edge _ h
    exact h.not_field hs hf
  | canProvide h _ =>
    obtain ⟨p, f', _, _, h⟩ := hs.edge _ h
    exact canProvide_not_field h hf
  | provides h _ =>
    obtain ⟨⟨p, _, hp, _⟩, _⟩ := hs.edge _ h
    simp only [St.Field, St.Provider] at hf hp
    rw [hf] at hp
    cases hp

theorem found_iff (hs : Shape E st) {n : Nat} : Found st n ↔ Leads E st n := by
  constructor
  · intro h
    induction h with
    | seed h => exact .leaf ((mem_seeds hs).1 h)
    | @step e h1 h2 _ ih =>
      have h3 := hs.edge e h1
      unfold EdgeOk at h3
      obtain ⟨a, b, k⟩ := e
      simp only at h1 h2 h3 ih ⊢
      cases k with
      | createChildResolver => exact .create h1 ih
      | canProvide => exact .canProvide h1 ih
      | provides => exact .provides h1 ih
      | typename =>
        obtain ⟨_, ⟨args, h4⟩, _⟩ := h3
        exact absurd h4 (ih.not_typename hs)
      | _ => simp [follows] at h2
  · intro h
    induction h with
    | leaf h => exact .seed ((mem_seeds hs).2 h)
    | create h1 _ ih => exact .step h1 rfl ih
    | canProvide h1 _ ih => exact .step h1 rfl ih
    | provides h1 _ ih => exact .step h1 rfl ih

theorem mem_visited_leads (hs : Shape E st) {n : Nat} : n ∈ st.visited ↔ Leads E st n := mem_visited.trans (found_iff hs)

/-- What stays. -/
theorem kept_iff (hs : Shape E st) {n : Nat} : st.kept st.visited n = true ↔
    n < st.nodes.length ∧ (((∃ r, st.Resolver n r) ∨ ∃ p, st.Provider n p) → Leads E st n) := by
  unfold St.kept St.Resolver St.Provider
  cases h : st.nodes[n]? with
  | none =>
    have := List.getElem?_eq_none_iff.1 h
    simp only [Bool.false_eq_true, false_iff]
    omega
  | some v =>
    have hl := exists_lt ⟨v, h⟩
    cases v with
    | root => simp [Node.kept, hl]
    | field f => simp [Node.kept, hl]
    | resolver e d => simp [Node.kept, hl, mem_visited_leads hs]
    | providable p => simp [Node.kept, hl, mem_visited_leads hs]

theorem prune_node (order : List Nat) (n : Nat) : (st.prune order).node n =
    match st.nodes[n]? with
    | some v => if v.kept st.visited n then st.show v else .gone
    | none => .gone := by
  simp only [QueryGraph.Space.node, St.prune, List.getElem?_mapIdx]
  cases st.nodes[n]? <;> simp

theorem prune_edge (hs : Shape E st) {order : List Nat} {a b : Nat} {k : Kind} (hk : k ≠ .gone) : ⟨a, b, k⟩ ∈ (st.prune order).edges ↔
    st.Edge a b k ∧ st.kept st.visited a = true ∧ st.kept st.visited b = true := by
  simp only [St.prune, List.mem_map]
  constructor
  · rintro ⟨e, he, h⟩
    split at h
    · rename_i hk'
      subst h
      exact ⟨he, by simpa using hk'⟩
    · cases h
      exact absurd rfl hk
  · rintro ⟨h1, h2, h3⟩
    exact ⟨_, h1, by simp [h2, h3]⟩

theorem kept_leads (hs : Shape E st) {n : Nat} (h : Leads E st n) : st.kept st.visited n = true := by
  rw [kept_iff hs]
  refine ⟨?_, fun _ => h⟩
  cases h with
  | leaf h =>
    cases h with
    | scalar h _ => obtain ⟨f, _, h, _⟩ := h; exact exists_lt ⟨_, h⟩
    | bare h _ _ => obtain ⟨f, _, h, _⟩ := h; exact exists_lt ⟨_, h⟩
  | create h _ => obtain ⟨_, g, _, h⟩ := hs.edge _ h; exact exists_lt (h.exists hs.root)
  | canProvide h _ =>
    obtain ⟨p, f, _, _, h⟩ := hs.edge _ h
    cases h with
    | parent _ _ _ h => exact exists_lt ⟨_, h⟩
    | resolver _ _ _ h => obtain ⟨_, h⟩ := h; exact exists_lt ⟨_, h⟩
  | provides h _ => obtain ⟨⟨p, _, h, _⟩, _⟩ := hs.edge _ h; exact exists_lt ⟨_, h⟩

theorem kept_field (hs : Shape E st) {n : Nat} {f : FNode} (h : st.Field n f) : st.kept st.visited n = true := by
  simp only [St.Field] at h
  simp [St.kept, h, Node.kept]

theorem kept_root (hs : Shape E st) : st.kept st.visited 0 = true := by simp [St.kept, hs.root, Node.kept]

theorem prune_kept {order : List Nat} {n : Nat} {v : Node} (h : st.nodes[n]? = some v) (hk : st.kept st.visited n = true) :
    (st.prune order).node n = st.show v := by
  rw [prune_node, h]
  simp only [St.kept, h] at hk
  simp [hk]

theorem prune_resolver {order : List Nat} {n r : Nat} (h : st.Resolver n r) (hk : st.kept st.visited n = true) : ((st.prune order).node n).IsResolver := by
  obtain ⟨e, h⟩ := h
  exact ⟨e, r, prune_kept h hk⟩

theorem prune_provider {order : List Nat} {n : Nat} {p : PNode} (h : st.Provider n p) (hk : st.kept st.visited n = true) : (st.prune order).node n = .providable :=
  prune_kept h hk

theorem prune_def (hs : Shape E st) {order : List Nat} {n : Nat} {d : Option Nat} {args : Nat} (h : st.Def n d args) :
    ((st.prune order).node n).IsField d.isNone := by
  have h' := h
  obtain ⟨f, _, hf, _⟩ := h'
  refine ⟨f.id, 0, ?_⟩
  rw [prune_kept hf (kept_field hs hf)]
  simp only [St.show, QueryGraph.Node.field.injEq, true_and]
  cases d with
  | none => exact (isTypename_eq hs hf).2 ⟨args, h⟩
  | some d =>
    cases ht : st.isTypename f with
    | false => rfl
    | true =>
      obtain ⟨_, h1⟩ := (isTypename_eq hs hf).1 ht
      cases (def_unique h h1).1

theorem def_of_field (hs : Shape E st) {n : Nat} {f : FNode} (h : st.Field n f) : ∃ d args, st.Def n d args := by
  obtain ⟨fl, h1, _⟩ := hs.ids n f h
  exact ⟨_, _, f, fl, h, h1, rfl, rfl⟩

theorem Output.not_typename (hs : Shape E st) {n o args : Nat} (h : Output E st n o) : ¬ st.Def n none args := by
  intro hd
  cases h with
  | root => obtain ⟨f, _, hf, _⟩ := hd; simp only [St.Field, hs.root] at hf; cases hf
  | field h _ => cases (def_unique hd h).1

/-- The pruned space is one the rest can work with. -/
theorem prune_typed (hs : Shape E st) {order : List Nat} (ho : order.Nodup) (hc : ∀ e, e < st.edges.length → e ∈ order) : (st.prune order).Typed := by
  have hedge : ∀ d ∈ (st.prune order).edges, d.kind ≠ .gone → st.Edge d.src d.dst d.kind ∧ st.kept st.visited d.src = true ∧ st.kept st.visited d.dst = true :=
    fun d hd hk => (prune_edge hs hk).1 hd
  refine ⟨ho, fun e he => hc e (by simpa [St.prune] using he), prune_kept hs.root (kept_root hs), ?_, ?_, ?_, ?_, ?_, ?_, ?_, ?_⟩
  · intro d hd hk
    obtain ⟨h1, h2, h3⟩ := hedge d hd (by rw [hk]; simp)
    rw [hk] at h1
    obtain ⟨⟨r, h4⟩, g, _, h5⟩ := hs.edge _ h1
    refine ⟨prune_resolver h4 h3, ?_⟩
    simp only at h5
    generalize d.src = a at h2 h5
    cases h5 with
    | root => exact .inl rfl
    | provider hp _ => exact .inr (prune_provider hp h2)
  · intro d hd hk
    obtain ⟨h1, h2, h3⟩ := hedge d hd (by rw [hk]; simp)
    rw [hk] at h1
    obtain ⟨p, f, h4, _, h5⟩ := hs.edge _ h1
    refine ⟨prune_provider h4 h3, ?_⟩
    cases h5 with
    | parent _ _ _ h => exact .inr (prune_provider h h2)
    | resolver _ _ _ h => exact .inl (prune_resolver h h2)
  · intro d hd hk
    obtain ⟨h1, h2, h3⟩ := hedge d hd (by rw [hk]; simp)
    rw [hk] at h1
    obtain ⟨⟨p, f, h4, _⟩, ⟨df, args, h5⟩, _⟩ := hs.edge _ h1
    exact ⟨prune_provider h4 h2, prune_def hs h5⟩
  · intro d hd d' hd' hk hk' heq
    have h1 := (hedge d hd (by rw [hk]; simp)).1
    have h2 := (hedge d' hd' (by rw [hk']; simp)).1
    rw [hk] at h1
    rw [hk', ← heq] at h2
    exact hs.one _ _ _ h1 h2
  · intro n hn
    rw [prune_node] at hn
    split at hn
    · rename_i v hv
      split at hn
      · rename_i hk
        cases v with
        | providable p =>
          obtain ⟨f, hf⟩ := hs.some n p hv
          obtain ⟨⟨_, f', _, h4, _⟩, _⟩ := hs.edge _ hf
          exact ⟨f, (prune_edge hs (by simp)).2 ⟨hf, by simp only [St.kept, hv]; exact hk, kept_field hs h4⟩⟩
        | _ => simp [St.show] at hn
      · cases hn
    · cases hn
  · intro d hd hk
    obtain ⟨h1, h2, h3⟩ := hedge d hd (by rw [hk]; simp)
    rw [hk] at h1
    obtain ⟨⟨o, h4⟩, ⟨args, h5⟩, h6, _⟩ := hs.edge _ h1
    refine ⟨prune_def hs h5, ?_⟩
    rcases h6 with h6 | ⟨f, h6, _⟩
    · exact .inl h6
    · right
      obtain ⟨df, args', h7⟩ := def_of_field hs h6
      cases df with
      | none => exact (h4.not_typename hs h7).elim
      | some df => exact prune_def hs h7
  · intro i j d d' hi hj hk hk' heq
    simp only [St.prune, List.getElem?_map, Option.map_eq_some_iff] at hi hj
    obtain ⟨e, hi, rfl⟩ := hi
    obtain ⟨e', hj, rfl⟩ := hj
    split at hk
    · rename_i hc1
      split at hk'
      · rename_i hc2
        simp only [hc1, if_true, hc2] at heq
        exact hs.typenameOnce i j e e' hi hj hk hk' heq
      · cases hk'
    · cases hk
  · intro d hd hk
    obtain ⟨h1, h2, h3⟩ := hedge d hd (by rw [hk]; simp)
    rw [hk] at h1
    obtain ⟨⟨f, h4⟩, _⟩ := hs.edge _ h1
    obtain ⟨df, args, h5⟩ := def_of_field hs h4
    exact ⟨_, prune_def hs h5⟩

/-- Reachable from the root, with resolvers and providers. -/
inductive SReach (st : St) : Nat → Prop
  | root : SReach st 0
  | step {a b : Nat} {k : Kind} : SReach st a → k.IsStep → st.Edge a b k → SReach st b

theorem canProvide_reach (hs : Shape E st) {g a f : Nat} {p : PNode} (hall : ∀ g' s, Source st g' s → SReach st s) (h : CanProvide E st a f p) :
    SReach st a := by
  cases h with
  | parent _ _ _ _ h => exact hall _ _ h
  | resolver _ _ _ _ h =>
    obtain ⟨_, _, s, h1, h2⟩ := hs.edge _ h
    exact .step (hall _ _ h2) (.inl rfl) h1

theorem field_src (hs : Shape E st) {g n : Nat} (h : Child st g n) : g < n := by
  rcases h with h | h
  · exact (hs.edge _ h).2.2.2
  · exact (hs.edge _ h).2.2.2

theorem source_reach (hs : Shape E st) {g s : Nat} (h : Source st g s) : SReach st s := by
  induction g using Nat.strongRecOn generalizing s with
  | _ g ih =>
    cases h with
    | root => exact .root
    | provider hp he =>
      obtain ⟨_, _, a, ha⟩ := hs.edge _ he
      obtain ⟨p, f, h1, h2, h3⟩ := hs.edge _ ha
      simp only at h1 h2 h3 ha
      cases hs.one _ _ _ h2 he
      refine .step ?_ (.inr (.inl rfl)) ha
      cases h3 with
      | parent hg _ _ _ h => exact ih _ (field_src hs (.inl hg)) h
      | resolver hg _ _ _ h =>
        obtain ⟨_, _, s, h1, h2⟩ := hs.edge _ h
        exact .step (ih _ (field_src hs (.inl hg)) h2) (.inl rfl) h1

theorem step_reach (hs : Shape E st) {a b : Nat} {k : Kind} (hk : k.IsStep) (h : st.Edge a b k) : SReach st a := by
  rcases hk with rfl | rfl | rfl
  · obtain ⟨_, g, _, h⟩ := hs.edge _ h
    exact source_reach hs h
  · obtain ⟨p, f, _, _, h⟩ := hs.edge _ h
    exact canProvide_reach (g := 0) hs (fun _ _ => source_reach hs) h
  · obtain ⟨⟨p, _, h1, _⟩, _⟩ := hs.edge _ h
    exact source_reach hs (.provider h1 h)

theorem leads_step {a b : Nat} {k : Kind} (hk : k.IsStep) (h : st.Edge a b k) (hb : Leads E st b) : Leads E st a := by
  rcases hk with rfl | rfl | rfl
  · exact .create h hb
  · exact .canProvide h hb
  · exact .provides h hb

/-- What leads to a leaf is still reachable. -/
theorem reach_pruned (hs : Shape E st) {order : List Nat} {leaf : List (Nat × Bool)} {n : Nat} (h : SReach st n) (hl : Leads E st n) :
    SteinerInput.Reach ((st.prune order).steiner leaf) ((st.prune order).steiner leaf).steps n := by
  induction h with
  | root => exact .root
  | @step a b k _ hk he ih =>
    have hla := leads_step hk he hl
    have hm : (⟨a, b, k⟩ : SEdge) ∈ (st.prune order).edges :=
      (prune_edge hs (by rcases hk with rfl | rfl | rfl <;> simp)).2 ⟨he, kept_leads hs hla, kept_leads hs hl⟩
    obtain ⟨i, hi⟩ := List.mem_iff_getElem?.1 hm
    have hi' : ((st.prune order).steiner leaf).edges[i]? = some (SEdge.steiner ⟨a, b, k⟩) := by
      simp [QueryGraph.Space.steiner, hi]
    have := @SteinerInput.Reach.step ((st.prune order).steiner leaf) ((st.prune order).steiner leaf).steps i ?_ ?_
    · simpa [SteinerInput.Space.dst, hi', SEdge.steiner] using this
    · simp only [SteinerInput.Space.steps, List.mem_filter, List.mem_range]
      refine ⟨(List.getElem?_eq_some_iff.1 hi').1, ?_⟩
      rcases hk with rfl | rfl | rfl <;> simp [SteinerInput.Space.kind, hi', SEdge.steiner, QueryGraph.Kind.steiner, SteinerInput.Kind.isParent]
    · simpa [SteinerInput.Space.src, hi', SEdge.steiner] using ih hla

/-- Every field is provided, unless it or one it is below could not be. -/
theorem Inv.provided (h : Inv E Q st [] R) {n : Nat} {f : FNode} (hf : st.Field n f) :
    f.providable = true ∨ ∃ a g, Above st a n ∧ (g, a) ∈ st.unplannable := by
  induction n using Nat.strongRecOn generalizing f with
  | _ n ih =>
    obtain ⟨g, hg⟩ := h.shape.parent n f hf
    have hsrc : (∃ s, Source st g s) ∨ ∃ a g', Above st a g ∧ (g', a) ∈ st.unplannable := by
      obtain ⟨o, ho⟩ := h.shape.childOutput hg
      have ho' := ho
      cases ho with
      | root => exact .inl ⟨0, .root⟩
      | field hd _ =>
        obtain ⟨f', _, hf', _⟩ := id hd
        rcases ih g (field_src h.shape hg) hf' with h1 | h1
        · rcases h.shape.flagged g f' hf' h1 with ⟨_, h2⟩ | ⟨j, h2⟩
          · cases (def_unique hd h2).1
          · obtain ⟨⟨p, _, hp, _⟩, _⟩ := h.shape.edge _ h2
            exact .inl ⟨j, .provider hp h2⟩
        · exact .inr h1
    rcases hsrc with ⟨s, hs⟩ | ⟨a, g', h1, h2⟩
    · rcases h.cover g n s hg hs with ⟨t, ht, _⟩ | hc
      · cases ht
      · obtain ⟨fn, h1, h2⟩ := hc.flag
        simp only [St.Field] at hf h1
        rw [hf] at h1
        cases h1
        rcases h2 with h2 | ⟨g', h2⟩
        · exact .inl h2
        · exact .inr ⟨n, g', .refl, h2⟩
    · exact .inr ⟨a, g', .step h1 hg, h2⟩

theorem mem_leafs (hs : Shape E st) {n : Nat} {b : Bool} : (n, b) ∈ st.leafs ↔ IsLeaf E st n ∧ ∃ f, st.Field n f ∧ f.indispensable = b := by
  simp only [St.leafs, List.mem_filterMap, List.mem_range]
  constructor
  · rintro ⟨m, h1, h2⟩
    split at h2
    · rename_i f hf
      rw [asField_eq] at hf
      split at h2
      · rename_i hl
        simp only [Option.some.injEq, Prod.mk.injEq] at h2
        obtain ⟨rfl, rfl⟩ := h2
        refine ⟨?_, f, hf, rfl⟩
        simp only [Bool.or_eq_true_iff, decide_eq_true_eq] at hl
        rcases hl with hl | hl
        · obtain ⟨fl, b1, b2⟩ := hs.ids _ f hf
          obtain ⟨d, b3, b4⟩ := b2.1 hl
          exact .scalar ⟨f, fl, hf, b1, b3, rfl⟩ b4
        · obtain ⟨t, a1, ⟨f', a2⟩, a3⟩ := (bare_iff hs).1 hl
          obtain ⟨d, args, a4, _⟩ := composite_of_typename hs a1 a2
          exact .bare a4 a1 a3
      · cases h2
    · cases h2
  · rintro ⟨hl, f, hf, rfl⟩
    refine ⟨n, exists_lt ⟨_, hf⟩, ?_⟩
    rw [asField_eq.2 hf]
    have : (f.leaf || decide (n ∈ st.bare)) = true := by
      simp only [Bool.or_eq_true_iff, decide_eq_true_eq]
      cases hl with
      | scalar hd ho =>
        obtain ⟨f', fl, a1, a2, a3, a4⟩ := hd
        simp only [St.Field] at hf a1
        rw [hf] at a1
        cases a1
        obtain ⟨fl', b1, b2⟩ := hs.ids n f hf
        rw [a2] at b1
        cases b1
        exact .inl (b2.2 ⟨_, a3, ho⟩)
      | bare hd h1 h2 => exact .inr ((bare_iff hs).2 ⟨_, h1, ⟨f, hf⟩, h2⟩)
    simp [this]

theorem leafs_nodup : (st.leafs.map Prod.fst).Nodup := by
  have : st.leafs.map Prod.fst = (List.range st.nodes.length).filter fun n =>
      match st.asField n with
      | some f => f.leaf || decide (n ∈ st.bare)
      | none => false := by
    unfold St.leafs
    generalize List.range st.nodes.length = l
    induction l with
    | nil => rfl
    | cons n l ih =>
      simp only [List.filterMap_cons, List.filter_cons]
      cases st.asField n with
      | none => simpa using ih
      | some f =>
        simp only
        by_cases hb : (f.leaf || decide (n ∈ st.bare)) = true
        · simp only [hb, if_true, List.map_cons]
          rw [ih]
        · simp only [hb]
          exact ih
  rw [this]
  exact List.Pairwise.filter _ List.nodup_range

theorem IsLeaf.def {n : Nat} (h : IsLeaf E st n) : ∃ d args, st.Def n (some d) args := by
  cases h with
  | scalar h _ => exact ⟨_, _, h⟩
  | bare h _ _ => exact ⟨_, _, h⟩

theorem prune_connected (h : Inv E Q st [] R) (hu : st.unplannable = []) {order : List Nat} : ((st.prune order).steiner st.leafs).Connected := by
  have hs := h.shape
  refine ⟨fun p hp => ?_, fun e he hst => ?_⟩
  · obtain ⟨n, b⟩ := p
    obtain ⟨hl, f, hf, -⟩ := (mem_leafs hs).1 hp
    refine ⟨?_, ?_⟩
    · refine reach_pruned hs ?_ (.leaf hl)
      rcases h.provided hf with h1 | ⟨a, g, _, h1⟩
      · rcases hs.flagged n f hf h1 with ⟨_, h2⟩ | ⟨j, h2⟩
        · obtain ⟨d, args, h3⟩ := hl.def
          cases (def_unique h3 h2).1
        · exact .step (step_reach hs (.inr (.inr rfl)) h2) (.inr (.inr rfl)) h2
      · rw [hu] at h1
        cases h1
    · intro h0
      simp only [QueryGraph.Space.steiner, St.prune] at h0
      subst h0
      simp only [St.Field, hs.root] at hf
      cases hf
  · obtain ⟨d, h1, rfl⟩ := List.mem_map.1 he
    rw [QueryGraph.steiner_step] at hst
    obtain ⟨a, b, k⟩ := d
    obtain ⟨h2, h3, h4⟩ := (prune_edge hs (by rcases hst with h | h | h <;> simp only at h <;> rw [h] <;> simp)).1 h1
    simp only at hst
    have hr := step_reach hs hst h2
    by_cases h0 : a = 0
    · simp only [SEdge.steiner, h0]; exact .root
    · refine reach_pruned hs hr (((kept_iff hs).1 h3).2 ?_)
      rcases hst with rfl | rfl | rfl
      · obtain ⟨_, g, _, h⟩ := hs.edge _ h2
        simp only at h
        cases h with
        | root => exact (h0 rfl).elim
        | provider h _ => exact .inr ⟨_, h⟩
      · obtain ⟨p, f, _, _, h⟩ := hs.edge _ h2
        cases h with
        | parent _ _ _ h => exact .inr ⟨_, h⟩
        | resolver _ _ _ h => exact .inl ⟨_, h⟩
      · obtain ⟨⟨p, _, h, _⟩, _⟩ := hs.edge _ h2
        exact .inr ⟨_, h⟩

theorem prune_root_requires (hs : Shape E st) {order : List Nat} : ∀ r, ⟨(st.prune order).root, r, .requires⟩ ∉ (st.prune order).edges := by
  intro r hr
  obtain ⟨h1, _⟩ := (prune_edge hs (by simp)).1 hr
  simp only [St.prune] at h1
  obtain ⟨_, h2⟩ := hs.edge _ h1
  have h0 := hs.root
  simp only at h2
  rcases h2 with ⟨r, e, h2⟩ | ⟨p, h2⟩ | ⟨f, h2, _⟩
  · rw [h0] at h2; cases h2
  · simp only [St.Provider, h0] at h2; cases h2
  · simp only [St.Field, h0] at h2; cases h2

end Verif.SpaceBuilder
