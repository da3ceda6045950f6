import Verif.SteinerInput.Spec
import Verif.Updater.Props
import Verif.OpChecks.TableLemmas
/-!
# The invariant of building the input
-/
namespace Verif.SteinerInput

open Verif.Flac Verif.Updater Verif.OpChecks

theorem mem_incoming {sp : Space} {n e : Nat} : e ∈ sp.incoming n ↔ e < sp.edges.length ∧ sp.dst e = n ∧ (sp.kind e).isParent = true := by
  simp [Space.incoming]

theorem mem_incoming_dst {sp : Space} {n e : Nat} (h : e ∈ sp.incoming n) : sp.dst e = n := (mem_incoming.1 h).2.1

theorem nodup_incoming (sp : Space) (n : Nat) : (sp.incoming n).Nodup :=
  List.Pairwise.filter _ (List.pairwise_reverse.2 (List.nodup_range.imp fun h => h.symm))

theorem mem_sort {x : Nat} {l : List Nat} : x ∈ sortBy (fun x y => decide (x ≤ y)) l ↔ x ∈ l := (sortBy_perm _ _).mem_iff

theorem isParent_iff {k : Kind} : k.isParent = true ↔ k = .createChildResolver ∨ k = .canProvide ∨ k = .provides := by
  cases k <;> simp [Kind.isParent]

theorem edge_mem {sp : Space} {e : Nat} (h : e < sp.edges.length) : ⟨sp.src e, sp.dst e, sp.kind e⟩ ∈ sp.edges := by
  have : (⟨sp.src e, sp.dst e, sp.kind e⟩ : SEdge) = sp.edges[e] := by simp [Space.src, Space.dst, Space.kind, List.getElem?_eq_getElem h]
  rw [this]; exact List.getElem_mem h

theorem edge_of_mem {sp : Space} {e : SEdge} (h : e ∈ sp.edges) : ∃ i < sp.edges.length, sp.src i = e.src ∧ sp.dst i = e.dst ∧ sp.kind i = e.kind := by
  obtain ⟨i, hi, rfl⟩ := List.getElem_of_mem h
  exact ⟨i, hi, by simp [Space.src, List.getElem?_eq_getElem hi], by simp [Space.dst, List.getElem?_eq_getElem hi],
    by simp [Space.kind, List.getElem?_eq_getElem hi]⟩

theorem mem_incoming' {sp : Space} {n e : Nat} (h : e ∈ sp.incoming n) : ∃ d ∈ sp.edges, d.src = sp.src e ∧ d.dst = n ∧ d.kind = sp.kind e ∧ d.IsStep := by
  obtain ⟨h1, h2, h3⟩ := mem_incoming.1 h
  exact ⟨_, edge_mem h1, rfl, h2, rfl, isParent_iff.1 h3⟩

theorem mem_outgoing {sp : Space} {n e : Nat} : e ∈ sp.outgoing n ↔ e < sp.edges.length ∧ sp.src e = n ∧ sp.kind e ≠ .gone := by
  simp [Space.outgoing]

theorem mem_requires {sp : Space} {n r : Nat} : r ∈ sp.requires n ↔ ⟨n, r, .requires⟩ ∈ sp.edges ∧ (r, false) ∈ sp.leaf := by
  simp only [Space.requires, List.mem_map, List.mem_filter, mem_outgoing, Bool.and_eq_true, decide_eq_true_eq, List.contains_eq_mem]
  constructor
  · rintro ⟨e, ⟨⟨h1, rfl, h2⟩, h3, h4⟩, rfl⟩
    exact ⟨by rw [← h3]; exact edge_mem h1, h4⟩
  · rintro ⟨h1, h2⟩
    obtain ⟨i, k1, k2, k3, k4⟩ := edge_of_mem h1
    exact ⟨i, ⟨⟨k1, k2, by rw [k4]; simp⟩, k4, by rw [k3]; exact h2⟩, k3⟩

/-- `n` is compacted into the node `m`, which stands for `rep[m]`. -/
inductive Comp (sp : Space) (rep : List Nat) (m : Nat) : Nat → Prop
  | here {n : Nat} : rep[m]? = some n → Comp sp rep m n
  | up {n e : Nat} : n ∉ rep → sp.incoming n = [e] → Comp sp rep m (sp.src e) → Comp sp rep m n

/-- The compacted path from `y` back to `z`. -/
inductive Link (sp : Space) (y : Nat) : List (Nat × Nat) → Nat → Prop
  | nil : Link sp y [] y
  | cons {path : List (Nat × Nat)} {n w e : Nat} : Link sp y path n → sp.incoming n = [e] → Link sp y ((n, w) :: path) (sp.src e)

/-- Back through only parents. -/
inductive Back (sp : Space) (y : Nat) : Nat → Prop
  | refl : Back sp y y
  | step {n e : Nat} : Back sp y n → sp.incoming n = [e] → Back sp y (sp.src e)

theorem Link.back {sp : Space} {y z : Nat} {path : List (Nat × Nat)} (h : Link sp y path z) : Back sp y z := by
  induction h with
  | nil => exact .refl
  | cons _ h ih => exact .step ih h

theorem Link.start {sp : Space} {y z : Nat} {path : List (Nat × Nat)} (h : Link sp y path z) : y = z ∨ y ∈ path.map Prod.fst := by
  induction h with
  | nil => exact .inl rfl
  | cons _ h ih => exact .inr (by rcases ih with rfl | ih <;> simp_all)

theorem Link.next {sp : Space} {y z : Nat} {path : List (Nat × Nat)} (h : Link sp y path z) :
    ∀ p ∈ path.map Prod.fst, ∃ e, sp.incoming p = [e] ∧ (sp.src e = z ∨ sp.src e ∈ path.map Prod.fst) := by
  induction h with
  | nil => simp
  | @cons path n w e _ h ih =>
    intro p hp
    simp only [List.map_cons, List.mem_cons] at hp ⊢
    rcases hp with rfl | hp
    · exact ⟨e, h, .inl rfl⟩
    · obtain ⟨e', h1, h2⟩ := ih p hp
      exact ⟨e', h1, .inr h2⟩

theorem Link.comp {sp : Space} {y z m : Nat} {rep : List Nat} {path : List (Nat × Nat)} (h : Link sp y path z)
    (hr : ∀ p ∈ path.map Prod.fst, p ∉ rep) (hz : Comp sp rep m z) : ∀ p ∈ path.map Prod.fst, Comp sp rep m p := by
  induction h with
  | nil => simp
  | @cons path n w e _ h ih =>
    have hn : Comp sp rep m n := .up (hr n (by simp)) h hz
    intro p hp
    simp only [List.map_cons, List.mem_cons] at hp
    rcases hp with rfl | hp
    · exact hn
    · exact ih (fun p hp => hr p (by simp only [List.map_cons, List.mem_cons]; exact .inr hp)) hn p hp

/-- The edge of an item. -/
def Item.edge (it : Item) : Option Nat := it.child.map (·.2.1)

/-- The nodes and edges of the graph and what they stand for. -/
structure Good (sp : Space) (b : B) : Prop where
  root : b.rep[0]? = some sp.root
  rep : ∀ m n : Nat, b.rep[m]? = some n → b.map n = some m
  comp : ∀ n m : Nat, b.map n = some m → Comp sp b.rep m n
  up : ∀ n m : Nat, b.map n = some m → n ∉ b.rep → ∃ e, sp.incoming n = [e] ∧ b.map (sp.src e) = some m
  edge : ∀ e k : Nat, b.emap e = some k → ∃ ed : Edge, b.edges[k]? = some ed ∧ b.rep[ed.dst]? = some (sp.dst e) ∧
    b.map (sp.src e) = some ed.src ∧ e ∈ sp.incoming (sp.dst e) ∧ sp.dst e ≠ sp.root
  surj : ∀ k < b.edges.length, ∃ e, b.emap e = some k
  inj : ∀ e e' k : Nat, b.emap e = some k → b.emap e' = some k → e = e'

/-- Where the chain of an item starts. -/
def Item.start (sp : Space) (x : Nat) (it : Item) : Nat :=
  match it.child with
  | none => x
  | some (_, e, _) => sp.src e

/-- While the nodes from terminal `x` are added. -/
structure Run (sp : Space) (x : Nat) (ind : Bool) (b : B) (st : List Item) (term : Option Nat) : Prop where
  good : Good sp b
  pend : ∀ it ∈ st, ∀ c e w, it.child = some (c, e, w) → b.rep[c]? = some (sp.dst e) ∧ e ∈ sp.incoming (sp.dst e) ∧ b.emap e = none ∧
    sp.dst e ≠ sp.root
  nodup : (st.filterMap Item.edge).Nodup
  rest : ∀ it ∈ st.tail, ∃ c e w, it.child = some (c, e, w) ∧ it.node = sp.src e
  top : ∀ it ∈ st.head?, Link sp (it.start sp x) b.path it.node
  stop : st = [] → b.path = []
  fresh : ∀ p ∈ b.path.map Prod.fst, b.map p = none ∧ ∃ e, sp.incoming p = [e] ∧ (term ≠ none → sp.requires p = [] ∧ (sp.kind e).weight = 0)
  found : (∀ it ∈ st.head?, it.child ≠ none) → ∃ m, b.map x = some m ∧ (ind = true → term = some m)
  disp : ind = false → term ≠ none
  first : ind = true → ∀ it ∈ st.head?, it.child = none → term = none
  all : ∀ n ∈ b.rep, n ≠ sp.root → ∀ e ∈ sp.incoming n, b.emap e ≠ none ∨ e ∈ st.filterMap Item.edge

theorem popPath_eq (node : Nat) (l : List (Nat × Nat)) (d : Nat) (b : B) :
    ∃ dep, B.popPath node l d b = { b with map := fun i => if i ∈ l.map Prod.fst then some node else b.map i, depth := dep, path := [] } := by
  induction l generalizing d b with
  | nil => exact ⟨b.depth, by simp [B.popPath]⟩
  | cons p l ih =>
    obtain ⟨n, w⟩ := p
    unfold B.popPath
    obtain ⟨dep, h⟩ := ih ((d + w) % 256) { b with map := upd b.map n node, depth := fun i => if i = n then (d + w) % 256 else b.depth i }
    refine ⟨dep, h.trans ?_⟩
    congr 1
    funext i
    simp only [List.map_cons, List.mem_cons, upd]
    by_cases h1 : i ∈ l.map Prod.fst <;> by_cases h2 : i = n <;> simp [h1, h2]

theorem Good.mem_rep {sp : Space} {b : B} (h : Good sp b) {n m : Nat} (hm : b.map n = some m) (hn : n ∈ b.rep) : b.rep[m]? = some n := by
  obtain ⟨i, hi⟩ := List.mem_iff_getElem?.1 hn
  have := h.rep i n hi
  rw [hm] at this
  rw [Option.some.inj this]; exact hi

theorem Good.rep_mapped {sp : Space} {b : B} (h : Good sp b) {n : Nat} (hn : n ∈ b.rep) : b.map n ≠ none := by
  obtain ⟨i, hi⟩ := List.mem_iff_getElem?.1 hn
  rw [h.rep i n hi]; simp

/-- The path is mapped. -/
theorem Good.pop {sp : Space} {b : B} (h : Good sp b) {m y z d : Nat} {path : List (Nat × Nat)} (hz : b.map z = some m)
    (hl : Link sp y path z) (hn : ∀ p ∈ path.map Prod.fst, b.map p = none) : Good sp (B.popPath m path d b) := by
  obtain ⟨dep, he⟩ := popPath_eq m path d b
  rw [he]
  have hnr : ∀ p ∈ path.map Prod.fst, p ∉ b.rep := fun p hp hr => h.rep_mapped hr (hn p hp)
  have keep : ∀ i k : Nat, b.map i = some k → (if i ∈ path.map Prod.fst then some m else b.map i) = some k := fun i k hi => by
    rw [if_neg (fun hp => by rw [hn i hp] at hi; cases hi)]; exact hi
  refine ⟨h.root, fun i n hi => keep n i (h.rep i n hi), fun n k hk => ?_, fun n k hk hr => ?_, fun e k hk => ?_, h.surj, h.inj⟩
  · simp only at hk
    split at hk
    · next hp => simp only [Option.some.injEq] at hk; subst hk; exact hl.comp hnr (h.comp _ _ hz) n hp
    · exact h.comp n k hk
  · simp only at hk
    split at hk
    · next hp =>
      simp only [Option.some.injEq] at hk; subst hk
      obtain ⟨e, h1, h2⟩ := hl.next n hp
      refine ⟨e, h1, ?_⟩
      rcases h2 with h2 | h2
      · exact keep _ _ (by rw [h2]; exact hz)
      · simp only [h2, if_true]
    · obtain ⟨e, h1, h2⟩ := h.up n k hk hr
      exact ⟨e, h1, keep _ _ h2⟩
  · obtain ⟨ed, h1, h2, h3, h4⟩ := h.edge e k hk
    exact ⟨ed, h1, h2, keep _ _ h3, h4⟩

theorem Good.addEdge {sp : Space} {b : B} (h : Good sp b) {m c w e : Nat} (h1 : b.map (sp.src e) = some m) (h2 : b.rep[c]? = some (sp.dst e))
    (h3 : e ∈ sp.incoming (sp.dst e)) (h4 : b.emap e = none) (h5 : sp.dst e ≠ sp.root) : Good sp (b.addEdge m c w e) := by
  have hlt : ∀ e k, b.emap e = some k → k < b.edges.length := fun e k hk => by
    obtain ⟨ed, h1, -⟩ := h.edge e k hk
    exact (List.getElem?_eq_some_iff.1 h1).1
  refine ⟨h.root, h.rep, h.comp, h.up, fun e' k hk => ?_, fun k hk => ?_, fun a a' k ha ha' => ?_⟩
  · simp only [B.addEdge, upd] at hk ⊢
    split at hk
    · next he =>
      subst he
      simp only [Option.some.injEq] at hk; subst hk
      exact ⟨⟨m, c, w⟩, by simp, h2, h1, h3, h5⟩
    · obtain ⟨ed, g1, g2⟩ := h.edge e' k hk
      exact ⟨ed, by rw [List.getElem?_append_left (hlt _ _ hk)]; exact g1, g2⟩
  · simp only [B.addEdge, upd, List.length_append, List.length_cons, List.length_nil] at hk ⊢
    by_cases hkl : k = b.edges.length
    · exact ⟨e, by simp [hkl]⟩
    · obtain ⟨e', he'⟩ := h.surj k (by omega)
      exact ⟨e', by rw [if_neg (fun hc => by rw [hc, h4] at he'; cases he')]; exact he'⟩
  · simp only [B.addEdge, upd] at ha ha'
    split at ha <;> split at ha'
    · next p q => rw [p, q]
    · simp only [Option.some.injEq] at ha; have := hlt _ _ ha'; omega
    · simp only [Option.some.injEq] at ha'; have := hlt _ _ ha; omega
    · exact h.inj a a' k ha ha'

theorem Good.addNode {sp : Space} {b : B} (h : Good sp b) {x : Nat} (hx : b.map x = none) : Good sp (b.addNode x) := by
  have keep : ∀ i k : Nat, b.map i = some k → upd b.map x b.rep.length i = some k := fun i k hi => by
    unfold upd; rw [if_neg (fun hp => by rw [hp, hx] at hi; cases hi)]; exact hi
  have push : ∀ m n : Nat, b.rep[m]? = some n → (b.rep ++ [x])[m]? = some n := fun m n hm => by
    rw [List.getElem?_append_left (List.getElem?_eq_some_iff.1 hm).1]; exact hm
  have compPush : ∀ m n : Nat, Comp sp b.rep m n → b.map n = some m → Comp sp (b.rep ++ [x]) m n := fun m n hc hm => by
    induction hc with
    | @here n h => exact .here (push _ _ h)
    | @up n e h1 h2 h3 ih =>
      obtain ⟨e', g1, g2⟩ := h.up n m hm h1
      rw [h2] at g1
      cases g1
      refine .up (fun hm' => ?_) h2 (ih g2)
      rcases List.mem_append.1 hm' with hm' | hm'
      · exact h1 hm'
      · rw [List.mem_singleton.1 hm', hx] at hm; cases hm
  refine ⟨push _ _ h.root, fun m n hm => ?_, fun n m hm => ?_, fun n m hm hr => ?_, fun e k hk => ?_, h.surj, h.inj⟩
  · simp only [B.addNode] at hm ⊢
    by_cases hl : m < b.rep.length
    · rw [List.getElem?_append_left hl] at hm; exact keep _ _ (h.rep m n hm)
    · have := (List.getElem?_eq_some_iff.1 hm).1
      simp only [List.length_append, List.length_cons, List.length_nil] at this
      obtain rfl : m = b.rep.length := by omega
      simp only [List.getElem?_concat_length, Option.some.injEq] at hm
      subst hm; simp [upd]
  · simp only [B.addNode, upd] at hm ⊢
    split at hm
    · next he => subst he; simp only [Option.some.injEq] at hm; subst hm; exact .here (by simp)
    · exact compPush _ _ (h.comp n m hm) hm
  · simp only [B.addNode, upd] at hm hr ⊢
    split at hm
    · next he => subst he; exact absurd (by simp) hr
    · obtain ⟨e, g1, g2⟩ := h.up n m hm (fun hc => hr (by simp [hc]))
      exact ⟨e, g1, keep _ _ g2⟩
  · obtain ⟨ed, g1, g2, g3, g4⟩ := h.edge e k hk
    exact ⟨ed, g1, push _ _ g2, keep _ _ g3, g4⟩

variable {sp : Space} {x : Nat} {ind : Bool} {b : B} {st : List Item} {term : Option Nat}

/-- The children of a node that is there are handled. -/
theorem Run.handle {it : Item} {m : Nat} (h : Run sp x ind b (it :: st) term) (hm : b.map it.node = some m) :
    Run sp x ind (b.handle m it) st (some (term.getD m)) := by
  have hl : Link sp (it.start sp x) b.path it.node := h.top it (by simp)
  have hg := h.good.pop (d := 0) hm hl (fun p hp => (h.fresh p hp).1)
  obtain ⟨dep, he⟩ := popPath_eq m b.path 0 b
  have hstart : (B.popPath m b.path 0 b).map (it.start sp x) = some m := by
    rw [he]
    simp only
    rcases hl.start with hs | hs
    · rw [if_neg (fun hp => by rw [hs] at hp; rw [(h.fresh _ hp).1] at hm; cases hm), hs]; exact hm
    · rw [if_pos hs]
  have keep : ∀ i k : Nat, b.map i = some k → (B.popPath m b.path 0 b).map i = some k := fun i k hi => by
    rw [he]
    simp only
    rw [if_neg (fun hp => by rw [(h.fresh _ hp).1] at hi; cases hi)]; exact hi
  have hfound : ∃ k, (B.popPath m b.path 0 b).map x = some k ∧ (ind = true → some (term.getD m) = some k) := by
    cases hc : it.child with
    | none =>
      refine ⟨m, ?_, fun hi => ?_⟩
      · have : it.start sp x = x := by simp [Item.start, hc]
        rw [this] at hstart; exact hstart
      · rw [h.first hi it (by simp) hc]; rfl
    | some p =>
      obtain ⟨k, h1, h2⟩ := h.found (fun it' hi => by simp only [List.head?_cons, Option.mem_some_iff] at hi; subst hi; rw [hc]; simp)
      exact ⟨k, keep _ _ h1, fun hi => by rw [h2 hi]; rfl⟩
  have hst : ∀ it' ∈ st, ∃ c e w, it'.child = some (c, e, w) ∧ it'.node = sp.src e := fun it' hi => h.rest it' hi
  have hfacts : ∀ b' : B, Good sp b' → b'.path = [] → b'.rep = b.rep → b'.map = (B.popPath m b.path 0 b).map →
      (∀ it' ∈ st, ∀ c e w, it'.child = some (c, e, w) → b'.emap e = none) →
      (∀ n ∈ b.rep, n ≠ sp.root → ∀ e ∈ sp.incoming n, b'.emap e ≠ none ∨ e ∈ st.filterMap Item.edge) →
      Run sp x ind b' st (some (term.getD m)) := fun b' g1 g2 g3 g4 g5 g6 => by
    refine ⟨g1, fun it' hi c e w hc => ?_, ?_, fun it' hi => hst it' (List.mem_of_mem_tail hi), fun it' hi => ?_, fun _ => g2, by rw [g2]; simp,
      fun _ => by rw [g4]; exact hfound, fun _ => by simp, fun hi it' hm' hc => ?_, by rw [g3]; exact g6⟩
    · obtain ⟨k1, k2, -, k4⟩ := h.pend it' (by simp [hi]) c e w hc
      exact ⟨by rw [g3]; exact k1, k2, g5 it' hi c e w hc, k4⟩
    · have := h.nodup
      rw [List.filterMap_cons] at this
      split at this
      · exact this
      · exact (List.nodup_cons.1 this).2
    · obtain ⟨c, e, w, k1, k2⟩ := hst it' (List.mem_of_mem_head? hi)
      rw [g2, k2]
      have : it'.start sp x = sp.src e := by simp [Item.start, k1]
      rw [this]; exact .nil
    · obtain ⟨c, e, w, k1, -⟩ := hst it' (List.mem_of_mem_head? hm')
      rw [hc] at k1; cases k1
  unfold B.handle
  cases hc : it.child with
  | none =>
    refine hfacts _ hg (by rw [he]) (by rw [he]) rfl (fun it' hi c e w hc' => ?_) (fun n hn hr e he' => ?_)
    · rw [he]; exact (h.pend it' (by simp [hi]) c e w hc').2.2.1
    · have := h.all n hn hr e he'
      rw [List.filterMap_cons_none (by simp [Item.edge, hc])] at this
      rw [he]; exact this
  | some p =>
    obtain ⟨c, e, w⟩ := p
    obtain ⟨k1, k2, k3, k4⟩ := h.pend it (by simp) c e w hc
    have hedge : it.edge = some e := by simp [Item.edge, hc]
    have hnd := h.nodup
    rw [List.filterMap_cons_some hedge] at hnd
    have hnin := (List.nodup_cons.1 hnd).1
    have hs : (B.popPath m b.path 0 b).map (sp.src e) = some m := by
      have : it.start sp x = sp.src e := by simp [Item.start, hc]
      rw [← this]; exact hstart
    refine hfacts _ (hg.addEdge hs (by rw [he]; exact k1) k2 (by rw [he]; exact k3) k4) (by rw [he]; rfl) (by rw [he]; rfl) rfl
      (fun it' hi c' e' w' hc' => ?_) (fun n hn hr e' he' => ?_)
    · simp only [B.addEdge, upd]
      rw [if_neg (fun hee => hnin (List.mem_filterMap.2 ⟨it', hi, by rw [Item.edge, hc']; simp [hee]⟩))]
      rw [he]; exact (h.pend it' (by simp [hi]) c' e' w' hc').2.2.1
    · have := h.all n hn hr e' he'
      rw [List.filterMap_cons_some hedge] at this
      simp only [B.addEdge, upd]
      rcases this with this | this
      · left; split
        · simp
        · rw [he]; exact this
      · rcases List.mem_cons.1 this with this | this
        · left; simp [this]
        · exact .inr this

/-- The items of the parents of a node. -/
def items (sp : Space) (m : Nat) (es : List Nat) : List Item := es.map fun e => ⟨sp.src e, some (m, e, (sp.kind e).weight)⟩

theorem items_edges (m : Nat) (es : List Nat) : (items sp m es).filterMap Item.edge = es := by
  induction es with
  | nil => rfl
  | cons e es ih => rw [items, List.map_cons, List.filterMap_cons_some (b := e) (by rfl)]; exact congrArg _ ih

/-- A node is added. -/
theorem Run.addNode {it : Item} {es : List Nat} (h : Run sp x ind b (it :: st) term) (hm : b.map it.node = none) (hp : it.node ∉ b.path.map Prod.fst)
    (hes : es.Perm (sp.incoming it.node)) :
    Run sp x ind (b.addNode it.node) (it :: (items sp b.rep.length es ++ st)) term := by
  have hroot : it.node ≠ sp.root := fun hr => by
    have := h.good.rep 0 _ h.good.root
    rw [← hr, hm] at this; cases this
  have keep : ∀ i k : Nat, b.map i = some k → upd b.map it.node b.rep.length i = some k := fun i k hi => by
    unfold upd; rw [if_neg (fun hp => by rw [hp, hm] at hi; cases hi)]; exact hi
  have push : ∀ m n : Nat, b.rep[m]? = some n → (b.rep ++ [it.node])[m]? = some n := fun m n hm => by
    rw [List.getElem?_append_left (List.getElem?_eq_some_iff.1 hm).1]; exact hm
  have hnrep : it.node ∉ b.rep := fun hr => h.good.rep_mapped hr hm
  have hnone : ∀ e, sp.dst e = it.node → b.emap e = none := fun e he => by
    cases hk : b.emap e with
    | none => rfl
    | some k =>
      obtain ⟨ed, -, g2, -⟩ := h.good.edge e k hk
      rw [he] at g2
      exact absurd (List.mem_of_getElem? g2) hnrep
  refine ⟨h.good.addNode hm, fun it' hi c e w hc => ?_, ?_, fun it' hi => ?_, fun it' hi => ?_, by simp, fun p hp' => ?_, fun hf => ?_, h.disp, ?_, ?_⟩
  · rcases List.mem_cons.1 hi with rfl | hi
    · obtain ⟨k1, k2⟩ := h.pend it' (by simp) c e w hc
      exact ⟨push _ _ k1, k2⟩
    · rcases List.mem_append.1 hi with hi | hi
      · simp only [items, List.mem_map] at hi
        obtain ⟨e', he', rfl⟩ := hi
        simp only [Option.some.injEq, Prod.mk.injEq] at hc
        obtain ⟨rfl, rfl, rfl⟩ := hc
        have hin := hes.mem_iff.1 he'
        have hd := mem_incoming_dst hin
        refine ⟨by simp [B.addNode, hd], by rw [hd]; exact hin, hnone _ hd, by rw [hd]; exact hroot⟩
      · obtain ⟨k1, k2⟩ := h.pend it' (by simp [hi]) c e w hc
        exact ⟨push _ _ k1, k2⟩
  · have hnd := h.nodup
    have hall : ∀ e ∈ (it :: st).filterMap Item.edge, e ∉ es := fun e he hes' => by
      obtain ⟨it', hi, he'⟩ := List.mem_filterMap.1 he
      cases hc : it'.child with
      | none => simp [Item.edge, hc] at he'
      | some p =>
        obtain ⟨c, e'', w⟩ := p
        obtain ⟨k1, -⟩ := h.pend it' hi c e'' w hc
        simp only [Item.edge, hc, Option.map_some, Option.some.injEq] at he'
        subst he'
        rw [mem_incoming_dst (hes.mem_iff.1 hes')] at k1
        exact hnrep (List.mem_of_getElem? k1)
    have hes' : es.Nodup := hes.nodup_iff.2 (nodup_incoming _ _)
    rw [show it :: (items sp b.rep.length es ++ st) = [it] ++ (items sp b.rep.length es ++ st) from rfl, List.filterMap_append, List.filterMap_append,
      items_edges]
    rw [show it :: st = [it] ++ st from rfl, List.filterMap_append] at hnd hall
    rw [List.nodup_append] at hnd ⊢
    refine ⟨hnd.1, ?_, fun a ha c hc => ?_⟩
    · rw [List.nodup_append]
      exact ⟨hes', hnd.2.1, fun a ha c hc hac => hall c (List.mem_append.2 (.inr hc)) (by rw [← hac]; exact ha)⟩
    · rcases List.mem_append.1 hc with hc | hc
      · exact fun hac => hall a (List.mem_append.2 (.inl ha)) (by rw [hac]; exact hc)
      · exact hnd.2.2 a ha c hc
  · rcases List.mem_append.1 hi with hi | hi
    · simp only [items, List.mem_map] at hi
      obtain ⟨e', he', rfl⟩ := hi
      exact ⟨_, _, _, rfl, rfl⟩
    · exact h.rest it' hi
  · simp only [List.head?_cons, Option.mem_some_iff] at hi
    subst hi
    exact h.top it (by simp)
  · obtain ⟨k1, k2⟩ := h.fresh p hp'
    exact ⟨by simp only [B.addNode, upd]; rw [if_neg (fun hc => hp (by rw [← hc]; exact hp'))]; exact k1, k2⟩
  · obtain ⟨k, k1, k2⟩ := h.found (by simpa using hf)
    exact ⟨k, keep _ _ k1, k2⟩
  · intro hi it' hi' hc
    exact h.first hi it' (by simpa using hi') hc
  · intro n hn hr e he
    have e1 : e ∈ (it :: (items sp b.rep.length es ++ st)).filterMap Item.edge ↔ e ∈ (it :: st).filterMap Item.edge ∨ e ∈ es := by
      rw [show it :: (items sp b.rep.length es ++ st) = [it] ++ (items sp b.rep.length es ++ st) from rfl, List.filterMap_append, List.filterMap_append,
        items_edges, show it :: st = [it] ++ st from rfl, List.filterMap_append]
      simp only [List.mem_append, or_assoc, or_comm, or_left_comm]
    rw [e1]
    simp only [B.addNode, List.mem_append, List.mem_singleton] at hn
    rcases hn with hn | rfl
    · rcases h.all n hn hr e he with h | h
      · exact .inl h
      · exact .inr (.inl h)
    · exact .inr (.inr (hes.mem_iff.2 he))

/-- The path gets longer. -/
theorem Run.push {it : Item} {e w : Nat} {ids : List Nat} (h : Run sp x ind b (it :: st) term) (hm : b.map it.node = none) (he : sp.incoming it.node = [e])
    (ht : term ≠ none → sp.requires it.node = [] ∧ (sp.kind e).weight = 0) :
    Run sp x ind { b with indisp := ids, path := (it.node, w) :: b.path } (⟨sp.src e, it.child⟩ :: st) term := by
  have hl := h.top it (by simp)
  refine ⟨⟨h.good.root, h.good.rep, h.good.comp, h.good.up, h.good.edge, h.good.surj, h.good.inj⟩,
    fun it' hi c e' w' hc => ?_, ?_, h.rest, fun it' hi => ?_, by simp, fun p hp => ?_, fun hf => ?_, h.disp, fun hi it' hi' hc => ?_, fun n hn hr e' he' => ?_⟩
  · rcases List.mem_cons.1 hi with rfl | hi
    · exact h.pend it (by simp) c e' w' hc
    · exact h.pend it' (by simp [hi]) c e' w' hc
  · exact h.nodup
  · simp only [List.head?_cons, Option.mem_some_iff] at hi
    subst hi
    exact .cons hl he
  · simp only [List.map_cons, List.mem_cons] at hp
    rcases hp with rfl | hp
    · exact ⟨hm, e, he, ht⟩
    · exact h.fresh p hp
  · exact h.found (fun it' hi => by
      simp only [List.head?_cons, Option.mem_some_iff] at hi; subst hi
      exact hf ⟨sp.src e, it.child⟩ (by simp))
  · simp only [List.head?_cons, Option.mem_some_iff] at hi'
    subst hi'
    exact h.first hi it (by simp) hc
  · exact h.all n hn hr e' he'

end Verif.SteinerInput
