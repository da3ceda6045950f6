import Verif.QueryGraph.Spec
import Verif.Updater.Lemmas
/-!
# Lemmas about the query graph
-/
namespace Verif.QueryGraph

open Verif.Updater (Out)

variable {sp : Space} {es : List Nat}

theorem edge_of {e : Nat} {d : SEdge} (h : sp.edges[e]? = some d) : sp.edge e = d := by simp [Space.edge, h]

theorem edge_lt {e : Nat} (h : e < sp.edges.length) : sp.edges[e]? = some (sp.edge e) := by simp [Space.edge, h]

theorem mem_outgoing (ht : sp.Typed) {removed : List Nat} {n e : Nat} :
    e ∈ sp.outgoing removed n ↔ ∃ d, sp.edges[e]? = some d ∧ d.src = n ∧ d.kind ≠ .gone ∧ e ∉ removed := by
  simp only [Space.outgoing, List.mem_filter, decide_eq_true_eq]
  constructor
  · rintro ⟨-, h1, h2, h3, h4⟩
    exact ⟨_, edge_lt h1, h2, h3, h4⟩
  · rintro ⟨d, h1, h2, h3, h4⟩
    have hl := (List.getElem?_eq_some_iff.1 h1).1
    rw [edge_of h1]
    exact ⟨ht.seen e hl, hl, h2, h3, h4⟩

theorem outgoing_nodup (ht : sp.Typed) {removed : List Nat} {n : Nat} : (sp.outgoing removed n).Nodup := ht.order.filter _

/-- The label of a `__typename`. -/
def tlabel (sp : Space) (e : Nat) : QNode × Nat :=
  match sp.node (sp.edge e).dst with
  | .field id split b => (.field id split b, (sp.edge e).dst)
  | _ => (.root, (sp.edge e).dst)

theorem tlabel_snd {e : Nat} : (tlabel sp e).2 = (sp.edge e).dst := by
  unfold tlabel; split <;> rfl

theorem addTypename_eq {g : QGraph} {i e : Nat} (h : (sp.node (sp.edge e).dst).IsField true) :
    g.addTypename sp i e = ⟨g.nodes ++ [tlabel sp e], g.edges ++ [⟨i, g.nodes.length, .field⟩]⟩ := by
  obtain ⟨id, s, h⟩ := h
  simp [QGraph.addTypename, tlabel, h, QGraph.add]

/-- The edges to new nodes in a row. -/
def below (i k : Nat) (T : List Nat) : List QEdge := (List.range T.length).map fun j => ⟨i, k + j, .field⟩

theorem below_cons {i k e : Nat} {T : List Nat} : below i k (e :: T) = ⟨i, k, .field⟩ :: below i (k + 1) T := by
  simp only [below, List.length_cons, List.range_succ_eq_map, List.map_cons, List.map_map, Nat.add_zero, List.cons.injEq, true_and]
  refine List.map_congr_left fun j _ => ?_
  simp only [Function.comp_apply, QEdge.mk.injEq, and_true, true_and]
  omega

theorem mem_below {i k : Nat} {T : List Nat} {e : QEdge} : e ∈ below i k T ↔ ∃ j, j < T.length ∧ e = ⟨i, k + j, .field⟩ := by
  simp only [below, List.mem_map, List.mem_range]
  exact ⟨fun ⟨j, h1, h2⟩ => ⟨j, h1, h2.symm⟩, fun ⟨j, h1, h2⟩ => ⟨j, h1, h2.symm⟩⟩

def isTypename (sp : Space) (e : Nat) : Bool := decide ((sp.edge e).kind = .typename)
def isRequires (sp : Space) (e : Nat) : Bool := decide ((sp.edge e).kind = .requires)

theorem foldl_fieldEdge {i : Nat} (l : List Nat) (hl : ∀ e ∈ l, (sp.edge e).kind = .typename → (sp.node (sp.edge e).dst).IsField true) (st : St) :
    l.foldl (fieldEdge sp i) st =
      { st with
        graph := ⟨st.graph.nodes ++ (l.filter (isTypename sp)).map (tlabel sp), st.graph.edges ++ below i st.graph.nodes.length (l.filter (isTypename sp))⟩
        required := st.required ++ (l.filter (isRequires sp)).map fun e => ⟨i, (sp.edge e).dst, .requiredBySupergraph⟩
        removed := st.removed ++ l.filter (isTypename sp) } := by
  induction l generalizing st with
  | nil => simp [below]
  | cons e l ih =>
    rw [List.foldl_cons, ih fun e' he' => hl e' (by simp [he'])]
    unfold fieldEdge
    cases hk : (sp.edge e).kind with
    | typename =>
      have h1 : isTypename sp e = true := by simp [isTypename, hk]
      have h2 : isRequires sp e = false := by simp [isRequires, hk]
      simp only [List.filter_cons, h1, h2, if_true, Bool.false_eq_true, if_false, addTypename_eq (hl e (by simp) hk), List.map_cons, below_cons,
        List.append_assoc, List.cons_append, List.nil_append, List.length_append, List.length_cons, List.length_nil]
    | «requires» =>
      have h1 : isTypename sp e = false := by simp [isTypename, hk]
      have h2 : isRequires sp e = true := by simp [isRequires, hk]
      simp [List.filter_cons, h1, h2]
    | _ =>
      have h1 : isTypename sp e = false := by simp [isTypename, hk]
      have h2 : isRequires sp e = false := by simp [isRequires, hk]
      simp [List.filter_cons, h1, h2]

def isChild (sp : Space) (es : List Nat) (e : Nat) : Bool := decide ((sp.edge e).kind = .createChildResolver ∧ e ∈ es)

theorem foldl_startEdge (l : List Nat) (hl : ∀ e ∈ l, (sp.edge e).kind = .typename → (sp.node (sp.edge e).dst).IsField true) (st : St) :
    l.foldl (startEdge sp es) st =
      { st with
        graph := ⟨st.graph.nodes ++ (l.filter (isTypename sp)).map (tlabel sp), st.graph.edges ++ below 0 st.graph.nodes.length (l.filter (isTypename sp))⟩
        stack := ((l.filter (isChild sp es)).map fun e => (0, (sp.edge e).dst)).reverse ++ st.stack } := by
  induction l generalizing st with
  | nil => simp [below]
  | cons e l ih =>
    rw [List.foldl_cons, ih fun e' he' => hl e' (by simp [he'])]
    unfold startEdge
    cases hk : (sp.edge e).kind with
    | typename =>
      have h1 : isTypename sp e = true := by simp [isTypename, hk]
      have h2 : isChild sp es e = false := by simp [isChild, hk]
      simp only [List.filter_cons, h1, h2, if_true, Bool.false_eq_true, if_false, addTypename_eq (hl e (by simp) hk), List.map_cons, below_cons,
        List.append_assoc, List.cons_append, List.nil_append, List.length_append, List.length_cons, List.length_nil]
    | createChildResolver =>
      have h1 : isTypename sp e = false := by simp [isTypename, hk]
      by_cases he : e ∈ es
      · have h2 : isChild sp es e = true := by simp [isChild, hk, he]
        simp [List.filter_cons, h1, h2, he]
      · have h2 : isChild sp es e = false := by simp [isChild, he]
        simp [List.filter_cons, h1, h2, he]
    | _ =>
      have h1 : isTypename sp e = false := by simp [isTypename, hk]
      have h2 : isChild sp es e = false := by simp [isChild, hk]
      simp [List.filter_cons, h1, h2]

theorem provided_some (ht : sp.Typed) {removed : List Nat} {n f : Nat} (h : provided sp removed n = some f) : ⟨n, f, .provides⟩ ∈ sp.edges := by
  unfold provided at h
  obtain ⟨e, h1, h2⟩ := List.exists_of_findSome?_eq_some h
  obtain ⟨d, k1, k2, k3, k4⟩ := (mem_outgoing ht).1 h1
  rw [edge_of k1] at h2
  split at h2
  · rename_i j1 j2
    simp only [Option.some.injEq] at h2
    obtain ⟨a, b, c⟩ := d
    simp only at j1 h2 k2
    subst j1; subst h2; subst k2
    exact List.mem_of_getElem? k1
  · cases h2

theorem provided_ne (ht : sp.Typed) {removed : List Nat} {n : Nat} (hr : ∀ e ∈ removed, ∃ d, sp.edges[e]? = some d ∧ d.kind = .typename)
    (hn : sp.node n = .providable) : provided sp removed n ≠ none := by
  intro h
  unfold provided at h
  rw [List.findSome?_eq_none_iff] at h
  obtain ⟨f, hf⟩ := ht.some n hn
  obtain ⟨e, he⟩ := List.mem_iff_getElem?.1 hf
  have := h e ((mem_outgoing ht).2 ⟨_, he, rfl, by simp, fun hc => by
    obtain ⟨d, k1, k2⟩ := hr e hc
    rw [he, Option.some.injEq] at k1
    subst k1
    simp at k2⟩)
  obtain ⟨id, s, hfd⟩ := (ht.provides _ hf rfl).2
  simp only [edge_of he, hfd] at this
  cases this

end Verif.QueryGraph
