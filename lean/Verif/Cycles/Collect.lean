import Verif.Cycles.Lemmas
import Mathlib.Data.List.Nodup
/-!
# What is collected below a node
-/
namespace Verif.Cycles

/-- The field of an edge of a partition. -/
def fldE (g : Graph) (part resolver : Nat) (e : Edge) : List Fld :=
  if e.kind = .field then
    match g.nodes[e.dst]? with
    | some (.field pos) => [⟨pos, part, resolver, e.dst⟩]
    | _ => []
  else []

theorem collectFields_eq {g : Graph} {part resolver : Nat} (es : List Edge) (acc : Acc) :
    es.foldl (collectField g part resolver) acc =
      ⟨acc.parts, acc.fields ++ es.flatMap (fldE g part resolver),
        ((es.flatMap (fldE g part resolver)).map (·.node)).reverse ++ acc.stack⟩ := by
  induction es generalizing acc with
  | nil => simp
  | cons e t ih =>
    rw [List.foldl_cons, ih, List.flatMap_cons]
    by_cases hk : e.kind = .field
    · cases hn : g.nodes[e.dst]? with
      | none =>
        have h1 : fldE g part resolver e = [] := by simp [fldE, hn]
        simp [collectField, hn, h1]
      | some n =>
        cases n with
        | field pos =>
          have h1 : fldE g part resolver e = [⟨pos, part, resolver, e.dst⟩] := by simp [fldE, hn, hk]
          simp [collectField, hn, hk, h1]
        | root =>
          have h1 : fldE g part resolver e = [] := by simp [fldE, hn]
          simp [collectField, hn, h1]
        | partition a b =>
          have h1 : fldE g part resolver e = [] := by simp [fldE, hn]
          simp [collectField, hn, h1]
    · have h1 : fldE g part resolver e = [] := by simp [fldE, hk]
      simp [collectField, hk, h1]

def partE (g : Graph) (e : Edge) : List (Nat × Nat) :=
  if Hier e.kind then
    match g.nodes[e.dst]? with
    | some (.partition _ r) => [(e.dst, r)]
    | _ => []
  else []

def fieldsE (g : Graph) (e : Edge) : List Fld :=
  if Hier e.kind then
    match g.nodes[e.dst]? with
    | some (.partition _ r) => (g.out e.dst).flatMap (fldE g e.dst r)
    | _ => []
  else []

def directE (g : Graph) (e : Edge) : List Nat :=
  if Hier e.kind then
    match g.nodes[e.dst]? with
    | some (.partition _ _) => (fieldsE g e).map (·.node)
    | some (.field _) => [e.dst]
    | _ => []
  else []

theorem collect_eq {g : Graph} {root : Nat} {stack : List Nat} :
    collect g root stack = ⟨(g.out root).flatMap (partE g), (g.out root).flatMap (fieldsE g),
      ((g.out root).flatMap (directE g)).reverse ++ stack⟩ := by
  unfold collect
  have : ∀ (es : List Edge) (acc : Acc), es.foldl (collectEdge g) acc =
      ⟨acc.parts ++ es.flatMap (partE g), acc.fields ++ es.flatMap (fieldsE g),
        (es.flatMap (directE g)).reverse ++ acc.stack⟩ := by
    intro es
    induction es with
    | nil => intro acc; simp
    | cons e t ih =>
      intro acc
      rw [List.foldl_cons, ih, List.flatMap_cons, List.flatMap_cons, List.flatMap_cons]
      by_cases hk : Hier e.kind
      · have hk' : (decide (e.kind = Kind.queryPartition) || decide (e.kind = Kind.field)) = true := by
          simpa [Hier] using hk
        have empty : (∀ a r, g.nodes[e.dst]? ≠ some (.partition a r)) → (∀ p, g.nodes[e.dst]? ≠ some (.field p)) →
            collectEdge g acc e = acc ∧ partE g e = [] ∧ fieldsE g e = [] ∧ directE g e = [] := by
          intro h1 h2
          unfold collectEdge partE fieldsE directE
          rw [if_pos hk']
          simp only [if_pos hk]
          cases hn : g.nodes[e.dst]? with
          | none => simp
          | some n =>
            cases n with
            | root => simp
            | partition a b => exact absurd hn (h1 a b)
            | field p => exact absurd hn (h2 p)
        cases hn : g.nodes[e.dst]? with
        | none =>
          obtain ⟨e1, e2, e3, e4⟩ := empty (by simp [hn]) (by simp [hn])
          rw [e1, e2, e3, e4]; simp
        | some n =>
          cases n with
          | root =>
            obtain ⟨e1, e2, e3, e4⟩ := empty (by simp [hn]) (by simp [hn])
            rw [e1, e2, e3, e4]; simp
          | partition a r =>
            have e2 : partE g e = [(e.dst, r)] := by simp [partE, hk, hn]
            have e3 : fieldsE g e = (g.out e.dst).flatMap (fldE g e.dst r) := by simp [fieldsE, hk, hn]
            have e4 : directE g e = (fieldsE g e).map (·.node) := by simp [directE, hk, hn]
            have e1 : collectEdge g acc e = (g.out e.dst).foldl (collectField g e.dst r)
                { acc with parts := acc.parts ++ [(e.dst, r)] } := by
              unfold collectEdge; rw [if_pos hk']; simp only [hn]
            rw [e1, e4, e2, e3, collectFields_eq]; simp
          | field p =>
            have e2 : partE g e = [] := by simp [partE, hn]
            have e3 : fieldsE g e = [] := by simp [fieldsE, hn]
            have e4 : directE g e = [e.dst] := by simp [directE, hk, hn]
            have e1 : collectEdge g acc e = { acc with stack := e.dst :: acc.stack } := by
              unfold collectEdge; rw [if_pos hk']; simp only [hn]
            rw [e1, e4, e2, e3]; simp
      · have hk' : ¬ (decide (e.kind = Kind.queryPartition) || decide (e.kind = Kind.field)) = true := by
          simpa [Hier] using hk
        have e1 : collectEdge g acc e = acc := by unfold collectEdge; rw [if_neg hk']
        have e2 : partE g e = [] := by simp [partE, hk]
        have e3 : fieldsE g e = [] := by simp [fieldsE, hk]
        have e4 : directE g e = [] := by simp [directE, hk]
        rw [e1, e2, e3, e4]; simp
  rw [this]
  simp

theorem mem_partE {g : Graph} {e : Edge} {p r : Nat} :
    (p, r) ∈ partE g e ↔ Hier e.kind ∧ e.dst = p ∧ ∃ a, g.nodes[p]? = some (.partition a r) := by
  unfold partE
  by_cases hk : Hier e.kind
  · rw [if_pos hk]
    split
    · rename_i a r' h
      simp only [List.mem_singleton, Prod.mk.injEq]
      constructor
      · rintro ⟨rfl, rfl⟩; exact ⟨hk, rfl, a, h⟩
      · rintro ⟨-, rfl, a', h'⟩
        rw [h] at h'
        simp only [Option.some.injEq, Node.partition.injEq] at h'
        exact ⟨rfl, h'.2.symm⟩
    · rename_i hn
      simp only [List.not_mem_nil, false_iff]
      rintro ⟨-, rfl, a, h⟩
      exact hn _ _ h
  · rw [if_neg hk]
    simp [hk]

theorem mem_fldE {g : Graph} {part r : Nat} {e : Edge} {x : Fld} :
    x ∈ fldE g part r e ↔ e.kind = .field ∧ x.node = e.dst ∧ x.original = part ∧ x.resolver = r ∧
      g.nodes[e.dst]? = some (.field x.position) := by
  unfold fldE
  by_cases hk : e.kind = .field
  · rw [if_pos hk]
    split
    · rename_i pos h
      simp only [List.mem_singleton]
      constructor
      · rintro rfl; exact ⟨hk, rfl, rfl, rfl, h⟩
      · rintro ⟨-, h1, h2, h3, h4⟩
        rw [h] at h4
        simp only [Option.some.injEq, Node.field.injEq] at h4
        obtain ⟨a, b, c, d⟩ := x
        simp only at h1 h2 h3 h4
        subst h1 h2 h3 h4
        rfl
    · rename_i hn
      simp only [List.not_mem_nil, false_iff]
      rintro ⟨-, -, -, -, h⟩
      exact hn _ h
  · rw [if_neg hk]; simp [hk]

theorem mem_fieldsE {g : Graph} {e : Edge} {x : Fld} :
    x ∈ fieldsE g e ↔ Hier e.kind ∧ e.dst = x.original ∧ (∃ a, g.nodes[x.original]? = some (.partition a x.resolver)) ∧
      ⟨x.original, x.node, .field⟩ ∈ g.edges ∧ g.nodes[x.node]? = some (.field x.position) := by
  unfold fieldsE
  by_cases hk : Hier e.kind
  · rw [if_pos hk]
    split
    · rename_i a r h
      simp only [List.mem_flatMap, mem_out, mem_fldE]
      constructor
      · rintro ⟨⟨s, d, k⟩, ⟨h1, h2⟩, h3, h4, h5, h6, h7⟩
        simp only at h2 h3 h4 h7
        subst h2 h3 h4
        refine ⟨hk, h5.symm, ⟨a, by rw [h5, h6]; exact h⟩, by rw [h5]; exact h1, h7⟩
      · rintro ⟨-, h1, ⟨a', h2⟩, h3, h4⟩
        rw [← h1, h] at h2
        simp only [Option.some.injEq, Node.partition.injEq] at h2
        exact ⟨_, ⟨h3, h1.symm⟩, rfl, rfl, h1.symm, h2.2.symm, h4⟩
    · rename_i hn
      simp only [List.not_mem_nil, false_iff]
      rintro ⟨-, h1, ⟨a, h2⟩, -⟩
      rw [← h1] at h2
      exact hn _ _ h2
  · rw [if_neg hk]; simp [hk]

theorem partE_sub (g : Graph) (es : List Edge) : ((es.flatMap (partE g)).map (·.1)).Sublist
    ((es.filter fun e => decide (Hier e.kind)).map (·.dst)) := by
  induction es with
  | nil => simp
  | cons e t ih =>
    rw [List.flatMap_cons, List.map_append, List.filter_cons]
    by_cases hk : Hier e.kind
    · rw [if_pos (by simpa using hk), List.map_cons]
      have h1 : ((partE g e).map (·.1)).Sublist [e.dst] := by
        unfold partE
        rw [if_pos hk]
        split <;> simp
      simpa using h1.append ih
    · have h1 : partE g e = [] := by simp [partE, hk]
      rw [if_neg (by simpa using hk), h1]
      simpa using ih

theorem fldE_sub (g : Graph) (p r : Nat) (es : List Edge) : ((es.flatMap (fldE g p r)).map (·.node)).Sublist
    ((es.filter fun e => decide (Hier e.kind)).map (·.dst)) := by
  induction es with
  | nil => simp
  | cons e t ih =>
    rw [List.flatMap_cons, List.map_append, List.filter_cons]
    by_cases hk : Hier e.kind
    · rw [if_pos (by simpa using hk), List.map_cons]
      have h1 : ((fldE g p r e).map (·.node)).Sublist [e.dst] := by
        unfold fldE
        split
        · split <;> simp
        · simp
      simpa using h1.append ih
    · have h1 : fldE g p r e = [] := by
        have : e.kind ≠ .field := fun h => hk (Or.inr h)
        simp [fldE, this]
      rw [if_neg (by simpa using hk), h1]
      simpa using ih

theorem fieldsE_filter (g : Graph) (es : List Edge) :
    es.flatMap (fieldsE g) = (es.filter fun e => decide (Hier e.kind)).flatMap (fieldsE g) := by
  induction es with
  | nil => rfl
  | cons e t ih =>
    rw [List.flatMap_cons, List.filter_cons]
    by_cases hk : Hier e.kind
    · rw [if_pos (by simpa using hk), List.flatMap_cons, ih]
    · have : fieldsE g e = [] := by unfold fieldsE; rw [if_neg hk]
      rw [if_neg (by simpa using hk), this, List.nil_append, ih]

section
variable {g : Graph} (hw : WF g) {root : Nat} {stack : List Nat}
include hw

theorem mem_parts {p r : Nat} : (p, r) ∈ (collect g root stack).parts ↔
    ⟨root, p, .queryPartition⟩ ∈ g.edges ∧ ∃ a, g.nodes[p]? = some (.partition a r) := by
  rw [collect_eq]
  simp only [List.mem_flatMap, mem_out, mem_partE]
  constructor
  · rintro ⟨⟨s, d, k⟩, ⟨h1, h2⟩, h3, h4, a, h5⟩
    simp only at h2 h3 h4
    subst h2 h4
    rcases h3 with rfl | rfl
    · exact ⟨h1, a, h5⟩
    · obtain ⟨p, hp⟩ := hw.fld _ h1 rfl
      rw [h5] at hp; cases hp
  · rintro ⟨h1, h2⟩
    exact ⟨_, ⟨h1, rfl⟩, Or.inl rfl, rfl, h2⟩

theorem mem_fields {x : Fld} : x ∈ (collect g root stack).fields ↔
    ⟨root, x.original, .queryPartition⟩ ∈ g.edges ∧ (∃ a, g.nodes[x.original]? = some (.partition a x.resolver)) ∧
      ⟨x.original, x.node, .field⟩ ∈ g.edges ∧ g.nodes[x.node]? = some (.field x.position) := by
  rw [collect_eq]
  simp only [List.mem_flatMap, mem_out, mem_fieldsE]
  constructor
  · rintro ⟨⟨s, d, k⟩, ⟨h1, h2⟩, h3, h4, ⟨a, h5⟩, h6⟩
    simp only at h2 h3 h4
    subst h2 h4
    rcases h3 with rfl | rfl
    · exact ⟨h1, ⟨a, h5⟩, h6⟩
    · obtain ⟨p, hp⟩ := hw.fld _ h1 rfl
      rw [h5] at hp; cases hp
  · rintro ⟨h1, h2, h3⟩
    exact ⟨_, ⟨h1, rfl⟩, Or.inl rfl, rfl, h2, h3⟩

/-- The fields below a node: those of its partitions and its own. -/
theorem mem_stack {f : Nat} : f ∈ (collect g root stack).stack ↔
    f ∈ stack ∨ ⟨root, f, .field⟩ ∈ g.edges ∨ ∃ r, Under g root r f := by
  rw [collect_eq]
  simp only [List.mem_append, List.mem_reverse, List.mem_flatMap, mem_out]
  constructor
  · rintro (⟨⟨s, d, k⟩, ⟨h1, h2⟩, h3⟩ | h)
    · right
      simp only at h2
      subst h2
      unfold directE at h3
      by_cases hk : Hier k
      · simp only [if_pos hk] at h3
        split at h3
        · rename_i a r hd
          obtain ⟨x, hx, rfl⟩ := List.mem_map.1 h3
          obtain ⟨-, h4, ⟨a', h5⟩, h6, -⟩ := mem_fieldsE.1 hx
          simp only at h4
          subst h4
          rcases hk with rfl | rfl
          · exact Or.inr ⟨x.resolver, x.original, a', h1, h5, h6⟩
          · obtain ⟨p, hp⟩ := hw.fld _ h1 rfl
            rw [h5] at hp; cases hp
        · rename_i pos hd
          simp only [List.mem_singleton] at h3
          subst h3
          rcases hk with rfl | rfl
          · obtain ⟨a, r, hp⟩ := hw.part _ h1 rfl
            rw [hd] at hp; cases hp
          · exact Or.inl h1
        · simp at h3
      · simp [if_neg hk] at h3
    · exact Or.inl h
  · rintro (h | h | ⟨r, p, a, h1, h2, h3⟩)
    · exact Or.inr h
    · left
      refine ⟨_, ⟨h, rfl⟩, ?_⟩
      obtain ⟨pos, hp⟩ := hw.fld _ h rfl
      unfold directE
      simp only at hp
      rw [if_pos (show Hier Kind.field from Or.inr rfl)]
      simp only [hp, List.mem_singleton]
    · left
      refine ⟨_, ⟨h1, rfl⟩, ?_⟩
      obtain ⟨pos, hp⟩ := hw.fld _ h3 rfl
      unfold directE
      rw [if_pos (show Hier Kind.queryPartition from Or.inl rfl)]
      simp only [h2, List.mem_map]
      exact ⟨⟨pos, p, r, f⟩, mem_fieldsE.2 ⟨Or.inl rfl, rfl, ⟨a, h2⟩, h3, hp⟩, rfl⟩

theorem parts_nodup : ((collect g root stack).parts.map (·.1)).Nodup := by
  rw [collect_eq]
  refine List.Nodup.sublist ((partE_sub g _).trans ?_) hw.tree
  exact (List.Sublist.filter _ List.filter_sublist).map _

theorem fields_nodup : ((collect g root stack).fields.map (·.node)).Nodup := by
  rw [collect_eq]
  simp only
  rw [fieldsE_filter, List.map_flatMap, List.nodup_flatMap]
  constructor
  · intro e _
    unfold fieldsE
    split
    · split
      · rename_i a r _
        exact List.Nodup.sublist ((fldE_sub g _ _ _).trans ((List.Sublist.filter _ List.filter_sublist).map _)) hw.tree
      · simp
    · simp
  · have hp : (((g.out root).filter fun e => decide (Hier e.kind)).map (·.dst)).Nodup :=
      List.Nodup.sublist ((List.Sublist.filter _ List.filter_sublist).map _) hw.tree
    rw [List.nodup_iff_pairwise_ne, List.pairwise_map] at hp
    refine hp.imp ?_
    intro e e' hne
    simp only [Function.onFun]
    intro f hf hf'
    obtain ⟨x, hx, rfl⟩ := List.mem_map.1 hf
    obtain ⟨y, hy, hxy⟩ := List.mem_map.1 hf'
    obtain ⟨-, h1, -, h2, -⟩ := mem_fieldsE.1 hx
    obtain ⟨-, h3, -, h4, -⟩ := mem_fieldsE.1 hy
    have := tree_unique hw.tree h2 h4 (Or.inr rfl) (Or.inr rfl) hxy.symm
    simp only [Edge.mk.injEq] at this
    exact hne (by rw [h1, h3, this.1])

end

end Verif.Cycles
