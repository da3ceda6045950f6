import Verif.FieldOwners.Lemmas

/-!
# What the engine reads from the printed directives
-/

namespace Verif.FieldOwners

open Verif.FieldTypes Verif.OpChecks Verif.Compose

theorem mem_insertSet {x y : Name} {l : List Name} : y ∈ insertSet x l ↔ y = x ∨ y ∈ l := by
  unfold insertSet
  split
  · constructor
    · exact Or.inr
    · rintro (rfl | h)
      · assumption
      · exact h
  · simp [or_comm]

theorem insertSet_nodup {x : Name} {l : List Name} (h : l.Nodup) : (insertSet x l).Nodup := by
  unfold insertSet
  split
  · exact h
  · rename_i hx
    rw [List.nodup_append]
    refine ⟨h, List.Pairwise.cons (by simp) List.Pairwise.nil, fun a ha b hb => ?_⟩
    rintro rfl
    rw [List.mem_singleton] at hb
    subst hb
    exact hx ha

theorem foldl_insert (l r : List Name) :
    (∀ y, y ∈ l.foldl (fun r g => insertSet g r) r ↔ y ∈ l ∨ y ∈ r) ∧
    (r.Nodup → (l.foldl (fun r g => insertSet g r) r).Nodup) := by
  induction l generalizing r with
  | nil => exact ⟨fun y => by simp, id⟩
  | cons x xs ih =>
    refine ⟨fun y => ?_, fun h => (ih _).2 (insertSet_nodup h)⟩
    rw [List.foldl_cons, (ih _).1, mem_insertSet, List.mem_cons]
    constructor
    · rintro (h | h | h) <;> simp [h]
    · rintro ((h | h) | h) <;> simp [h]

/-! ## The loop of the engine -/

/-- All the directives name a subgraph the engine knows. -/
def Known (all : List Name) (ps : List Printed) : Prop := ∀ p ∈ ps, ∃ g, p.graph = some g ∧ g ∈ all

theorem step_eq {all : List Name} {ty : FieldType} {p : Printed} {st : St} {g : Name} (hg : p.graph = some g) (ha : g ∈ all) :
    (st.step all ty p).hasJoinField = true ∧ (st.step all ty p).errors = st.errors ∧
    (st.step all ty p).resolvable = (if p.external then st.resolvable else insertSet g st.resolvable) ∧
    (st.step all ty p).overrides = st.overrides ++ (match p.override with
      | some n => if n ∈ all then [n] else []
      | none => []) ∧
    (st.step all ty p).types = st.types ++ (match p.ty with
      | some t => if t ≠ ty then [(g, t)] else []
      | none => []) := by
  unfold St.step St.override
  rw [hg]
  simp only [ha, not_true_eq_false, if_false]
  cases p.override with
  | none =>
    cases p.ty with
    | none => cases p.external <;> simp
    | some t => by_cases ht : t = ty <;> cases p.external <;> simp [ht]
  | some n =>
    by_cases hn : n ∈ all
    · cases p.ty with
      | none => cases p.external <;> simp [hn]
      | some t => by_cases ht : t = ty <;> cases p.external <;> simp [ht, hn]
    · cases p.ty with
      | none => cases p.external <;> simp [hn]
      | some t => by_cases ht : t = ty <;> cases p.external <;> simp [ht, hn]

theorem loop_eq {all : List Name} {ty : FieldType} : ∀ (ps : List Printed) (st : St), Known all ps →
    (ps.foldl (fun (st : St) p => st.step all ty p) st).hasJoinField = (st.hasJoinField || !ps.isEmpty) ∧
    (ps.foldl (fun (st : St) p => st.step all ty p) st).errors = st.errors ∧
    (∀ y, y ∈ (ps.foldl (fun (st : St) p => st.step all ty p) st).resolvable ↔
      y ∈ st.resolvable ∨ ∃ p ∈ ps, p.graph = some y ∧ p.external = false) ∧
    (st.resolvable.Nodup → (ps.foldl (fun (st : St) p => st.step all ty p) st).resolvable.Nodup) ∧
    (∀ y, y ∈ (ps.foldl (fun (st : St) p => st.step all ty p) st).overrides ↔
      y ∈ st.overrides ∨ ∃ p ∈ ps, p.override = some y ∧ y ∈ all) ∧
    (∀ y t, (y, t) ∈ (ps.foldl (fun (st : St) p => st.step all ty p) st).types ↔
      (y, t) ∈ st.types ∨ ∃ p ∈ ps, p.graph = some y ∧ p.ty = some t ∧ t ≠ ty) := by
  intro ps
  induction ps with
  | nil => intro st _; simp
  | cons p ps ih =>
    intro st hk
    obtain ⟨g, hg, ha⟩ := hk p List.mem_cons_self
    obtain ⟨s1, s2, s3, s4, s5⟩ := step_eq (ty := ty) (st := st) hg ha
    obtain ⟨i1, i2, i3, i4, i5, i6⟩ := ih (st.step all ty p) fun q hq => hk q (List.mem_cons_of_mem _ hq)
    rw [List.foldl_cons]
    refine ⟨?_, ?_, fun y => ?_, fun h => i4 ?_, fun y => ?_, fun y t => ?_⟩
    · rw [i1, s1]; simp
    · rw [i2, s2]
    · rw [i3, s3]
      constructor
      · rintro (h | ⟨q, hq, h⟩)
        · cases hx : p.external
          · rw [hx, if_neg (by simp), mem_insertSet] at h
            rcases h with rfl | h
            · exact Or.inr ⟨p, List.mem_cons_self, hg, hx⟩
            · exact Or.inl h
          · rw [hx, if_pos rfl] at h
            exact Or.inl h
        · exact Or.inr ⟨q, List.mem_cons_of_mem _ hq, h⟩
      · rintro (h | ⟨q, hq, h1, h2⟩)
        · left
          split
          · exact h
          · exact mem_insertSet.2 (Or.inr h)
        · rcases List.mem_cons.1 hq with rfl | hq
          · left
            rw [h2, if_neg (by simp), mem_insertSet]
            rw [hg] at h1
            exact Or.inl (Option.some.inj h1).symm
          · exact Or.inr ⟨q, hq, h1, h2⟩
    · rw [s3]
      split
      · exact h
      · exact insertSet_nodup h
    · rw [i5, s4, List.mem_append, or_assoc]
      refine or_congr Iff.rfl ?_
      constructor
      · rintro (h | ⟨q, hq, h⟩)
        · cases ho : p.override with
          | none => rw [ho] at h; simp at h
          | some n =>
            rw [ho] at h
            simp only at h
            split at h
            · rename_i hn
              rw [List.mem_singleton] at h
              subst h
              exact ⟨p, List.mem_cons_self, ho, hn⟩
            · simp at h
        · exact ⟨q, List.mem_cons_of_mem _ hq, h⟩
      · rintro ⟨q, hq, h1, h2⟩
        rcases List.mem_cons.1 hq with rfl | hq
        · left; rw [h1]; simp [h2]
        · exact Or.inr ⟨q, hq, h1, h2⟩
    · rw [i6, s5, List.mem_append, or_assoc]
      refine or_congr Iff.rfl ?_
      constructor
      · rintro (h | ⟨q, hq, h⟩)
        · cases ho : p.ty with
          | none => rw [ho] at h; simp at h
          | some n =>
            rw [ho] at h
            simp only at h
            split at h
            · rename_i hn
              rw [List.mem_singleton] at h
              cases h
              exact ⟨p, List.mem_cons_self, hg, ho, hn⟩
            · simp at h
        · exact ⟨q, List.mem_cons_of_mem _ hq, h⟩
      · rintro ⟨q, hq, h1, h2, h3⟩
        rcases List.mem_cons.1 hq with rfl | hq
        · left
          rw [hg] at h1
          cases h1
          rw [h2]; simp [h3]
        · exact Or.inr ⟨q, hq, h1, h2, h3⟩

/-- What the engine makes of directives on subgraphs it knows. -/
theorem ingest_eq {all : List Name} {ty : FieldType} {jt : List Name} {ps : List Printed} (hk : Known all ps)
    (hj : ∀ g ∈ jt, g ∈ all) :
    (ingestField all ty jt ps).errors = 0 ∧
    (∀ y t, (y, t) ∈ (ingestField all ty jt ps).types ↔ ∃ p ∈ ps, p.graph = some y ∧ p.ty = some t ∧ t ≠ ty) ∧
    (all.Nodup → (ingestField all ty jt ps).existsIn.Nodup) ∧
    ∀ y, y ∈ (ingestField all ty jt ps).existsIn ↔
      if ps = [] then (if jt = [] then y ∈ all else y ∈ jt)
      else (∃ p ∈ ps, p.graph = some y ∧ p.external = false) ∧ ¬ ∃ p ∈ ps, p.override = some y := by
  obtain ⟨i1, i2, i3, i4, i5, i6⟩ := loop_eq (ty := ty) ps ⟨[], [], false, [], 0⟩ hk
  have hf : jt.filter (fun g => decide (g ∈ all)) = jt := List.filter_eq_self.2 fun g hg => by simpa using hj g hg
  unfold ingestField
  simp only [hf]
  generalize ps.foldl (fun (st : St) p => st.step all ty p) ⟨[], [], false, [], 0⟩ = st at i1 i2 i3 i4 i5 i6
  refine ⟨by simp [i2], fun y t => by rw [i6]; simp, fun hn => ?_, fun y => ?_⟩
  · split
    · exact hn
    · refine List.Pairwise.filter _ ?_
      split
      · exact i4 List.nodup_nil
      · exact (foldl_insert _ _).2 (i4 List.nodup_nil)
  · cases ps with
    | nil =>
      have h0 : st.hasJoinField = false := by rw [i1]; rfl
      have hr : st.resolvable = [] := by
        rw [List.eq_nil_iff_forall_not_mem]
        intro z hz
        have := (i3 z).1 hz
        simp at this
      have ho : st.overrides = [] := by
        rw [List.eq_nil_iff_forall_not_mem]
        intro z hz
        have := (i5 z).1 hz
        simp at this
      simp only [h0, hr, ho, if_true]
      cases jt with
      | nil => simp
      | cons g gs =>
        simp only [List.isEmpty_cons, Bool.and_false]
        rw [if_neg (by simp), if_neg (by simp), if_neg (by simp), List.mem_filter, (foldl_insert _ _).1]
        simp
    | cons p ps =>
      have h0 : st.hasJoinField = true := by rw [i1]; rfl
      simp only [h0, Bool.not_true, Bool.false_and, Bool.false_eq_true, if_false, if_true]
      rw [if_neg (List.cons_ne_nil _ _), List.mem_filter, i3]
      simp only [decide_not, Bool.not_eq_true', decide_eq_false_iff_not, i5]
      constructor
      · rintro ⟨h1, h2⟩
        have h1 : ∃ q ∈ p :: ps, q.graph = some y ∧ q.external = false := by simpa using h1
        refine ⟨h1, ?_⟩
        rintro ⟨q, hq, hqo⟩
        obtain ⟨r, hr, hrg, _⟩ := h1
        obtain ⟨g, hg, hga⟩ := hk r hr
        rw [hrg] at hg
        cases hg
        exact h2 (Or.inr ⟨q, hq, hqo, hga⟩)
      · rintro ⟨h1, h2⟩
        refine ⟨Or.inr h1, ?_⟩
        rintro (h | ⟨q, hq, hqo, _⟩)
        · simp at h
        · exact h2 ⟨q, hq, hqo⟩

/-! ## The printed directives -/

theorem mem_fullyOverridden (joins : List JoinField) (i : Nat) :
    i ∈ fullyOverridden joins ↔ ∃ j ∈ joins, j.override = some (.subgraph i) ∧ (j.label = none ∨ j.label = some (.percent 100)) := by
  unfold fullyOverridden
  rw [List.mem_filterMap]
  constructor
  · rintro ⟨j, hj, h⟩
    refine ⟨j, hj, ?_⟩
    split at h
    · rename_i h1 h2; cases h; exact ⟨h1, Or.inl h2⟩
    · rename_i h1 h2; cases h; exact ⟨h1, Or.inr h2⟩
    · cases h
  · rintro ⟨j, hj, h1, h2⟩
    refine ⟨j, hj, ?_⟩
    rcases h2 with h2 | h2 <;> simp [h1, h2]

theorem sourceOf_subgraph {sg : List Subgraph} {name : Name} {i : Nat} (h : sourceOf sg name = .subgraph i) :
    ∃ s, sg[i]? = some s ∧ name = s.name := by
  unfold sourceOf at h
  split at h
  · rename_i j hj
    cases h
    rw [List.findIdx?_eq_some_iff_getElem] at hj
    obtain ⟨hlt, hb, _⟩ := hj
    have hb : sg[i].name = name := by simpa using hb
    exact ⟨sg[i], List.getElem?_eq_getElem hlt, hb.symm⟩
  · cases h

theorem sourceOf_of {sg : List Subgraph} (hd : ∀ (i j : Nat) (a b : Subgraph), sg[i]? = some a → sg[j]? = some b → a.name = b.name → i = j)
    {i : Nat} {s : Subgraph} (h : sg[i]? = some s) : sourceOf sg s.name = .subgraph i := by
  cases hs : sourceOf sg s.name with
  | subgraph j =>
    obtain ⟨t, ht, hn⟩ := sourceOf_subgraph hs
    rw [hd i j s t h ht hn]
  | missing n =>
    unfold sourceOf at hs
    split at hs
    · cases hs
    · rename_i hf
      rw [List.findIdx?_eq_none_iff] at hf
      have := hf s (List.mem_of_getElem? h)
      simp at this

/-- The printed name of the overridden subgraph is the one in the directive of the subgraph. -/
theorem printed_override {u : Unicode} {sg : List Subgraph} {ty : FieldType} {v : View} :
    (printJoinField u sg (joinField sg ty v)).override = v.f.override.map (·.src) := by
  unfold printJoinField joinField
  simp only [Option.map_map]
  congr 1
  funext o
  simp only [Function.comp]
  cases h : sourceOf sg o.src with
  | subgraph i =>
    obtain ⟨s, hs, hn⟩ := sourceOf_subgraph h
    simp [nameOf, hs, hn]
  | missing n =>
    unfold sourceOf at h
    split at h
    · cases h
    · cases h; rfl

theorem distinct_names {u : Unicode} {sg : List Subgraph} (h : DistinctEnums u sg) (i j : Nat) (a b : Subgraph)
    (ha : sg[i]? = some a) (hb : sg[j]? = some b) (he : a.name = b.name) : i = j :=
  h i j a b ha hb (by rw [he])

theorem overridden_iff {u : Unicode} {sg : List Subgraph} (hd : DistinctEnums u sg) {defs : List Def} {n i : Nat}
    {ty : FieldType} :
    i ∈ fullyOverridden ((named defs n).map (joinField sg ty)) ↔ Overridden sg defs n i := by
  rw [mem_fullyOverridden]
  constructor
  · rintro ⟨_, hj, h1, h2⟩
    obtain ⟨v, hv, rfl⟩ := List.mem_map.1 hj
    obtain ⟨hvd, hvf, hvn⟩ := mem_named.1 hv
    simp only [joinField, Option.map_eq_some_iff] at h1
    obtain ⟨o, ho, hs⟩ := h1
    refine ⟨v.d, hvd, v.f, hvf, hvn, o, ho, sourceOf_subgraph hs, ?_⟩
    cases hl : o.label with
    | none => trivial
    | some l =>
      rw [← parseLabel_full]
      simpa [joinField, ho, hl] using h2
  · rintro ⟨d, hd', f, hf, hn, o, ho, ⟨s, hs, hsn⟩, hl⟩
    refine ⟨_, List.mem_map.2 ⟨⟨d, f⟩, mem_named.2 ⟨hd', hf, hn⟩, rfl⟩, ?_, ?_⟩
    · simp only [joinField, ho, Option.map_some, hsn, sourceOf_of (distinct_names hd) hs]
    · cases hol : o.label with
      | none => left; simp [joinField, ho, hol]
      | some l =>
        right
        rw [hol, ← parseLabel_full] at hl
        simp [joinField, ho, hol, hl]

/-! ## Types of a subgraph -/

theorem mem_dedup (l : List Nat) (x : Nat) : x ∈ dedup l ↔ x ∈ l := by
  fun_induction dedup l with
  | case1 => rfl
  | case2 => rfl
  | case3 a l ih => rw [ih]; simp
  | case4 a b l hne ih => rw [List.mem_cons, ih, List.mem_cons (a := x) (b := a)]

theorem mem_sortNat (l : List Nat) (x : Nat) : x ∈ sortNat l ↔ x ∈ l := (sortBy_perm _ l).mem_iff

theorem mem_joinTypes {sg : List Subgraph} {defs : List Def} (h : (entityness sg defs).2 = []) (i : Nat) :
    i ∈ joinTypes sg defs ↔ HasType defs i := by
  unfold joinTypes HasType
  have hany : (defs.any fun d => !d.keys.isEmpty) = true ↔ ∃ e ∈ defs, e.keys ≠ [] := by simp
  unfold entityness at h ⊢
  by_cases he : (defs.any fun d => !d.keys.isEmpty) = true
  · rw [he] at h ⊢
    simp only [Bool.not_true, Bool.false_eq_true, if_false] at h ⊢
    split at h
    · rename_i hall
      rw [if_pos hall]
      simp only [if_true, List.mem_flatMap, List.mem_map]
      constructor
      · rintro ⟨d, hd, k, hk, rfl⟩
        exact ⟨d, hd, rfl, fun _ => List.ne_nil_of_mem hk⟩
      · rintro ⟨d, hd, rfl, hk⟩
        obtain ⟨k, hk⟩ := List.exists_mem_of_ne_nil _ (hk (hany.1 he))
        exact ⟨d, hd, k, hk, rfl⟩
    · cases h
  · have he' : ¬ ∃ e ∈ defs, e.keys ≠ [] := fun h => he (hany.2 h)
    rw [Bool.not_eq_true] at he
    rw [he]
    simp only [Bool.not_false, if_true, Bool.false_eq_true, if_false, mem_dedup, mem_sortNat, List.mem_map]
    constructor
    · rintro ⟨d, hd, rfl⟩
      exact ⟨d, hd, rfl, fun h => absurd h he'⟩
    · rintro ⟨d, hd, rfl, _⟩
      exact ⟨d, hd, rfl⟩

theorem getElem?_of_graph {sg : List Subgraph} {i : Nat} (h : i < sg.length) : ∃ s, sg[i]? = some s :=
  ⟨sg[i], List.getElem?_eq_getElem h⟩

theorem mem_engineGraphs {u : Unicode} {sg : List Subgraph} {y : Name} :
    y ∈ engineGraphs u sg ↔ ∃ (i : Nat) (s : Subgraph), sg[i]? = some s ∧ y = enumName u s.name := by
  unfold engineGraphs
  rw [List.mem_eraseDups, List.mem_map]
  constructor
  · rintro ⟨s, hs, rfl⟩
    obtain ⟨i, hi⟩ := List.mem_iff_getElem?.1 hs
    exact ⟨i, s, hi, rfl⟩
  · rintro ⟨i, s, hs, rfl⟩
    exact ⟨s, List.mem_of_getElem? hs, rfl⟩

theorem enum_inj {u : Unicode} {sg : List Subgraph} (hd : DistinctEnums u sg) {i j : Nat} (hi : i < sg.length)
    (hj : j < sg.length) : enumName u (nameOf sg i) = enumName u (nameOf sg j) ↔ i = j := by
  obtain ⟨s, hs⟩ := getElem?_of_graph hi
  obtain ⟨t, ht⟩ := getElem?_of_graph hj
  constructor
  · intro h
    simp only [nameOf, hs, ht, Option.map_some, Option.getD_some] at h
    exact hd i j s t hs ht h
  · rintro rfl; rfl

theorem contains_false {l : List Nat} {x : Nat} : l.contains x = false ↔ x ∉ l := by simp

theorem nodup_eraseDups : ∀ (n : Nat) (l : List Name), l.length ≤ n → l.eraseDups.Nodup := by
  intro n
  induction n with
  | zero =>
    intro l hl
    have : l = [] := List.eq_nil_of_length_eq_zero (by omega)
    subst this
    exact List.nodup_nil
  | succ n ih =>
    intro l hl
    cases l with
    | nil => exact List.nodup_nil
    | cons a t =>
      rw [List.eraseDups_cons, List.nodup_cons]
      refine ⟨fun h => ?_, ih _ ?_⟩
      · rw [List.mem_eraseDups] at h
        simp at h
      · have := List.length_filter_le (fun b => !b == a) t
        simp only [List.length_cons] at hl
        omega

/-- The directives that are printed: all but those of overridden subgraphs, or none if they add nothing. -/
theorem written {u : Unicode} {sg : List Subgraph} (hd : DistinctEnums u sg) {defs : List Def} {n : Nat} {ty : FieldType}
    {jt : List Nat} {p : Printed} :
    p ∈ writeJoinFields u sg jt ((named defs n).map (joinField sg ty)) ↔
      mustBePresent jt ((named defs n).map (joinField sg ty)) = true ∧
      ∃ v ∈ named defs n, ¬ Overridden sg defs n v.d.subgraph ∧ p = printJoinField u sg (joinField sg ty v) := by
  unfold writeJoinFields
  rw [List.mem_map]
  constructor
  · rintro ⟨j, hj, rfl⟩
    obtain ⟨hj, hc⟩ := List.mem_filter.1 hj
    obtain ⟨v, hv, rfl⟩ := List.mem_map.1 hj
    simp only [Bool.not_or, Bool.not_not, Bool.and_eq_true, Bool.not_eq_true', contains_false] at hc
    exact ⟨hc.1, v, hv, fun h => hc.2 ((overridden_iff hd (ty := ty)).2 h), rfl⟩
  · rintro ⟨hm, v, hv, ho, rfl⟩
    refine ⟨_, List.mem_filter.2 ⟨List.mem_map.2 ⟨v, hv, rfl⟩, ?_⟩, rfl⟩
    simp only [Bool.not_or, Bool.not_not, Bool.and_eq_true, Bool.not_eq_true', contains_false]
    exact ⟨hm, fun h => ho ((overridden_iff hd).1 h)⟩

/-- If the directives are left out, no definition says anything special and the type is defined where the
field is. -/
theorem omitted {sg : List Subgraph} {defs : List Def} {n : Nat} {ty : FieldType} {jt : List Nat}
    (h : mustBePresent jt ((named defs n).map (joinField sg ty)) = false) :
    (∀ v ∈ named defs n, v.f.override = none ∧ v.f.ty = ty ∧ ¬ ExternalIn v.d v.f) ∧
    ∀ i, i ∈ jt ↔ ∃ v ∈ named defs n, v.d.subgraph = i := by
  unfold mustBePresent at h
  rw [Bool.or_eq_false_iff, List.any_eq_false] at h
  obtain ⟨h1, h2⟩ := h
  simp only [ne_eq, decide_eq_false_iff_not, Decidable.not_not] at h2
  refine ⟨fun v hv => ?_, fun i => ?_⟩
  · have := h1 _ (List.mem_map.2 ⟨v, hv, rfl⟩)
    simp only [Bool.not_eq_true, Bool.or_eq_false_iff, joinField] at this
    obtain ⟨⟨⟨⟨ho, _⟩, _⟩, ht⟩, hx⟩ := this
    refine ⟨by simpa using ho, ?_, ?_⟩
    · by_cases hty : v.f.ty = ty
      · exact hty
      · simp [hty] at ht
    · rw [← external_iff, hx]
      simp
  · have : i ∈ dedup (sortNat jt) ↔ i ∈ sortNat (((named defs n).map (joinField sg ty)).map (·.graph)) := by rw [h2]
    rw [mem_dedup, mem_sortNat, mem_sortNat] at this
    rw [this, List.map_map, List.mem_map]
    rfl

/-- The subgraphs in which the engine looks for a field. -/
theorem owners {u : Unicode} {sg : List Subgraph} (hd : DistinctEnums u sg) {defs : List Def} (hw : WF sg defs) {n : Nat}
    (hn : ∃ d ∈ defs, ∃ f ∈ d.fields, f.name = n) {c : ComposedField} {jt : List Nat} (hjt : ∀ i ∈ jt, i < sg.length)
    (hc : c.joins = (named defs n).map (joinField sg c.ty)) :
    (engineField u sg jt c).errors = 0 ∧ (engineField u sg jt c).existsIn.Nodup ∧
    (∀ y t, (y, t) ∈ (engineField u sg jt c).types ↔
      ∃ v ∈ named defs n, ¬ Overridden sg defs n v.d.subgraph ∧ y = enumName u (nameOf sg v.d.subgraph) ∧ t = v.f.ty ∧
        v.f.ty ≠ c.ty) ∧
    (∀ y ∈ (engineField u sg jt c).existsIn, y ∈ engineGraphs u sg) ∧
    ∀ i, i < sg.length → (enumName u (nameOf sg i) ∈ (engineField u sg jt c).existsIn ↔
      (AllOverridden sg defs n ∧ (jt = [] ∨ i ∈ jt)) ∨
      (¬ AllOverridden sg defs n ∧ Resolves sg defs n i ∧ ¬ OverridesName sg defs n (enumName u (nameOf sg i)))) := by
  have hgraph : ∀ v ∈ named defs n, v.d.subgraph < sg.length := fun v hv => hw.graph _ (mem_named.1 hv).1
  have hmem : ∀ i, i < sg.length → enumName u (nameOf sg i) ∈ engineGraphs u sg := by
    intro i hi
    obtain ⟨s, hs⟩ := getElem?_of_graph hi
    exact mem_engineGraphs.2 ⟨i, s, hs, by simp [nameOf, hs]⟩
  have hk : Known (engineGraphs u sg) (writeJoinFields u sg jt c.joins) := by
    intro p hp
    rw [hc] at hp
    obtain ⟨_, v, hv, _, rfl⟩ := (written hd).1 hp
    exact ⟨_, rfl, hmem _ (hgraph v hv)⟩
  have hjt' : ∀ g ∈ jt.map fun i => enumName u (nameOf sg i), g ∈ engineGraphs u sg := by
    intro g hg
    obtain ⟨i, hi, rfl⟩ := List.mem_map.1 hg
    exact hmem i (hjt i hi)
  obtain ⟨e1, e2, e3, e4⟩ := ingest_eq (ty := c.ty) hk hjt'
  unfold engineField
  have hnd : (engineGraphs u sg).Nodup := by
    unfold engineGraphs
    exact nodup_eraseDups _ _ (Nat.le_refl _)
  refine ⟨e1, e3 hnd, fun y t => ?_, fun y hy => ?_, fun i hi => ?_⟩
  · rw [e2, hc]
    constructor
    · rintro ⟨p, hp, hg, ht, hne⟩
      obtain ⟨_, v, hv, ho, rfl⟩ := (written hd).1 hp
      simp only [printJoinField, joinField, Option.some.injEq, ne_eq] at hg ht
      by_cases hty : v.f.ty = c.ty
      · simp [hty] at ht
      · rw [if_pos hty] at ht
        cases ht
        exact ⟨v, hv, ho, hg.symm, rfl, hty⟩
    · rintro ⟨v, hv, ho, rfl, rfl, hne⟩
      refine ⟨_, (written hd).2 ⟨?_, v, hv, ho, rfl⟩, rfl, ?_, hne⟩
      · cases hm : mustBePresent jt ((named defs n).map (joinField sg c.ty)) with
        | true => rfl
        | false => exact absurd ((omitted hm).1 v hv).2.1 hne
      · simp [printJoinField, joinField, hne]
  · have := (e4 y).1 hy
    split at this
    · split at this
      · exact this
      · exact hjt' y this
    · obtain ⟨⟨p, hp, hg, _⟩, _⟩ := this
      obtain ⟨g, hg', hga⟩ := hk p hp
      rw [hg] at hg'
      cases hg'
      exact hga
  · rw [e4]
    have hjmem : enumName u (nameOf sg i) ∈ jt.map (fun i => enumName u (nameOf sg i)) ↔ i ∈ jt := by
      rw [List.mem_map]
      constructor
      · rintro ⟨j, hj, he⟩
        rw [enum_inj hd (hjt j hj) hi] at he
        exact he ▸ hj
      · exact fun h => ⟨i, h, rfl⟩
    by_cases hnil : writeJoinFields u sg jt c.joins = []
    · rw [if_pos hnil]
      have hif : (if jt.map (fun i => enumName u (nameOf sg i)) = [] then enumName u (nameOf sg i) ∈ engineGraphs u sg
          else enumName u (nameOf sg i) ∈ jt.map fun i => enumName u (nameOf sg i)) ↔ (jt = [] ∨ i ∈ jt) := by
        cases jt with
        | nil => simp [hmem i hi]
        | cons a as =>
          rw [if_neg (by simp), hjmem]
          simp
      rw [hif]
      by_cases hall : AllOverridden sg defs n
      · simp [hall]
      · have hm : mustBePresent jt ((named defs n).map (joinField sg c.ty)) = false := by
          cases hm : mustBePresent jt ((named defs n).map (joinField sg c.ty)) with
          | false => rfl
          | true =>
            exfalso
            apply hall
            intro d hd' f hf hfn
            apply Classical.byContradiction
            intro ho
            have := (written hd (jt := jt)).2 ⟨hm, ⟨d, f⟩, mem_named.2 ⟨hd', hf, hfn⟩, ho, rfl⟩
            rw [← hc, hnil] at this
            cases this
        obtain ⟨o1, o2⟩ := omitted hm
        have hno : ∀ j, ¬ Overridden sg defs n j := by
          rintro j ⟨d, hd', f, hf, hfn, o, ho, _⟩
          have := (o1 ⟨d, f⟩ (mem_named.2 ⟨hd', hf, hfn⟩)).1
          simp only at this
          rw [this] at ho
          cases ho
        have hnn : ¬ OverridesName sg defs n (enumName u (nameOf sg i)) := by
          rintro ⟨d, hd', _, f, hf, hfn, o, ho, _⟩
          have := (o1 ⟨d, f⟩ (mem_named.2 ⟨hd', hf, hfn⟩)).1
          simp only at this
          rw [this] at ho
          cases ho
        have hjne : jt ≠ [] := by
          obtain ⟨d, hd', f, hf, hfn⟩ := hn
          exact List.ne_nil_of_mem ((o2 d.subgraph).2 ⟨⟨d, f⟩, mem_named.2 ⟨hd', hf, hfn⟩, rfl⟩)
        constructor
        · rintro (h | h)
          · exact absurd h hjne
          · obtain ⟨v, hv, rfl⟩ := (o2 i).1 h
            obtain ⟨h1, h2, h3⟩ := mem_named.1 hv
            exact Or.inr ⟨hall, ⟨⟨v.d, h1, rfl, v.f, h2, h3, (o1 v hv).2.2⟩, hno _⟩, hnn⟩
        · rintro (⟨h, _⟩ | ⟨_, ⟨⟨d, hd', rfl, f, hf, hfn, _⟩, _⟩, _⟩)
          · exact absurd h hall
          · exact Or.inr ((o2 d.subgraph).2 ⟨⟨d, f⟩, mem_named.2 ⟨hd', hf, hfn⟩, rfl⟩)
    · rw [if_neg hnil]
      obtain ⟨p, hp⟩ := List.exists_mem_of_ne_nil _ hnil
      rw [hc] at hp
      obtain ⟨hm, v, hv, ho, _⟩ := (written hd).1 hp
      have hall : ¬ AllOverridden sg defs n := fun h => ho (h _ (mem_named.1 hv).1 _ (mem_named.1 hv).2.1 (mem_named.1 hv).2.2)
      have h1 : (∃ p ∈ writeJoinFields u sg jt c.joins, p.graph = some (enumName u (nameOf sg i)) ∧ p.external = false) ↔
          Resolves sg defs n i := by
        rw [hc]
        constructor
        · rintro ⟨p, hp, hg, hx⟩
          obtain ⟨_, w, hw', ho', rfl⟩ := (written hd).1 hp
          simp only [printJoinField, joinField, Option.some.injEq] at hg hx
          rw [enum_inj hd (hgraph w hw') hi] at hg
          subst hg
          obtain ⟨m1, m2, m3⟩ := mem_named.1 hw'
          refine ⟨⟨w.d, m1, rfl, w.f, m2, m3, ?_⟩, ho'⟩
          rw [← external_iff, hx]
          simp
        · rintro ⟨⟨d, hd', rfl, f, hf, hfn, hx⟩, ho'⟩
          refine ⟨_, (written hd).2 ⟨hm, ⟨d, f⟩, mem_named.2 ⟨hd', hf, hfn⟩, ho', rfl⟩, rfl, ?_⟩
          rw [← external_iff (⟨d, f⟩ : View), Bool.not_eq_true] at hx
          exact hx
      have h2 : (∃ p ∈ writeJoinFields u sg jt c.joins, p.override = some (enumName u (nameOf sg i))) ↔
          OverridesName sg defs n (enumName u (nameOf sg i)) := by
        rw [hc]
        constructor
        · rintro ⟨p, hp, hg⟩
          obtain ⟨_, w, hw', ho', rfl⟩ := (written hd).1 hp
          rw [printed_override, Option.map_eq_some_iff] at hg
          obtain ⟨m1, m2, m3⟩ := mem_named.1 hw'
          obtain ⟨o, h1, h2⟩ := hg
          exact ⟨w.d, m1, ho', w.f, m2, m3, o, h1, h2⟩
        · rintro ⟨d, hd', ho', f, hf, hfn, o, h1, h2⟩
          refine ⟨_, (written hd).2 ⟨hm, ⟨d, f⟩, mem_named.2 ⟨hd', hf, hfn⟩, ho', rfl⟩, ?_⟩
          rw [printed_override, Option.map_eq_some_iff]
          exact ⟨o, h1, h2⟩
      rw [h1, h2]
      simp [hall]

end Verif.FieldOwners
