import Verif.Views.InjLemmas
import Verif.Views.BuildLemmas
import Verif.Views.UnionLemmas
import Verif.Views.Witness

/-!
# C72: what is read from the response is what was asked for

For a representation of an entity, an extension's directive or an injected argument, the engine shows
the objects of the response through the tree of required fields of the plan.
-/

namespace Verif.Views

open Verif.OpChecks (sortBy sortBy_perm)

/-! ## Field sets -/

/-- The union of two trees of fields has the paths of the one and of the other and no others; each
field occurs at most once below each field when that is so of both, and `union_cow` is the union. -/
theorem C72_union {α : Type} (a b : List (Item α)) :
    (∀ p, HasPath p (union a b) ↔ HasPath p a ∨ HasPath p b) ∧
    (Strict a → Strict b → Strict (union a b)) ∧
    unionCow a b = union a b := by
  refine ⟨hasPath_union a b, strict_union a b, ?_⟩
  unfold unionCow
  split
  · rename_i h
    rw [List.isEmpty_iff.1 h, union_nil_left]
  · split
    · rename_i h
      rw [List.isEmpty_iff.1 h, union_nil_right]
    · rfl

/-! ## The view of the required fields -/

theorem entriesFor (o : Obj) : ∀ (reqs : List (Item Data)) (es : List (String × Json)),
    requiredEntries reqs o = .ok es ↔
      (∀ r ∈ reqs, o.find r.data.key = none → Foreign r.data o) ∧
      Pairs (EntryFor o) (reqs.filter (fun r => (o.find r.data.key).isSome)) es
  | [], es => by
    rw [requiredEntries]
    constructor
    · intro h
      cases h
      exact ⟨(by intro r hr; cases hr), .nil⟩
    · rintro ⟨-, h⟩
      cases h
      rfl
  | r :: rs, es => by
    rw [requiredEntries, requiredEntry_eq, bind_ok]
    cases hf : o.find r.data.key with
    | none =>
      rw [List.filter_cons_of_neg (by simp [hf])]
      simp only
      by_cases hs : skipped r.data o = true
      · rw [if_pos hs]
        constructor
        · rintro ⟨e, he, h⟩
          cases he
          obtain ⟨es', h1, rfl⟩ := map_ok.1 h
          obtain ⟨h2, h3⟩ := (entriesFor o rs es').1 h1
          refine ⟨?_, h3⟩
          intro x hx hn
          rcases List.mem_cons.1 hx with rfl | hx
          · exact (skipped_iff _ _).1 hs
          · exact h2 x hx hn
        · rintro ⟨h2, h3⟩
          refine ⟨[], rfl, map_ok.2 ⟨es, (entriesFor o rs es).2 ⟨fun x hx => h2 x (List.mem_cons_of_mem _ hx), h3⟩, rfl⟩⟩
      · rw [if_neg hs]
        constructor
        · rintro ⟨e, he, -⟩
          cases he
        · rintro ⟨h2, -⟩
          exact absurd ((skipped_iff _ _).2 (h2 r List.mem_cons_self hf)) hs
    | some v =>
      rw [List.filter_cons_of_pos (by simp [hf])]
      simp only
      constructor
      · rintro ⟨e, he, h⟩
        obtain ⟨j, hj, rfl⟩ := map_ok.1 he
        obtain ⟨es', h1, rfl⟩ := map_ok.1 h
        obtain ⟨h2, h3⟩ := (entriesFor o rs es').1 h1
        refine ⟨?_, .cons _ _ _ _ ⟨rfl, v, hf, (forward_ok _ v j).1 hj⟩ h3⟩
        intro x hx hn
        rcases List.mem_cons.1 hx with rfl | hx
        · rw [hf] at hn
          cases hn
        · exact h2 x hx hn
      · rintro ⟨h2, h3⟩
        cases h3 with
        | cons _ e _ es' h t =>
          obtain ⟨name, j⟩ := e
          obtain ⟨h4, w, h5, h6⟩ := h
          rw [hf] at h5
          cases h5
          simp only at h4
          subst h4
          exact ⟨_, map_ok.2 ⟨j, (forward_ok _ v j).2 h6, rfl⟩,
            map_ok.2 ⟨es', (entriesFor o rs es').2 ⟨fun x hx => h2 x (List.mem_cons_of_mem _ hx), t⟩, rfl⟩⟩

/-- **The required fields of an object.** The view never panics. It is `j` just when `j` is the object
with, in order, the required fields the object has, each under the name of its definition and with the
objects in it cut down to what is required of them, and the required fields the object does not have are
those of other types. -/
theorem C72_required (reqs : List (Item Data)) (o : Obj) :
    required reqs o ≠ .panic ∧
    ∀ j, required reqs o = .ok j ↔
      ∃ es, j = .obj es ∧ (∀ r ∈ reqs, o.find r.data.key = none → Foreign r.data o) ∧
        Pairs (EntryFor o) (reqs.filter (fun r => (o.find r.data.key).isSome)) es := by
  refine ⟨required_panic reqs o, ?_⟩
  intro j
  unfold required
  rw [map_ok]
  constructor
  · rintro ⟨es, h, rfl⟩
    exact ⟨es, rfl, (entriesFor o reqs es).1 h⟩
  · rintro ⟨es, rfl, h⟩
    exact ⟨es, (entriesFor o reqs es).2 h, rfl⟩

/-- **Representations.** A representation never panics. It is the constant fields and then every required
field; when one is missing there is none. -/
theorem C72_representation (extra : List (String × Json)) (reqs : List (Item Data)) (o : Obj) :
    representation extra reqs o ≠ .panic ∧
    ∀ j, representation extra reqs o = .ok j ↔ ∃ es, j = .obj (extra ++ es) ∧ Pairs (EntryFor o) reqs es := by
  refine ⟨representation_panic extra reqs o, ?_⟩
  intro j
  unfold representation
  rw [map_ok]
  have key : ∀ (reqs : List (Item Data)) (es : List (String × Json)),
      representationEntries reqs o = .ok es ↔ Pairs (EntryFor o) reqs es := by
    intro reqs
    induction reqs with
    | nil =>
      intro es
      rw [representationEntries]
      constructor
      · intro h
        cases h
        exact .nil
      · intro h
        cases h
        rfl
    | cons r rs ih =>
      intro es
      rw [representationEntries, bind_ok]
      unfold representationEntry
      cases hf : o.find r.data.key with
      | none =>
        simp only
        constructor
        · rintro ⟨e, he, -⟩
          cases he
        · intro h
          cases h with
          | cons _ e _ es' h t =>
            obtain ⟨-, w, h5, -⟩ := h
            rw [hf] at h5
            cases h5
      | some v =>
        simp only
        constructor
        · rintro ⟨e, he, h⟩
          obtain ⟨j, hj, rfl⟩ := map_ok.1 he
          obtain ⟨es', h1, rfl⟩ := map_ok.1 h
          exact .cons _ _ _ _ ⟨rfl, v, hf, (forward_ok _ v j).1 hj⟩ ((ih es').1 h1)
        · intro h
          cases h with
          | cons _ e _ es' h t =>
            obtain ⟨name, j⟩ := e
            obtain ⟨h4, w, h5, h6⟩ := h
            rw [hf] at h5
            cases h5
            simp only at h4
            subst h4
            exact ⟨_, map_ok.2 ⟨j, (forward_ok _ v j).2 h6, rfl⟩, map_ok.2 ⟨es', (ih es').2 t, rfl⟩⟩
  constructor
  · rintro ⟨es, h, rfl⟩
    exact ⟨es, rfl, (key reqs es).1 h⟩
  · rintro ⟨es, rfl, h⟩
    exact ⟨es, (key reqs es).2 h, rfl⟩

/-- **Nothing else is read.** Two objects that agree on the required fields, whatever their other fields,
are shown alike: by the required fields, as representations and through any injection. -/
theorem C72_reads (reqs : List (Item Data)) (o o' : Obj) (h : AgreeOn reqs o o') :
    required reqs o = required reqs o' ∧
    (∀ extra, representation extra reqs o = representation extra reqs o') ∧
    ∀ names inj, inject names inj reqs o = inject names inj reqs o' := by
  refine ⟨by unfold required; rw [requiredEntries_congr reqs o o' h], ?_, fun names inj => inject_congr names inj reqs o o' h⟩
  intro extra
  unfold representation
  have key : ∀ l : List (Item Data), (∀ r ∈ l, r ∈ reqs) → representationEntries l o = representationEntries l o' := by
    intro l
    induction l with
    | nil => intro _; rw [representationEntries, representationEntries]
    | cons r rs ih =>
      intro hl
      rw [representationEntries, representationEntries, ih (fun r hr => hl r (List.mem_cons_of_mem _ hr))]
      have hf := agreeOn_mem _ _ _ h r (hl r List.mem_cons_self)
      rw [agreeField_eq] at hf
      have : representationEntry r o = representationEntry r o' := by
        unfold representationEntry
        cases h1 : o.find r.data.key with
        | none =>
          cases h2 : o'.find r.data.key with
          | none => rfl
          | some w => simp only [h1, h2] at hf
        | some v =>
          cases h2 : o'.find r.data.key with
          | none => simp only [h1, h2] at hf
          | some w =>
            simp only [h1, h2] at hf
            simp only
            rw [forward_congr (k := required r.sub) (k' := required r.sub) (fun a b hab => by unfold required; rw [requiredEntries_congr r.sub a b hab]) v w hf]
      rw [this]
  rw [key reqs (fun r hr => hr)]

/-! ## The view of a field set -/

/-- **The fields of a directive.** When each field occurs at most once below each field and the required
fields have every path of the field set, the merge of the two lists is the view of the required fields
cut down to the field set. So it does not panic, and it depends on nothing that is not in the field set. -/
theorem C72_field_set_partial (fs : List (Item Unit)) (reqs : List (Item Data)) (hf : Strict fs) (hr : Strict reqs)
    (hc : ∀ p, HasPath p fs → HasPath p reqs) (o : Obj) :
    fieldSet fs reqs o = required (restrict fs reqs) o ∧
    fieldSet fs reqs o ≠ .panic ∧
    ∀ o', AgreeOn (restrict fs reqs) o o' → fieldSet fs reqs o = fieldSet fs reqs o' := by
  have key : ∀ o, fieldSet fs reqs o = required (restrict fs reqs) o := by
    intro o
    unfold fieldSet required
    rw [fieldSetEntries_eq fs reqs reqs o hf hr hr (fun _ _ => rfl) hc]
  refine ⟨key o, ?_, ?_⟩
  · rw [key o]
    exact required_panic _ o
  · intro o' ho
    rw [key o, key o']
    exact (C72_reads _ _ _ ho).1

/-- What is left of the required fields has the paths of the field set that they have, and no others. -/
theorem C72_restrict (fs : List (Item Unit)) (reqs : List (Item Data)) (hr : Strict reqs)
    (hc : ∀ p, HasPath p fs → HasPath p reqs) (p : List Nat) : HasPath p (restrict fs reqs) ↔ HasPath p fs := by
  suffices hs : ∀ (k : Nat) (fs : List (Item Unit)) (reqs : List (Item Data)), sizeOf fs ≤ k → Strict reqs → Covers reqs fs →
      ∀ p, HasPath p (restrict fs reqs) ↔ HasPath p fs from hs _ fs reqs (Nat.le_refl _) hr hc p
  intro k
  induction k with
  | zero =>
    intro fs reqs hk
    cases fs with
    | nil => intro _ _ p; rw [restrict_nil, hasPath_nil, hasPath_nil]
    | cons f fs => simp at hk
  | succ k ih =>
    intro fs reqs hk hr hc p
    cases fs with
    | nil => rw [restrict_nil, hasPath_nil, hasPath_nil]
    | cons f fs =>
      obtain ⟨⟨r, h1, h2⟩, h3⟩ := Covers.head hr hc
      have hsz := fsize f fs
      rw [restrict_cons f fs h1, hasPath_cons, hasPath_cons p f fs, ih fs reqs (by omega) hr h3, hasPath_one, hasPath_one]
      have hid := (look_some h1).2
      show (p = [] ∨ ∃ q, p = r.id :: q ∧ HasPath q (restrict f.sub r.sub)) ∨ _ ↔ _
      rw [hid]
      have hsub := ih f.sub r.sub (by omega) (hr.mem (look_some h1).1) h2
      constructor
      · rintro ((h | ⟨q, rfl, hq⟩) | h)
        · exact .inl (.inl h)
        · exact .inl (.inr ⟨q, rfl, (hsub q).1 hq⟩)
        · exact .inr h
      · rintro ((h | ⟨q, rfl, hq⟩) | h)
        · exact .inl (.inl h)
        · exact .inl (.inr ⟨q, rfl, (hsub q).2 hq⟩)
        · exact .inr h

/-! ## The required fields of a plan -/

theorem dataAt_union : ∀ (p : List Nat) (a b : List (Item Data)) (d : Data), Strict a → Strict b →
    dataAt p (union a b) = some d → dataAt p a = some d ∨ dataAt p b = some d
  | [], a, b, d, _, _, h => by cases h
  | [i], a, b, d, ha, hb, h => by
    rw [dataAt_one, look_union i a b ha hb] at h
    rw [dataAt_one, dataAt_one]
    cases hx : look i a with
    | none =>
      rw [hx] at h
      exact .inr h
    | some x =>
      rw [hx] at h
      cases hy : look i b with
      | none =>
        rw [hy] at h
        exact .inl h
      | some y =>
        rw [hy] at h
        exact .inl h
  | i :: j :: p, a, b, d, ha, hb, h => by
    rw [dataAt_cons i (by simp), look_union i a b ha hb] at h
    rw [dataAt_cons i (by simp), dataAt_cons i (by simp)]
    cases hx : look i a with
    | none =>
      rw [hx] at h
      exact .inr h
    | some x =>
      rw [hx] at h
      cases hy : look i b with
      | none =>
        rw [hy] at h
        exact .inl h
      | some y =>
        rw [hy] at h
        have h : dataAt (j :: p) (if x.sub.isEmpty then y.sub else union x.sub y.sub) = some d := h
        split at h
        · exact .inr h
        · exact dataAt_union (j :: p) x.sub y.sub d (ha.mem (look_some hx).1) (hb.mem (look_some hy).1) h

theorem foldl_union (Rs : List (List (Item Data))) : ∀ (R : List (Item Data)), Strict R → (∀ A ∈ Rs, Strict A) →
    Strict (Rs.foldl union R) ∧
    (∀ p, HasPath p (Rs.foldl union R) ↔ HasPath p R ∨ ∃ A ∈ Rs, HasPath p A) := by
  induction Rs with
  | nil =>
    intro R hR _
    refine ⟨hR, fun p => ?_⟩
    simp
  | cons A Rs ih =>
    intro R hR hA
    obtain ⟨h1, h2⟩ := ih (union R A) (strict_union _ _ hR (hA A List.mem_cons_self)) (fun B hB => hA B (List.mem_cons_of_mem _ hB))
    refine ⟨h1, fun p => ?_⟩
    rw [List.foldl_cons, h2 p, hasPath_union]
    constructor
    · rintro ((h | h) | ⟨B, hB, h⟩)
      · exact .inl h
      · exact .inr ⟨A, List.mem_cons_self, h⟩
      · exact .inr ⟨B, List.mem_cons_of_mem _ hB, h⟩
    · rintro (h | ⟨B, hB, h⟩)
      · exact .inl (.inl h)
      · rcases List.mem_cons.1 hB with rfl | hB
        · exact .inl (.inr h)
        · exact .inr ⟨B, hB, h⟩

theorem fieldSet_same {a b : List (Item Data)} {fs : List (Item Unit)} (hf : Strict fs) (ha : Strict a) (hb : Strict b)
    (hca : Covers a fs) (hcb : Covers b fs) (h : SameView (restrict fs a) (restrict fs b)) (o : Obj) :
    fieldSet fs a o = fieldSet fs b o := by
  rw [(C72_field_set_partial fs a hf ha hca o).1, (C72_field_set_partial fs b hf hb hcb o).1]
  unfold required
  rw [requiredEntries_same h o]

theorem foldl_view {fs : List (Item Unit)} (hf : Strict fs) (o : Obj) (Rs : List (List (Item Data))) :
    ∀ (R : List (Item Data)), Strict R → (∀ A ∈ Rs, Strict A) → Covers R fs →
      fieldSet fs (Rs.foldl union R) o = fieldSet fs R o := by
  induction Rs with
  | nil => intro R _ _ _; rfl
  | cons A Rs ih =>
    intro R hR hA hc
    have hsA := hA A List.mem_cons_self
    have hcu : Covers (union R A) fs := fun p hp => (hasPath_union R A p).2 (.inl (hc p hp))
    rw [List.foldl_cons, ih (union R A) (strict_union _ _ hR hsA) (fun B hB => hA B (List.mem_cons_of_mem _ hB)) hcu]
    exact fieldSet_same hf (strict_union _ _ hR hsA) hR hcu hc
      (restrict_union_left _ fs R A (Nat.le_refl _) hR hsA hc) o

/-- **The requirements of others change nothing.** The required fields of a plan have the paths of those
of its partition and of its fields and no others, each once. The view of a field set whose paths are
required by the partition, or by one of the fields, is the one of those required fields alone, provided
that the required fields agree on the field of the operation that provides each. -/
theorem C72_plan_partial (partition : List (Item Data)) (fields : List (List (Item Data))) (hp : Strict partition)
    (hs : ∀ A ∈ fields, Strict A) :
    Strict (requiredOf partition fields) ∧
    (∀ p, HasPath p (requiredOf partition fields) ↔ HasPath p partition ∨ ∃ A ∈ fields, HasPath p A) ∧
    (∀ fs, Strict fs → (∀ p, HasPath p fs → HasPath p partition) → ∀ o,
      fieldSet fs (requiredOf partition fields) o = fieldSet fs partition o) ∧
    ((∀ A ∈ fields, Consistent partition A) → (∀ A ∈ fields, ∀ B ∈ fields, Consistent A B) →
      ∀ A ∈ fields, ∀ fs, Strict fs → (∀ p, HasPath p fs → HasPath p A) → ∀ o,
        fieldSet fs (requiredOf partition fields) o = fieldSet fs A o) := by
  obtain ⟨h1, h2⟩ := foldl_union fields partition hp hs
  refine ⟨h1, h2, fun fs hf hc o => foldl_view hf o fields partition hp hs hc, ?_⟩
  intro hcp hcc A hA fs hf hc o
  unfold requiredOf
  obtain ⟨before, after, rfl⟩ := List.append_of_mem hA
  rw [List.foldl_append, List.foldl_cons]
  -- what was gathered before `A` is consistent with it
  have hpre : ∀ (l : List (List (Item Data))) (R : List (Item Data)), Strict R → (∀ B ∈ l, Strict B) →
      Consistent R A → (∀ B ∈ l, Consistent B A) → Strict (l.foldl union R) ∧ Consistent (l.foldl union R) A := by
    intro l
    induction l with
    | nil => intro R hR _ hcR _; exact ⟨hR, hcR⟩
    | cons B l ih =>
      intro R hR hB hcR hcB
      have hsB := hB B List.mem_cons_self
      refine ih (union R B) (strict_union _ _ hR hsB) (fun C hC => hB C (List.mem_cons_of_mem _ hC)) ?_
        (fun C hC => hcB C (List.mem_cons_of_mem _ hC))
      intro p d e hd he
      rcases dataAt_union p R B d hR hsB hd with hd | hd
      · exact hcR p d e hd he
      · exact hcB B List.mem_cons_self p d e hd he
  obtain ⟨hsR, hcR⟩ := hpre before partition hp (fun B hB => hs B (List.mem_append_left _ hB)) (hcp A hA)
    (fun B hB => hcc B (List.mem_append_left _ hB) A hA)
  have hsA := hs A hA
  have hcu : Covers (union (before.foldl union partition) A) fs := fun p hp => (hasPath_union _ A p).2 (.inr (hc p hp))
  rw [foldl_view hf o after _ (strict_union _ _ hsR hsA)
    (fun B hB => hs B (List.mem_append_right _ (List.mem_cons_of_mem _ hB))) hcu]
  exact fieldSet_same hf (strict_union _ _ hsR hsA) hsA hcu hc
    (restrict_union_right _ fs _ A (Nat.le_refl _) hsR hsA hc hcR) o

/-! ## Injections -/

/-- **Injected values.** The injection created for a selection gives, for any required fields that have the
paths of the field set created with it, the value the selection describes; and that field set has each
field at most once below each field. -/
theorem C72_injection_partial (names : Nat → String) (s : Sel) (fs : List (Item Unit)) (inj : Inj)
    (h : create s = .ok (fs, inj)) :
    Strict fs ∧
    ∀ reqs, Strict reqs → (∀ p, HasPath p fs → HasPath p reqs) → ∀ o,
      inject names inj reqs o = meaning names s reqs o := by
  have hc := create_created names s fs inj h
  exact ⟨hc.strict, fun reqs hs hcov o => hc.inject hs hcov o⟩

theorem inOrder_keys : ∀ (l : List (String × Out (List (String × Json)))) (es : List (String × Json)),
    (∀ x ∈ l, ∀ e, x.2 = .ok e → e = [] ∨ ∃ j, e = [(x.1, j)]) → inOrder (l.map (·.2)) = .ok es →
    (es.map (·.1)).Sublist (l.map (·.1))
  | [], es, _, h => by
    cases h
    exact .slnil
  | x :: l, es, hx, h => by
    rw [List.map_cons, inOrder, bind_ok] at h
    obtain ⟨e, h1, h2⟩ := h
    obtain ⟨es', h3, rfl⟩ := map_ok.1 h2
    have ih := inOrder_keys l es' (fun y hy => hx y (List.mem_cons_of_mem _ hy)) h3
    rcases hx x List.mem_cons_self e h1 with rfl | ⟨j, rfl⟩
    · exact ih.cons _
    · exact ih.cons₂ _

theorem entryAt_keys {name : String} {k : List (Item Data) → Obj → Out Json} {p : List Nat} {reqs : List (Item Data)} {o : Obj}
    {e : List (String × Json)} (h : entryAt name k p reqs o = .ok e) : e = [] ∨ ∃ j, e = [(name, j)] := by
  cases p with
  | nil =>
    rw [entryAt] at h
    obtain ⟨j, -, rfl⟩ := map_ok.1 h
    exact .inr ⟨j, rfl⟩
  | cons f p =>
    rw [entryAt] at h
    split at h
    · cases h
    · split at h
      · split at h
        · cases h
          exact .inl rfl
        · cases h
      · obtain ⟨j, -, rfl⟩ := map_ok.1 h
        exact .inr ⟨j, rfl⟩

theorem entriesOf_keys (names : Nat → String) (reqs : List (Item Data)) (o : Obj) : ∀ (fields : List (Nat × FieldSel)),
    (entriesOf names fields reqs o).map (·.1.2) = fields.map (·.1) ∧
    ∀ x ∈ entriesOf names fields reqs o, ∀ e, x.2 = .ok e → e = [] ∨ ∃ j, e = [(names x.1.2, j)]
  | [] => by
    rw [entriesOf]
    exact ⟨rfl, by intro x hx; cases hx⟩
  | (key, f) :: fs => by
    obtain ⟨h1, h2⟩ := entriesOf_keys names reqs o fs
    have hk : (entryOf names (key, f) reqs o).1.2 = key ∧
        ∀ e, (entryOf names (key, f) reqs o).2 = .ok e → e = [] ∨ ∃ j, e = [(names key, j)] := by
      cases f with
      | value s =>
        rw [entryOf]
        exact ⟨rfl, fun e he => entryAt_keys he⟩
      | field id =>
        rw [entryOf]
        exact ⟨rfl, fun e he => entryAt_keys (p := [id]) he⟩
      | default j =>
        rw [entryOf]
        refine ⟨rfl, fun e he => ?_⟩
        cases he
        exact .inr ⟨j, rfl⟩
    rw [entriesOf]
    refine ⟨by rw [List.map_cons, List.map_cons, hk.1, h1], ?_⟩
    intro x hx e he
    rcases List.mem_cons.1 hx with rfl | hx
    · rw [hk.1]
      exact hk.2 e he
    · exact h2 x hx e he

/-- **The keys of an injected object** are among those of its selection, each at most once for each time it
is there. -/
theorem C72_keys (names : Nat → String) (fields : List (Nat × FieldSel)) (fs : List (Item Unit)) (inj : Inj)
    (h : create (.object [] fields) = .ok (fs, inj)) (reqs : List (Item Data)) (hs : Strict reqs)
    (hc : ∀ p, HasPath p fs → HasPath p reqs) (o : Obj) (j : Json) (hj : inject names inj reqs o = .ok j) :
    ∃ es keys, j = .obj es ∧ keys.Perm (fields.map (fun f => names f.1)) ∧ (es.map (·.1)).Sublist keys := by
  rw [(C72_injection_partial names _ fs inj h).2 reqs hs hc o, meaning, spine, readPath, endOf] at hj
  obtain ⟨es, h1, rfl⟩ := map_ok.1 hj
  obtain ⟨h2, h3⟩ := entriesOf_keys names reqs o fields
  have hperm := sortBy_perm (fun a b : (Option Nat × Nat) × Out (List (String × Json)) => keyLe a.1 b.1)
    (entriesOf names fields reqs o)
  generalize sortBy (fun a b : (Option Nat × Nat) × Out (List (String × Json)) => keyLe a.1 b.1)
    (entriesOf names fields reqs o) = sorted at h1 hperm
  refine ⟨es, sorted.map (fun x => names x.1.2), rfl, ?_, ?_⟩
  · have := (hperm.map (fun x => x.1.2)).map names
    rw [h2, List.map_map, List.map_map] at this
    exact this
  · have := inOrder_keys (sorted.map (fun x => (names x.1.2, x.2))) es ?_ ?_
    · rw [List.map_map] at this
      exact this
    · intro x hx e he
      obtain ⟨y, hy, rfl⟩ := List.mem_map.1 hx
      exact h3 y (hperm.mem_iff.1 hy) e he
    · rw [List.map_map]
      exact h1

/-! ## The required fields that are built -/

/-- **From the solution to the required fields.** In a solution whose fields come after what they are below,
the required fields built for the dependencies of a node are all of them, each once, but for composite
fields of the first level below which nothing is required of them alone. Each stands for its node, what is
below a field in the set is directly below it in the solution, and what is on the first level is below no
dependency. There is no panic when each dependency has a field. -/
theorem C72_built (g : Graph) (hg : Labelled g) (depth : Nat) (deps : List Nat) (hi : Increasing g deps) (hd : deps.Nodup) :
    ((∀ n ∈ deps, (g.field n).isSome = true) → createRequired g depth deps ≠ .panic) ∧
    ∀ set, createRequired g depth deps = .ok set →
      Sorted set ∧ Placed g set ∧ (∀ i ∈ set, ∀ p ∈ deps, ¬ Under g p i.data.node) ∧
      ∃ dropped, (nodesOf set ++ dropped).Perm deps ∧
        ∀ n ∈ dropped, (∃ id d, g.field n = some (id, d) ∧ g.composite id = true) ∧
          (∀ p ∈ deps, ¬ Under g p n) ∧ (∀ t ∈ deps, Under g n t → ∃ p ∈ nodesOf set, Under g p t) := by
  refine ⟨fun hf => requiredLoop_panic hg _ deps [] hd hf, ?_⟩
  intro set h
  have hsort := required_sorted _ _ _ _ h (by intro i hi; cases hi)
  obtain ⟨acc, dropped, rfl, inv⟩ := createRequired_inv hg hi hd h
  have hnodes := nodesOf_perm (ofVec_perm acc)
  refine ⟨hsort, ?_, fun i hi' => inv.top i (mem_ofVec.1 hi'), dropped, ?_, ?_⟩
  · rw [placed_iff]
    intro i hi'
    exact placed_iff.1 inv.placed i (mem_ofVec.1 hi')
  · have := inv.perm
    rw [List.append_nil] at this
    exact (hnodes.append_right _).trans this
  · intro n hn
    refine ⟨inv.composite n hn, inv.top' n hn, ?_⟩
    intro t ht hu
    obtain ⟨p, hp, hpu⟩ := inv.alone n hn t ht hu
    exact ⟨p, hnodes.mem_iff.2 hp, hpu⟩

/-- Each field is at most once below each field of the set when no two dependencies that are side by side
in the solution are for the same field of the schema. -/
theorem C72_built_strict_partial (g : Graph) (hg : Labelled g) (depth : Nat) (deps : List Nat)
    (hi : Increasing g deps) (hd : deps.Nodup) (ha : Apart g deps)
    (ht : ∀ s ∈ deps, ∀ t ∈ deps, ∀ id d e, g.field s = some (id, d) → g.field t = some (id, e) →
      (∀ p ∈ deps, ¬ Under g p s) → (∀ p ∈ deps, ¬ Under g p t) → s = t)
    (set : List (Item Data)) (h : createRequired g depth deps = .ok set) : Strict set := by
  obtain ⟨h1, h2, h3, dropped, h4, -⟩ := (C72_built g hg depth deps hi hd).2 set h
  have hn : (nodesOf set).Nodup := (List.nodup_append.1 (h4.nodup_iff.2 hd)).1
  have hmem : ∀ n ∈ nodesOf set, n ∈ deps := fun n hn => h4.mem_iff.1 (List.mem_append_left _ hn)
  refine strict_placed ha _ set (Nat.le_refl _) h2 h1 hn hmem ?_
  intro a ha' b hb hne he
  have hfa := ((placedItem_eq a).1 (placed_iff.1 h2 a ha')).1
  have hfb := ((placedItem_eq b).1 (placed_iff.1 h2 b hb)).1
  rw [← he] at hfb
  have hin : ∀ i ∈ set, i.data.node ∈ deps := by
    intro i hi'
    refine hmem _ (mem_nodesOf.2 ⟨i, hi', ?_⟩)
    rw [nodesIn_eq]
    exact List.mem_cons_self
  exact hne (ht _ (hin a ha') _ (hin b hb) _ _ _ hfa hfb (h3 a ha') (h3 b hb))

/-! ## What is not so -/

/-- **A root split over two partitions makes the engine panic.** When the dependencies are two nodes for the
same field `x`, with `n1` below the one and `n2` below the other, the required fields have `x` twice. They
have every path of the field set `x { n1 n2 }`, but its view panics, though the response has both, and the
view of the required fields writes the key `x` twice. -/
theorem C72_shared_root_false :
    createRequired Witness.shared 10 [4, 1, 3, 2] = .ok Witness.sharedSet ∧
    (∀ p, HasPath p Witness.sharedFs → HasPath p Witness.sharedSet) ∧
    fieldSet Witness.sharedFs Witness.sharedSet Witness.root = .panic ∧
    required Witness.sharedSet Witness.root =
      .ok (.obj [("x", .obj [("n1", .leaf "1")]), ("x", .obj [("n2", .leaf "2")])]) := by
  refine ⟨rfl, ?_, rfl, rfl⟩
  intro p hp
  rcases p with _ | ⟨a, _ | ⟨b, _ | ⟨c, p⟩⟩⟩
  · trivial
  · simp [Witness.sharedFs, HasPath, Item.id] at hp
    subst hp
    exact ⟨_, List.mem_cons_self, rfl, trivial⟩
  · simp [Witness.sharedFs, HasPath, Item.id, Item.sub] at hp
    obtain ⟨rfl, rfl | rfl⟩ := hp
    · exact ⟨_, List.mem_cons_self, rfl, _, List.mem_cons_self, rfl, trivial⟩
    · exact ⟨_, List.mem_cons_of_mem _ List.mem_cons_self, rfl, _, List.mem_cons_self, rfl, trivial⟩
  · simp [Witness.sharedFs, HasPath, Item.id, Item.sub] at hp

/-- **A field of another type** is skipped in the view of the required fields and under a key of an injected
object, but is an error on the first level of a representation and of a selection. -/
theorem C72_foreign_false :
    let o : Obj := ⟨some 2, [(13, .leaf "p1")]⟩
    let reqs : List (Item Data) := [.mk 3 Witness.dUpc [], .mk 4 Witness.dPrice []]
    required reqs o = .ok (.obj [("upc", .leaf "p1")]) ∧ representation [] reqs o = .err ∧
    inject Witness.names (.object [(0, .select 4 .identity)]) reqs o = .ok (.obj []) ∧
    inject Witness.names (.select 4 .identity) reqs o = .err := ⟨rfl, rfl, rfl, rfl⟩

/-- **The same field with other arguments** is another field of the schema with the same name: the key is
written twice. -/
theorem C72_arguments_false :
    let o : Obj := ⟨some 1, [(11, .leaf "Ada"), (18, .leaf "ADA")]⟩
    let reqs : List (Item Data) := [.mk 1 Witness.dName [], .mk 9 ⟨18, "name", .object 1, 9⟩ []]
    Strict reqs ∧ required reqs o = .ok (.obj [("name", .leaf "Ada"), ("name", .leaf "ADA")]) := by
  refine ⟨.cons _ _ .nil ?_ (.cons _ _ .nil (by intro j hj; cases hj) .nil), rfl⟩
  intro j hj
  rcases List.mem_cons.1 hj with rfl | hj
  · decide
  · cases hj

/-- **A field that is not required** makes the view of an injected object panic when a later field is
required and silently leave the key out otherwise; the view of a field set panics in both cases. -/
theorem C72_uncovered :
    let o : Obj := ⟨some 1, [(10, .leaf "u1"), (11, .leaf "Ada")]⟩
    inject Witness.names (.object [(4, .select 1 .identity)]) [.mk 0 Witness.dId []] o = .ok (.obj []) ∧
    inject Witness.names (.object [(4, .select 0 .identity)]) [.mk 1 Witness.dName []] o = .panic ∧
    fieldSet [.mk 1 () []] [.mk 0 Witness.dId []] o = .panic ∧
    fieldSet [.mk 0 () []] [.mk 1 Witness.dName []] o = .panic := ⟨rfl, rfl, rfl, rfl⟩

/-- **Two aliases.** When two sets require the same field of the schema from different fields of the
operation, the union reads everything from the first: what the second requires of it is not there. -/
theorem C72_alias_false :
    let a : List (Item Data) := [.mk 7 ⟨20, "x", .object 0, 1⟩ [.mk 8 Witness.dN1 []]]
    let b : List (Item Data) := [.mk 7 ⟨30, "x", .object 0, 3⟩ [.mk 9 Witness.dN2 []]]
    let o : Obj := ⟨some 0, [(20, .object (some 5) [(21, .leaf "1")]), (30, .object (some 5) [(22, .leaf "2")])]⟩
    let fs : List (Item Unit) := [.mk 7 () [.mk 9 () []]]
    fieldSet fs b o = .ok (.obj [("x", .obj [("n2", .leaf "2")])]) ∧ fieldSet fs (requiredOf a [b]) o = .err := ⟨rfl, rfl⟩

/-! ## The hypotheses can be met -/

theorem strict_reqs : Strict Witness.reqs := by
  refine .cons _ _ .nil ?_ (.cons _ _ .nil ?_ (.cons _ _ (.cons _ _ .nil ?_ (.cons _ _ .nil ?_ .nil)) ?_
    (.cons _ _ (.cons _ _ .nil ?_ .nil) ?_ .nil)))
  all_goals
    intro j hj
    simp at hj
    try rcases hj with rfl | rfl | rfl
    all_goals first
      | decide
      | (rcases hj with rfl | rfl <;> decide)
      | (subst hj; decide)

theorem strict_fs : Strict Witness.fs := by
  refine .cons _ _ .nil ?_ (.cons _ _ (.cons _ _ .nil ?_ .nil) ?_ .nil)
  all_goals
    intro j hj
    simp at hj
    try (subst hj; decide)

/-- A view of each kind, of a user with a secret, and what another secret changes: nothing. -/
theorem C72_witness :
    required Witness.reqs Witness.user =
      .ok (.obj [("id", .leaf "u1"), ("name", .leaf "Ada"), ("products", Witness.products),
        ("address", .obj [("city", .leaf "Berlin")])]) ∧
    AgreeOn Witness.reqs Witness.user Witness.user' ∧
    Strict Witness.reqs ∧ Strict Witness.fs ∧ (∀ p, HasPath p Witness.fs → HasPath p Witness.reqs) ∧
    fieldSet Witness.fs Witness.reqs Witness.user =
      .ok (.obj [("name", .leaf "Ada"), ("products", .list [.obj [], .obj [("price", .leaf "12.5")], .null])]) ∧
    representation [("__typename", .leaf "User")] [.mk 0 Witness.dId []] Witness.user =
      .ok (.obj [("__typename", .leaf "User"), ("id", .leaf "u1")]) := by
  refine ⟨rfl, ?_, strict_reqs, strict_fs, ?_, rfl, rfl⟩
  · simp [Witness.reqs, AgreeOn, AgreeField, Witness.user, Witness.user', Obj.find, Witness.dId, Witness.dName,
      Witness.dProducts, Witness.dUpc, Witness.dPrice, Witness.dAddress, Witness.dCity, AgreeVal, AgreeList]
    refine ⟨⟨_, _, ⟨rfl, rfl⟩, ⟨_, _, rfl, ?_, ?_, rfl⟩, _, rfl, _, _, rfl, ?_, ?_, rfl⟩, _, _, ⟨rfl, rfl⟩, ?_, rfl⟩ <;>
      simp [AgreeVal]
  · intro p hp
    rcases p with _ | ⟨a, _ | ⟨b, _ | ⟨c, p⟩⟩⟩
    · trivial
    · simp [Witness.fs, HasPath, Item.id] at hp
      rcases hp with rfl | rfl <;> simp [Witness.reqs, HasPath, Item.id]
    · simp [Witness.fs, HasPath, Item.id, Item.sub] at hp
      obtain ⟨rfl, rfl⟩ := hp
      simp [Witness.reqs, HasPath, Item.id, Item.sub]
    · simp [Witness.fs, HasPath, Item.id, Item.sub] at hp

/-- A selection with each kind of value, what is created for it and what it gives. -/
theorem C72_witness_injection :
    ∃ fs inj, create Witness.sel = .ok (fs, inj) ∧
      fs = [.mk 1 () [], .mk 2 () [.mk 3 () []], .mk 5 () [.mk 6 () []]] ∧
      (∀ p, HasPath p fs → HasPath p Witness.reqs) ∧
      inject Witness.names inj Witness.reqs Witness.user =
        .ok (.obj [("who", .obj [("name", .leaf "Ada")]), ("limit", .leaf "10"),
          ("items", .list [.obj [("code", .leaf "p1")], .obj [("code", .leaf "p2")], .null]), ("where", .leaf "Berlin")]) := by
  refine ⟨_, _, rfl, rfl, ?_, rfl⟩
  intro p hp
  have hp : HasPath p [Item.mk 1 () [], .mk 2 () [.mk 3 () []], .mk 5 () [.mk 6 () []]] := hp
  rcases p with _ | ⟨a, _ | ⟨b, _ | ⟨c, p⟩⟩⟩
  · trivial
  · simp [HasPath, Item.id] at hp
    rcases hp with rfl | rfl | rfl <;> simp [Witness.reqs, HasPath, Item.id]
  · simp [HasPath, Item.id, Item.sub] at hp
    rcases hp with ⟨rfl, rfl⟩ | ⟨rfl, rfl⟩ <;> simp [Witness.reqs, HasPath, Item.id, Item.sub]
  · simp [HasPath, Item.id, Item.sub] at hp

/-- A solution with a partition below a field, and a composite field of which nothing is required. -/
theorem C72_witness_built :
    createRequired Witness.plain 10 [4, 0, 5, 2, 3] =
      .ok [.mk 0 Witness.dId [], .mk 2 Witness.dProducts [.mk 3 Witness.dUpc [], .mk 4 Witness.dPrice []]] ∧
    Labelled Witness.plain ∧ Increasing Witness.plain [4, 0, 5, 2, 3] := by
  refine ⟨rfl, ?_, ?_⟩
  · intro n id d h
    unfold Witness.plain at h
    simp only at h
    split at h <;> cases h <;> rfl
  · have he : ∀ p e, e ∈ Witness.plain.edges p → (p = 2 ∧ (e = .partition 7 ∨ e = .field 3)) ∨ (p = 7 ∧ e = .field 4) := by
      intro p e h
      unfold Witness.plain at h
      simp only at h
      split at h
      · simp at h
        exact .inl ⟨rfl, h⟩
      · simp at h
        exact .inr ⟨rfl, h⟩
      · cases h
    intro p hp t ht hu
    have h34 : (t = 3 ∧ p = 2) ∨ (t = 4 ∧ (p = 2 ∨ p = 7)) := by
      cases hu with
      | field _ _ h =>
        rcases he _ _ h with ⟨rfl, h' | h'⟩ | ⟨rfl, h'⟩
        · cases h'
        · cases h'
          exact .inl ⟨rfl, rfl⟩
        · cases h'
          exact .inr ⟨rfl, .inr rfl⟩
      | partition _ q _ h u =>
        rcases he _ _ h with ⟨rfl, h' | h'⟩ | ⟨rfl, h'⟩
        · cases h'
          cases u with
          | field _ _ h =>
            rcases he _ _ h with ⟨h'', -⟩ | ⟨-, h'⟩
            · omega
            · cases h'
              exact .inr ⟨rfl, .inl rfl⟩
          | partition _ q _ h u =>
            rcases he _ _ h with ⟨h'', -⟩ | ⟨-, h'⟩
            · omega
            · cases h'
        · cases h'
        · cases h'
    simp at hp
    omega

end Verif.Views
