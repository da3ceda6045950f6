import Verif.OpChecks.Spec
import Verif.PatchPaths.Lemmas
import Std
/-!
# Operation checks: lemmas about the schema tables
-/
namespace Verif.OpChecks
open Verif.CheckTypes Verif.Common Verif.PatchPaths Std

/-! ## The orders -/

instance : TransCmp cmp2 := by
  have h : cmp2 = compareLex (compareOn (·.1)) (compareOn (·.2)) := rfl
  rw [h]; infer_instance

instance : TransCmp cmp3 := by
  have h : cmp3 = compareLex (compareOn (·.1)) (compareLex (compareOn (·.2.1)) (compareOn (·.2.2))) := rfl
  rw [h]; infer_instance

theorem cmp2_eq {a b : Name × Name} : cmp2 a b = .eq ↔ a = b := by
  obtain ⟨a1, a2⟩ := a
  obtain ⟨b1, b2⟩ := b
  simp [cmp2, Ordering.then_eq_eq, Nat.compare_eq_eq]

theorem cmp3_eq {a b : Name × Name × Name} : cmp3 a b = .eq ↔ a = b := by
  obtain ⟨a1, a2, a3⟩ := a
  obtain ⟨b1, b2, b3⟩ := b
  simp [cmp3, Ordering.then_eq_eq, Nat.compare_eq_eq]

theorem cmp2_le {a b : Name × Name} : (cmp2 a b).isLE = true ↔ a.1 < b.1 ∨ a.1 = b.1 ∧ a.2 ≤ b.2 := by
  unfold cmp2
  rw [Ordering.isLE_then_iff_or]
  simp [Nat.isLE_compare, Nat.compare_eq_lt, Nat.compare_eq_eq]

theorem cmp3_le {a b : Name × Name × Name} : (cmp3 a b).isLE = true ↔
    a.1 < b.1 ∨ a.1 = b.1 ∧ (a.2.1 < b.2.1 ∨ a.2.1 = b.2.1 ∧ a.2.2 ≤ b.2.2) := by
  unfold cmp3
  rw [Ordering.isLE_then_iff_or, Ordering.isLE_then_iff_or]
  simp [Nat.isLE_compare, Nat.compare_eq_lt, Nat.compare_eq_eq]

/-- Comparing with a fixed key never goes down along a sorted list. -/
theorem mono_of_sorted {α κ : Type} {cmp : κ → κ → Ordering} [TransCmp cmp] {g : α → κ} {l : List α}
    (h : l.Pairwise fun a b => (cmp (g a) (g b)).isLE = true) (k : κ) : Mono (fun a => cmp (g a) k) l := by
  refine h.imp ?_
  intro a b hab
  cases hb : cmp (g b) k with
  | lt =>
    have := TransCmp.lt_of_isLE_of_lt hab hb
    simp only [this, hb]
    exact Nat.le_refl _
  | eq =>
    have : (cmp (g a) k).isLE = true := TransCmp.isLE_trans hab (by rw [hb]; rfl)
    cases ha : cmp (g a) k <;> simp_all [rank]
  | gt => simp only [hb]; exact rank_le2 _

theorem insertBy_perm {α : Type} (le : α → α → Bool) (x : α) (l : List α) : (insertBy le x l).Perm (x :: l) := by
  induction l with
  | nil => exact List.Perm.refl _
  | cons y t ih =>
    unfold insertBy
    split
    · exact List.Perm.refl _
    · exact (ih.cons y).trans (List.Perm.swap x y t)

theorem sortBy_perm {α : Type} (le : α → α → Bool) (l : List α) : (sortBy le l).Perm l := by
  induction l with
  | nil => exact List.Perm.refl _
  | cons x t ih => exact (insertBy_perm le x _).trans (ih.cons x)

theorem insertBy_sorted {α : Type} {le : α → α → Bool} (ht : ∀ a b c, le a b = true → le b c = true → le a c = true)
    (ho : ∀ a b, (le a b || le b a) = true) (x : α) {l : List α} (h : l.Pairwise fun a b => le a b = true) :
    (insertBy le x l).Pairwise fun a b => le a b = true := by
  induction l with
  | nil => exact List.pairwise_singleton _ _
  | cons y t ih =>
    obtain ⟨h1, h2⟩ := List.pairwise_cons.1 h
    unfold insertBy
    split
    · rename_i hle
      refine List.pairwise_cons.2 ⟨?_, h⟩
      intro z hz
      rcases List.mem_cons.1 hz with rfl | hz
      · exact hle
      · exact ht _ _ _ hle (h1 z hz)
    · rename_i hle
      have hyx : le y x = true := by
        have := ho x y
        simpa [hle] using this
      refine List.pairwise_cons.2 ⟨?_, ih h2⟩
      intro z hz
      rcases List.mem_cons.1 ((insertBy_perm le x t).mem_iff.1 hz) with rfl | hz
      · exact hyx
      · exact h1 z hz

theorem sortBy_sorted {α : Type} {le : α → α → Bool} (ht : ∀ a b c, le a b = true → le b c = true → le a c = true)
    (ho : ∀ a b, (le a b || le b a) = true) (l : List α) : (sortBy le l).Pairwise fun a b => le a b = true := by
  induction l with
  | nil => exact List.Pairwise.nil
  | cons x t ih => exact insertBy_sorted ht ho x ih

theorem sorted_sortBy {α κ : Type} {cmp : κ → κ → Ordering} [TransCmp cmp] (g : α → κ) (l : List α) :
    (sortBy (fun a b => (cmp (g a) (g b)).isLE) l).Pairwise fun a b => (cmp (g a) (g b)).isLE = true := by
  apply sortBy_sorted
  · intro a b c h1 h2
    exact TransCmp.isLE_trans h1 h2
  · intro a b
    have : cmp (g a) (g b) = (cmp (g b) (g a)).swap := OrientedCmp.eq_swap
    rw [this]
    cases cmp (g b) (g a) <;> rfl

/-- What binary search returns is an index of an equal element. -/
theorem search_index {α : Type} {f : α → Ordering} {l : List α} (h : (binarySearchBy f l).1 = true) :
    ∃ a, l[(binarySearchBy f l).2]? = some a ∧ f a = .eq := by
  unfold binarySearchBy at h ⊢
  simp only at h ⊢
  cases hb : l[searchLoop f l l.length 0 l.length]? with
  | none => rw [hb] at h; cases h
  | some a =>
    rw [hb] at h
    cases hf : f a <;> simp_all

/-! ## Finding fields and arguments -/

theorem findField_some {s : Schema} {ty n : Name} {i : Nat} (h : s.findField ty n = some i) :
    ∃ f, s.fields[i]? = some f ∧ f.ty = ty ∧ f.name = n := by
  unfold Schema.findField at h
  simp only at h
  split at h
  · rename_i hr
    obtain ⟨f, h1, h2⟩ := search_index hr
    cases h
    refine ⟨f, h1, ?_⟩
    have := cmp2_eq.1 h2
    simp only [Field.key, Prod.mk.injEq] at this
    exact this
  · cases h

theorem findArgument_some {s : Schema} {p : Name × Name × Name} {i : Nat} (h : s.findArgument p = some i) :
    ∃ a, s.args[i]? = some a ∧ a.key = p := by
  unfold Schema.findArgument at h
  simp only at h
  split at h
  · rename_i hr
    obtain ⟨f, h1, h2⟩ := search_index hr
    cases h
    exact ⟨f, h1, cmp3_eq.1 h2⟩
  · cases h

theorem ofDoc_fields_sorted (d : SDoc) :
    (Schema.ofDoc d).fields.Pairwise fun a b => (cmp2 a.key b.key).isLE = true := sorted_sortBy _ _

theorem ofDoc_args_sorted (d : SDoc) :
    (Schema.ofDoc d).args.Pairwise fun a b => (cmp3 a.key b.key).isLE = true := sorted_sortBy _ _

theorem findField_complete {d : SDoc} {f : Field} (h : f ∈ (Schema.ofDoc d).fields) :
    ∃ i, (Schema.ofDoc d).findField f.ty f.name = some i := by
  unfold Schema.findField
  have := search_complete (mono_of_sorted (ofDoc_fields_sorted d) (f.ty, f.name)) h (cmp2_eq.2 rfl)
  simp only [this, if_true]
  exact ⟨_, rfl⟩

theorem findArgument_complete {d : SDoc} {a : Arg} (h : a ∈ (Schema.ofDoc d).args) :
    ∃ i, (Schema.ofDoc d).findArgument a.key = some i := by
  unfold Schema.findArgument
  have := search_complete (mono_of_sorted (ofDoc_args_sorted d) a.key) h (cmp3_eq.2 rfl)
  simp only [this, if_true]
  exact ⟨_, rfl⟩

/-! ## The members of the tables -/

theorem mem_typeFields {t : TypeDef} {f : Field} :
    f ∈ typeFields t ↔ t.kind ≠ .other ∧ ∃ fd ∈ t.fields, f = ⟨t.name, fd.name, fd.base, extractType fd.ty⟩ := by
  unfold typeFields
  cases h : t.kind <;> simp [eq_comm]

theorem mem_typeArgs {t : TypeDef} {a : Arg} :
    a ∈ typeArgs t ↔ t.kind = .object ∧ ∃ fd ∈ t.fields, ∃ ad ∈ fd.args,
      a = ⟨t.name, fd.name, ad.name, ad.base, extractType ad.ty, ad.hasDefault⟩ := by
  unfold typeArgs
  cases h : t.kind <;> simp [eq_comm]

theorem mem_fields {d : SDoc} {f : Field} : f ∈ (Schema.ofDoc d).fields ↔ ∃ t ∈ d.types, f ∈ typeFields t := by
  unfold Schema.ofDoc
  simp only
  rw [(sortBy_perm _ _).mem_iff, List.mem_flatMap]

theorem mem_args {d : SDoc} {a : Arg} : a ∈ (Schema.ofDoc d).args ↔ ∃ t ∈ d.types, a ∈ typeArgs t := by
  unfold Schema.ofDoc
  simp only
  rw [(sortBy_perm _ _).mem_iff, List.mem_flatMap]

/-- In a list without repeated keys, `find?` by key gives the element of that key. -/
theorem find_unique {α : Type} {g : α → Name} {l : List α} (h : (l.map g).Nodup) {x : α} (hx : x ∈ l) :
    l.find? (fun y => decide (g y = g x)) = some x := by
  induction l with
  | nil => cases hx
  | cons y t ih =>
    rw [List.map_cons, List.nodup_cons] at h
    rw [List.find?_cons]
    by_cases he : g y = g x
    · simp only [he, decide_true]
      rcases List.mem_cons.1 hx with rfl | hx
      · rfl
      · exact absurd (he ▸ List.mem_map_of_mem hx) h.1
    · simp only [he, decide_false]
      rcases List.mem_cons.1 hx with rfl | hx
      · exact absurd rfl he
      · exact ih h.2 hx

theorem eq_of_key {α : Type} {g : α → Name} {l : List α} (h : (l.map g).Nodup) {x y : α} (hx : x ∈ l)
    (hy : y ∈ l) (he : g x = g y) : x = y := by
  have h1 := find_unique h hx
  have h2 := find_unique h hy
  rw [he, h2] at h1
  exact (Option.some.inj h1).symm

theorem typeDef_some {d : SDoc} {ty : Name} {t : TypeDef} (h : d.typeDef ty = some t) :
    t ∈ d.types ∧ t.name = ty ∧ t.kind ≠ .other := by
  unfold SDoc.typeDef at h
  have h1 := List.mem_of_find?_eq_some h
  have h2 := List.find?_some h
  simp only [Bool.and_eq_true, decide_eq_true_eq] at h2
  exact ⟨h1, h2⟩

theorem typeDef_of_mem {d : SDoc} (hv : d.Valid) {t : TypeDef} (h : t ∈ d.types) (hk : t.kind ≠ .other) :
    d.typeDef t.name = some t := by
  unfold SDoc.typeDef
  cases hf : d.types.find? fun u => decide (u.name = t.name) && decide (u.kind ≠ .other) with
  | none =>
    have := List.find?_eq_none.1 hf t h
    simp [hk] at this
  | some u =>
    have h1 := List.mem_of_find?_eq_some hf
    have h2 := List.find?_some hf
    simp only [Bool.and_eq_true, decide_eq_true_eq] at h2
    rw [eq_of_key hv.types h1 h h2.1]

theorem fieldDef_some {d : SDoc} {ty n : Name} {f : FieldDef} (h : d.fieldDef ty n = some f) :
    ∃ t, d.typeDef ty = some t ∧ f ∈ t.fields ∧ f.name = n := by
  unfold SDoc.fieldDef at h
  cases ht : d.typeDef ty with
  | none => rw [ht] at h; cases h
  | some t =>
    rw [ht, Option.bind_some] at h
    exact ⟨t, rfl, List.mem_of_find?_eq_some h, by simpa using List.find?_some h⟩

theorem fieldDef_of_mem {d : SDoc} (hv : d.Valid) {t : TypeDef} (h : t ∈ d.types) (hk : t.kind ≠ .other)
    {f : FieldDef} (hf : f ∈ t.fields) : d.fieldDef t.name f.name = some f := by
  unfold SDoc.fieldDef
  rw [typeDef_of_mem hv h hk, Option.bind_some]
  exact find_unique (hv.fields t h) hf

/-- The entry of the table of fields for a definition. -/
def fieldEntry (ty : Name) (f : FieldDef) : Field := ⟨ty, f.name, f.base, extractType f.ty⟩

/-- The entry of the table of arguments for a definition. -/
def argEntry (ty field : Name) (a : ArgDef) : Arg := ⟨ty, field, a.name, a.base, extractType a.ty, a.hasDefault⟩

theorem field_mem_iff {d : SDoc} (hv : d.Valid) {f : Field} :
    f ∈ (Schema.ofDoc d).fields ↔ ∃ fd, d.fieldDef f.ty f.name = some fd ∧ f = fieldEntry f.ty fd := by
  rw [mem_fields]
  constructor
  · rintro ⟨t, ht, hf⟩
    obtain ⟨hk, fd, hfd, rfl⟩ := mem_typeFields.1 hf
    exact ⟨fd, fieldDef_of_mem hv ht hk hfd, rfl⟩
  · rintro ⟨fd, hfd, he⟩
    obtain ⟨t, ht, hm, hn⟩ := fieldDef_some hfd
    obtain ⟨h1, h2, h3⟩ := typeDef_some ht
    refine ⟨t, h1, mem_typeFields.2 ⟨h3, fd, hm, ?_⟩⟩
    rw [he, h2]
    rfl

theorem findField_def {d : SDoc} (hv : d.Valid) {ty n : Name} {fd : FieldDef} (h : d.fieldDef ty n = some fd) :
    ∃ i, (Schema.ofDoc d).findField ty n = some i ∧ (Schema.ofDoc d).fields[i]? = some (fieldEntry ty fd) := by
  obtain ⟨t, ht, hm, hn⟩ := fieldDef_some h
  have hmem : fieldEntry ty fd ∈ (Schema.ofDoc d).fields :=
    (field_mem_iff hv).2 ⟨fd, by simpa [fieldEntry, hn] using h, rfl⟩
  obtain ⟨i, hi⟩ := findField_complete hmem
  have hi' : (Schema.ofDoc d).findField ty n = some i := by rw [← hi]; simp [fieldEntry, hn]
  obtain ⟨f, h1, h2, h3⟩ := findField_some hi'
  obtain ⟨fd', h4, h5⟩ := (field_mem_iff hv).1 (List.mem_of_getElem? h1)
  rw [h2, h3, h] at h4
  cases h4
  refine ⟨i, hi', ?_⟩
  rw [h1, h5, h2]

theorem findField_undef {d : SDoc} (hv : d.Valid) {ty n : Name} (h : d.fieldDef ty n = none) :
    (Schema.ofDoc d).findField ty n = none := by
  cases hf : (Schema.ofDoc d).findField ty n with
  | none => rfl
  | some i =>
    obtain ⟨f, h1, h2, h3⟩ := findField_some hf
    obtain ⟨fd', h4, h5⟩ := (field_mem_iff hv).1 (List.mem_of_getElem? h1)
    rw [h2, h3, h] at h4
    cases h4

theorem argDef_some {d : SDoc} {ty n x : Name} {a : ArgDef} (h : d.argDef ty n x = some a) :
    ∃ f, d.fieldDef ty n = some f ∧ a ∈ f.args ∧ a.name = x := by
  unfold SDoc.argDef at h
  cases ht : d.fieldDef ty n with
  | none => rw [ht] at h; cases h
  | some t =>
    rw [ht, Option.bind_some] at h
    exact ⟨t, rfl, List.mem_of_find?_eq_some h, by simpa using List.find?_some h⟩

theorem arg_mem_iff {d : SDoc} (hv : d.Valid) {a : Arg} :
    a ∈ (Schema.ofDoc d).args ↔
      d.isObject a.ty = true ∧ ∃ ad, d.argDef a.ty a.field a.name = some ad ∧ a = argEntry a.ty a.field ad := by
  rw [mem_args]
  constructor
  · rintro ⟨t, ht, hf⟩
    obtain ⟨hk, fd, hfd, ad, had, rfl⟩ := mem_typeArgs.1 hf
    have hk' : t.kind ≠ .other := by rw [hk]; simp
    refine ⟨?_, ad, ?_, rfl⟩
    · simp [SDoc.isObject, typeDef_of_mem hv ht hk', hk]
    · simp only [SDoc.argDef, fieldDef_of_mem hv ht hk' hfd, Option.bind_some]
      exact find_unique (hv.args t ht fd hfd) had
  · rintro ⟨ho, ad, had, he⟩
    obtain ⟨fd, hfd, hm, hn⟩ := argDef_some had
    obtain ⟨t, ht, hm', hn'⟩ := fieldDef_some hfd
    obtain ⟨h1, h2, h3⟩ := typeDef_some ht
    simp only [SDoc.isObject, ht, decide_eq_true_eq] at ho
    refine ⟨t, h1, mem_typeArgs.2 ⟨ho, fd, hm', ad, hm, ?_⟩⟩
    rw [he, h2, hn']
    rfl

theorem findArgument_def {d : SDoc} (hv : d.Valid) {ty n x : Name} {ad : ArgDef}
    (h : d.argDef ty n x = some ad) (ho : d.isObject ty = true) :
    ∃ i, (Schema.ofDoc d).findArgument (ty, n, x) = some i ∧
      (Schema.ofDoc d).args[i]? = some (argEntry ty n ad) := by
  obtain ⟨f, hf, hm, hn⟩ := argDef_some h
  have hmem : argEntry ty n ad ∈ (Schema.ofDoc d).args :=
    (arg_mem_iff hv).2 ⟨ho, ad, by simpa [argEntry, hn] using h, rfl⟩
  obtain ⟨i, hi⟩ := findArgument_complete hmem
  have hi' : (Schema.ofDoc d).findArgument (ty, n, x) = some i := by rw [← hi]; simp [argEntry, Arg.key, hn]
  obtain ⟨a, h1, h2⟩ := findArgument_some hi'
  obtain ⟨_, ad', h4, h5⟩ := (arg_mem_iff hv).1 (List.mem_of_getElem? h1)
  simp only [Arg.key, Prod.mk.injEq] at h2
  obtain ⟨h2, h3, h3'⟩ := h2
  rw [h2, h3, h3', h] at h4
  cases h4
  refine ⟨i, hi', ?_⟩
  rw [h1, h5, h2, h3]

theorem findArgument_undef {d : SDoc} (hv : d.Valid) {ty n x : Name}
    (h : d.argDef ty n x = none ∨ d.isObject ty = false) : (Schema.ofDoc d).findArgument (ty, n, x) = none := by
  cases hf : (Schema.ofDoc d).findArgument (ty, n, x) with
  | none => rfl
  | some i =>
    obtain ⟨a, h1, h2⟩ := findArgument_some hf
    obtain ⟨ho, ad', h4, h5⟩ := (arg_mem_iff hv).1 (List.mem_of_getElem? h1)
    simp only [Arg.key, Prod.mk.injEq] at h2
    obtain ⟨h2, h3, h3'⟩ := h2
    rw [h2, h3, h3'] at h4
    rw [h2] at ho
    rcases h with h | h
    · rw [h] at h4; cases h4
    · rw [h] at ho; cases ho

/-! ## Different entries have different coordinates -/

theorem fields_nodup {d : SDoc} (hv : d.Valid) :
    (Schema.ofDoc d).fields.Pairwise fun a b => ¬ (a.ty = b.ty ∧ a.name = b.name) := by
  have h : (d.types.flatMap typeFields).Pairwise fun a b => ¬ (a.ty = b.ty ∧ a.name = b.name) := by
    rw [List.pairwise_flatMap]
    constructor
    · intro t ht
      unfold typeFields
      cases t.kind <;> simp only [List.Pairwise.nil, List.pairwise_map] <;>
        exact (List.pairwise_map.1 (hv.fields t ht)).imp fun h => by simpa using h
    · refine (List.pairwise_map.1 hv.types).imp ?_
      intro a b hab x hx y hy
      obtain ⟨_, _, _, rfl⟩ := mem_typeFields.1 hx
      obtain ⟨_, _, _, rfl⟩ := mem_typeFields.1 hy
      intro hc
      exact hab hc.1
  have hp := sortBy_perm (fun a b => (cmp2 a.key b.key).isLE) (d.types.flatMap typeFields)
  exact hp.symm.pairwise h (fun hab hba => hab ⟨hba.1.symm, hba.2.symm⟩)

theorem args_nodup {d : SDoc} (hv : d.Valid) :
    (Schema.ofDoc d).args.Pairwise fun a b => a.key ≠ b.key := by
  have h : (d.types.flatMap typeArgs).Pairwise fun a b => a.key ≠ b.key := by
    rw [List.pairwise_flatMap]
    constructor
    · intro t ht
      unfold typeArgs
      cases hk : t.kind <;> simp only [List.Pairwise.nil]
      rw [List.pairwise_flatMap]
      constructor
      · intro f hf
        rw [List.pairwise_map]
        exact (List.pairwise_map.1 (hv.args t ht f hf)).imp fun h => by simpa [Arg.key] using h
      · refine (List.pairwise_map.1 (hv.fields t ht)).imp ?_
        intro a b hab x hx y hy
        obtain ⟨_, _, rfl⟩ := List.mem_map.1 hx
        obtain ⟨_, _, rfl⟩ := List.mem_map.1 hy
        simp only [Arg.key, ne_eq, Prod.mk.injEq]
        intro hc
        exact hab hc.2.1
    · refine (List.pairwise_map.1 hv.types).imp ?_
      intro a b hab x hx y hy
      obtain ⟨_, _, _, _, _, rfl⟩ := mem_typeArgs.1 hx
      obtain ⟨_, _, _, _, _, rfl⟩ := mem_typeArgs.1 hy
      simp only [Arg.key, ne_eq, Prod.mk.injEq]
      intro hc
      exact hab hc.1
  have hp := sortBy_perm (fun a b => (cmp3 a.key b.key).isLE) (d.types.flatMap typeArgs)
  exact hp.symm.pairwise h (fun hab => hab.symm)

theorem field_index_inj {d : SDoc} (hv : d.Valid) {i j : Nat} {f g : Field}
    (hi : (Schema.ofDoc d).fields[i]? = some f) (hj : (Schema.ofDoc d).fields[j]? = some g)
    (h1 : f.ty = g.ty) (h2 : f.name = g.name) : i = j := by
  obtain ⟨hi', rfl⟩ := List.getElem?_eq_some_iff.1 hi
  obtain ⟨hj', rfl⟩ := List.getElem?_eq_some_iff.1 hj
  have h := List.pairwise_iff_getElem.1 (fields_nodup hv)
  rcases Nat.lt_trichotomy i j with hlt | heq | hlt
  · exact absurd ⟨h1, h2⟩ (h i j hi' hj' hlt)
  · exact heq
  · exact absurd ⟨h1.symm, h2.symm⟩ (h j i hj' hi' hlt)

theorem arg_index_inj {d : SDoc} (hv : d.Valid) {i j : Nat} {a b : Arg}
    (hi : (Schema.ofDoc d).args[i]? = some a) (hj : (Schema.ofDoc d).args[j]? = some b)
    (h : a.key = b.key) : i = j := by
  obtain ⟨hi', rfl⟩ := List.getElem?_eq_some_iff.1 hi
  obtain ⟨hj', rfl⟩ := List.getElem?_eq_some_iff.1 hj
  have hn := List.pairwise_iff_getElem.1 (args_nodup hv)
  rcases Nat.lt_trichotomy i j with hlt | heq | hlt
  · exact absurd h (hn i j hi' hj' hlt)
  · exact heq
  · exact absurd h.symm (hn j i hj' hi' hlt)

end Verif.OpChecks
