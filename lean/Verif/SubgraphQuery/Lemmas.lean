import Verif.SubgraphQuery.Spec
import Verif.PossibleTypes.Props
/-! One selection set, and paths through nested ones. -/
namespace Verif.SubgraphQuery
open Verif.PossibleTypes

def IsField (x : Sel) : Prop := ∃ k n ty sub, x = .field k n ty sub

/-! ## Chunks -/

theorem mem_chunks {e : Entity} {x : Sel} : ∀ {items : List (Entity × Sel)}, (∃ xs, (e, xs) ∈ chunks items ∧ x ∈ xs) ↔ (e, x) ∈ items
  | [] => by simp [chunks]
  | (e', y) :: rest => by
    rw [chunks, List.mem_cons, ← mem_chunks (items := rest)]
    cases hc : chunks rest with
    | nil =>
      simp only [List.mem_singleton, Prod.mk.injEq, List.not_mem_nil, false_and, exists_false, or_false]
      constructor
      · rintro ⟨xs, ⟨rfl, rfl⟩, hx⟩; exact ⟨rfl, List.mem_singleton.1 hx⟩
      · rintro ⟨rfl, rfl⟩; exact ⟨_, ⟨rfl, rfl⟩, List.mem_singleton.2 rfl⟩
    | cons c cs =>
      obtain ⟨ce, cx⟩ := c
      simp only
      split
      · rename_i h
        subst h
        constructor
        · rintro ⟨xs, hm, hx⟩
          rcases List.mem_cons.1 hm with h | h
          · cases h
            rcases List.mem_cons.1 hx with rfl | hx
            · exact Or.inl rfl
            · exact Or.inr ⟨cx, List.mem_cons_self, hx⟩
          · exact Or.inr ⟨xs, List.mem_cons_of_mem _ h, hx⟩
        · rintro (h | ⟨xs, hm, hx⟩)
          · cases h; exact ⟨_, List.mem_cons_self, List.mem_cons_self⟩
          · rcases List.mem_cons.1 hm with h | h
            · cases h; exact ⟨_, List.mem_cons_self, List.mem_cons_of_mem _ hx⟩
            · exact ⟨xs, List.mem_cons_of_mem _ h, hx⟩
      · constructor
        · rintro ⟨xs, hm, hx⟩
          rcases List.mem_cons.1 hm with h | h
          · cases h
            exact Or.inl (by rw [List.mem_singleton.1 hx])
          · exact Or.inr ⟨xs, h, hx⟩
        · rintro (h | ⟨xs, hm, hx⟩)
          · cases h; exact ⟨_, List.mem_cons_self, List.mem_singleton.2 rfl⟩
          · exact ⟨xs, List.mem_cons_of_mem _ hm, hx⟩

theorem chunk_ne {e : Entity} {xs : List Sel} : ∀ {items : List (Entity × Sel)}, (e, xs) ∈ chunks items → xs ≠ []
  | [], h => by simp [chunks] at h
  | (e', y) :: rest, h => by
    rw [chunks] at h
    cases hc : chunks rest with
    | nil => rw [hc] at h; simp at h; rw [h.2]; simp
    | cons c cs =>
      rw [hc] at h
      have ih : ∀ {e xs}, (e, xs) ∈ c :: cs → xs ≠ [] := fun h => chunk_ne (items := rest) (hc ▸ h)
      simp only at h
      split at h
      · rcases List.mem_cons.1 h with h | h
        · cases h; simp
        · exact ih (List.mem_cons_of_mem _ h)
      · rcases List.mem_cons.1 h with h | h
        · cases h; simp
        · exact ih h

/-! ## Selections -/

section
variable {sdl : Sdl} {s t key name : Nat} {ty : Option Composite} {sub : List Sel}

theorem selects_iff {sels : List Sel} : Selects sdl s sels t key name ty sub ↔ Sel.field key name ty sub ∈ sels ∨
    ∃ e inner, Sel.on e inner ∈ sels ∧ PossibleIn sdl s e.composite t ∧ Selects sdl s inner t key name ty sub := by
  constructor
  · intro h
    cases h with
    | field h => exact Or.inl h
    | on h1 h2 h3 => exact Or.inr ⟨_, _, h1, h2, h3⟩
  · rintro (h | ⟨e, inner, h1, h2, h3⟩)
    · exact .field h
    · exact .on h1 h2 h3

theorem selects_fields {sels : List Sel} (h : ∀ x ∈ sels, IsField x) : Selects sdl s sels t key name ty sub ↔ Sel.field key name ty sub ∈ sels := by
  rw [selects_iff]
  refine ⟨?_, Or.inl⟩
  rintro (h' | ⟨e, inner, h1, _⟩)
  · exact h'
  · obtain ⟨_, _, _, _, h2⟩ := h _ h1
    cases h2

theorem selects_on_fields {e : Entity} {sels : List Sel} (h : ∀ x ∈ sels, IsField x) :
    Selects sdl s [.on e sels] t key name ty sub ↔ PossibleIn sdl s e.composite t ∧ Sel.field key name ty sub ∈ sels := by
  rw [selects_iff]
  simp only [List.mem_singleton]
  constructor
  · rintro (h' | ⟨e', inner, h1, h2, h3⟩)
    · cases h'
    · cases h1
      exact ⟨h2, (selects_fields h).1 h3⟩
  · rintro ⟨h1, h2⟩
    exact Or.inr ⟨e, sels, rfl, h1, (selects_fields h).2 h2⟩

theorem selects_append {a b : List Sel} : Selects sdl s (a ++ b) t key name ty sub ↔ Selects sdl s a t key name ty sub ∨ Selects sdl s b t key name ty sub := by
  rw [selects_iff, selects_iff (sels := a), selects_iff (sels := b)]
  simp only [List.mem_append]
  constructor
  · rintro ((h | h) | ⟨e, inner, (h1 | h1), h2⟩)
    · exact Or.inl (Or.inl h)
    · exact Or.inr (Or.inl h)
    · exact Or.inl (Or.inr ⟨e, inner, h1, h2⟩)
    · exact Or.inr (Or.inr ⟨e, inner, h1, h2⟩)
  · rintro ((h | ⟨e, inner, h1, h2⟩) | (h | ⟨e, inner, h1, h2⟩))
    · exact Or.inl (Or.inl h)
    · exact Or.inr ⟨e, inner, Or.inl h1, h2⟩
    · exact Or.inl (Or.inr h)
    · exact Or.inr ⟨e, inner, Or.inr h1, h2⟩

theorem selects_flatMap {α : Type} {f : α → List Sel} {l : List α} : Selects sdl s (l.flatMap f) t key name ty sub ↔
    ∃ a ∈ l, Selects sdl s (f a) t key name ty sub := by
  rw [selects_iff]
  simp only [List.mem_flatMap]
  constructor
  · rintro (⟨a, ha, h⟩ | ⟨e, inner, ⟨a, ha, h1⟩, h2, h3⟩)
    · exact ⟨a, ha, .field h⟩
    · exact ⟨a, ha, .on h1 h2 h3⟩
  · rintro ⟨a, ha, h⟩
    cases h with
    | field h => exact Or.inl ⟨a, ha, h⟩
    | on h1 h2 h3 => exact Or.inr ⟨_, _, ⟨a, ha, h1⟩, h2, h3⟩

theorem selects_map {α : Type} {f : α → Sel} {l : List α} : Selects sdl s (l.map f) t key name ty sub ↔
    ∃ a ∈ l, Selects sdl s [f a] t key name ty sub := by
  rw [← selects_flatMap, ← List.map_eq_flatMap]

/-! ## The graph -/

variable {order : List Nat}

theorem existsIn_iff {o : Nat} : existsIn (build sdl order) s o = true ↔ ObjectIn sdl s o := by
  have h := C57_includes_iff sdl order s o (.object o)
  unfold Graph.includesInSubgraph at h
  simp only [decide_true, Bool.true_and] at h
  unfold existsIn
  rw [h]
  exact ⟨fun h => h.2, fun h => ⟨rfl, h⟩⟩

theorem implements_iff {o i : Nat} : implements (build sdl order).objects o s i = true ↔ ImplementsIn sdl o s i :=
  C57_includes_iff sdl order s o (.interface i)

theorem mem_subgraphObjects (hs : SdlOk sdl) (ho : Visits sdl order) {o i : Nat} :
    o ∈ subgraphObjects (build sdl order) s i ↔ Possible sdl (.interface i) o ∧ ObjectIn sdl s o := by
  unfold subgraphObjects
  rw [List.mem_filter, (C57_possible sdl order hs ho (.interface i)).2, existsIn_iff]

theorem maybe_object (hc : Consistent sdl) {parent : Composite} (h : PossibleIn sdl s parent t) : ObjectIn sdl s t := by
  cases parent with
  | object o => obtain ⟨rfl, h⟩ := h; exact h
  | interface i => exact (hc.implements _ _ _ h).2.2
  | union u =>
    obtain ⟨u, hu, h⟩ := h
    exact (hc.members u (List.mem_of_getElem? hu) s t h).2

theorem possible_of_in (hc : Consistent sdl) {c : Composite} (h : PossibleIn sdl s c t) : Possible sdl c t := by
  cases c with
  | object o => exact h.1
  | interface i => exact ⟨(hc.implements _ _ _ h).1, (hc.implements _ _ _ h).2.1⟩
  | union u =>
    obtain ⟨u, hu, h⟩ := h
    exact ⟨u, hu, (hc.members u (List.mem_of_getElem? hu) s t h).1⟩

/-- The fields of an entity within an interface or union apply to the objects they should. -/
theorem selects_chunk (hs : SdlOk sdl) (ho : Visits sdl order) (hc : Consistent sdl) {parent : Composite} {e : Entity} {sels : List Sel}
    (hp : ∀ o, parent ≠ .object o) (hf : ∀ x ∈ sels, IsField x) (hfit : Fits sdl s (some parent) e) (ht : PossibleIn sdl s parent t) :
    Selects sdl s (writeChunk (build sdl order) s parent (e, sels)) t key name ty sub ↔
      Possible sdl e.composite t ∧ Sel.field key name ty sub ∈ sels := by
  cases e with
  | object o =>
    rw [writeChunk]
    by_cases hin : (build sdl order).includesInSubgraph s o parent = true
    · rw [if_pos hin, selects_on_fields hf]
      have hp' : PossibleIn sdl s (Entity.object o).composite t ↔ t = o :=
        ⟨fun h => h.1, fun h => by subst h; exact ⟨rfl, maybe_object hc ht⟩⟩
      rw [hp']
      exact Iff.rfl
    · rw [if_neg hin]
      constructor
      · intro h; rcases selects_iff.1 h with h | ⟨_, _, h, _⟩ <;> cases h
      · rintro ⟨rfl, _⟩
        exact absurd ((C57_includes_iff sdl order s t parent).2 ht) hin
  | interface i =>
    rw [writeChunk]
    by_cases hpi : parent = .interface i
    · rw [if_pos hpi, selects_fields hf]
      subst hpi
      exact ⟨fun h => ⟨possible_of_in hc ht, h⟩, fun h => h.2⟩
    rw [if_neg hpi]
    obtain ⟨d, hd, hdin⟩ : InterfaceIn sdl s i := hfit.providable
    have hfully := C57_interface_fully_iff sdl order hs ho s i d hd
    by_cases hful : (build sdl order).fullyImplemented s (.interface i) = true
    · rw [if_pos hful, selects_on_fields hf]
      have hall := (hfully.1 hful).resolve_left (fun h => h hdin)
      exact ⟨fun h => ⟨possible_of_in hc h.1, h.2⟩, fun h => ⟨hall t h.1, h.2⟩⟩
    rw [if_neg hful, selects_append, selects_map]
    have hto := maybe_object hc ht
    constructor
    · rintro (⟨o, hom, hsel⟩ | hsel)
      · rw [selects_on_fields hf] at hsel
        obtain ⟨⟨rfl, _⟩, h2⟩ := hsel
        exact ⟨((mem_subgraphObjects hs ho).1 (List.mem_filter.1 hom).1).1, h2⟩
      · split at hsel
        · rw [selects_on_fields hf] at hsel
          exact ⟨possible_of_in hc hsel.1, hsel.2⟩
        · rcases selects_iff.1 hsel with h | ⟨_, _, h, _⟩ <;> cases h
    · rintro ⟨hpos, hmem⟩
      have hobj : t ∈ subgraphObjects (build sdl order) s i := (mem_subgraphObjects hs ho).2 ⟨hpos, hto⟩
      by_cases him : implements (build sdl order).objects t s i = true
      · right
        rw [if_pos (List.any_eq_true.2 ⟨t, hobj, him⟩), selects_on_fields hf]
        exact ⟨implements_iff.1 him, hmem⟩
      · left
        refine ⟨t, List.mem_filter.2 ⟨hobj, ?_⟩, (selects_on_fields hf).2 ⟨⟨rfl, hto⟩, hmem⟩⟩
        rw [Bool.eq_false_iff.2 him, (C57_includes_iff sdl order s t parent).2 ht]
        simp

/-- One selection set. -/
theorem selects_set (hs : SdlOk sdl) (ho : Visits sdl order) (hc : Consistent sdl) {parent : Option Composite} {typename : Bool}
    {items : List (Entity × Sel)} {lookups : List Sel} (hf : ∀ p ∈ items, IsField p.2) (hlf : ∀ x ∈ lookups, IsField x)
    (hfit : ∀ p ∈ items, Fits sdl s parent p.1) (hl : (∃ o, parent = some (.object o)) ∨ lookups = []) (ht : MayBe sdl s parent t) :
    Selects sdl s (writeSet (build sdl order) s parent typename items lookups) t key name ty sub ↔
      (∃ e, (e, Sel.field key name ty sub) ∈ items ∧ Possible sdl e.composite t) ∨ Sel.field key name ty sub ∈ lookups := by
  have hset : Selects sdl s (writeSet (build sdl order) s parent typename items lookups) t key name ty sub ↔
      Selects sdl s (writeSetFields (build sdl order) s parent items lookups) t key name ty sub := by
    unfold writeSet
    simp only
    generalize hpre : (if typename = true then [Sel.typename] else []) = pre
    have hpre' : ¬ Selects sdl s pre t key name ty sub := by
      intro h
      subst hpre
      cases typename with
      | true => rcases selects_iff.1 h with h | ⟨_, _, h, _⟩ <;> simp at h
      | false => rcases selects_iff.1 h with h | ⟨_, _, h, _⟩ <;> cases h
    split
    · rename_i he
      have he' := List.append_eq_nil_iff.1 (List.isEmpty_iff.1 he)
      rw [he'.2]
      constructor
      · intro h; rcases selects_iff.1 h with h | ⟨_, _, h, _⟩ <;> simp at h
      · intro h; rcases selects_iff.1 h with h | ⟨_, _, h, _⟩ <;> cases h
    · rw [selects_append]
      exact ⟨fun h => h.resolve_left hpre', Or.inr⟩
  rw [hset]
  have hchunk : ∀ {e xs}, (e, xs) ∈ chunks items → (∀ x ∈ xs, IsField x) ∧ Fits sdl s parent e := by
    intro e xs h
    refine ⟨fun x hx => hf _ (mem_chunks.1 ⟨xs, h, hx⟩), ?_⟩
    cases xs with
    | nil => exact absurd rfl (chunk_ne h)
    | cons x xs => exact hfit _ (mem_chunks.1 ⟨_, h, List.mem_cons_self⟩)
  cases parent with
  | none =>
    have hl' : lookups = [] := hl.resolve_left (by rintro ⟨_, h⟩; cases h)
    subst hl'
    rw [writeSetFields, selects_map]
    simp only [List.not_mem_nil, or_false]
    constructor
    · rintro ⟨⟨e, xs⟩, hm, hsel⟩
      obtain ⟨h1, h2⟩ := hchunk hm
      rw [selects_on_fields h1] at hsel
      exact ⟨e, mem_chunks.1 ⟨xs, hm, hsel.2⟩, possible_of_in hc hsel.1⟩
    · rintro ⟨e, hm, hpos⟩
      obtain ⟨xs, h1, h2⟩ := mem_chunks.2 hm
      obtain ⟨h3, h4⟩ := hchunk h1
      exact ⟨(e, xs), h1, (selects_on_fields h3).2 ⟨h4.any rfl t ht hpos, h2⟩⟩
  | some parent =>
    by_cases hp : ∃ o, parent = .object o
    · obtain ⟨o, rfl⟩ := hp
      obtain ⟨rfl, hto⟩ := ht
      rw [writeSetFields, selects_fields (fun x hx => by
        rcases List.mem_append.1 hx with hx | hx
        · obtain ⟨p, hp, rfl⟩ := List.mem_map.1 hx
          exact hf p hp
        · exact hlf x hx), List.mem_append]
      refine or_congr ?_ Iff.rfl
      constructor
      · intro h
        obtain ⟨⟨e, x⟩, hp, hx⟩ := List.mem_map.1 h
        subst hx
        exact ⟨e, hp, (hfit _ hp).object t rfl⟩
      · rintro ⟨e, hm, _⟩
        exact List.mem_map.2 ⟨_, hm, rfl⟩
    · have hne : ∀ o, parent ≠ .object o := fun o h => hp ⟨o, h⟩
      have hl' : lookups = [] := hl.resolve_left (by rintro ⟨o, h⟩; exact hne o (Option.some.inj h))
      subst hl'
      have hw : writeSetFields (build sdl order) s (some parent) items [] = (chunks items).flatMap (writeChunk (build sdl order) s parent) := by
        cases parent with
        | object o => exact absurd rfl (hne o)
        | interface i => rfl
        | union u => rfl
      rw [hw, selects_flatMap]
      simp only [List.not_mem_nil, or_false]
      constructor
      · rintro ⟨⟨e, xs⟩, hm, hsel⟩
        obtain ⟨h1, h2⟩ := hchunk hm
        obtain ⟨h3, h4⟩ := (selects_chunk hs ho hc hne h1 h2 ht).1 hsel
        exact ⟨e, mem_chunks.1 ⟨xs, hm, h4⟩, h3⟩
      · rintro ⟨e, hm, hpos⟩
        obtain ⟨xs, h1, h2⟩ := mem_chunks.2 hm
        obtain ⟨h3, h4⟩ := hchunk h1
        exact ⟨(e, xs), h1, (selects_chunk hs ho hc hne h3 h4 ht).2 ⟨hpos, h2⟩⟩

/-! ## Nested selection sets -/

theorem writeField_eq (g : Graph) (f : Field) : writeField g s f =
    .field f.key f.name f.ty (match f.ty with
      | some c => writeSet g s (some c) f.typename (writeItems g s f.data) (writeFields g s f.lookups)
      | none => []) := by
  cases f with
  | mk key name entity included derived superTy subgraphTy typename data lookups =>
    rw [writeField]
    simp only [Field.key, Field.name, Field.ty, Field.typename, Field.data, Field.lookups]
    cases h : subgraphTy.or superTy <;> rfl

theorem mem_writeItems {g : Graph} {e : Entity} {x : Sel} : ∀ {data : List Field}, (e, x) ∈ writeItems g s data ↔
    ∃ f ∈ data, f.included = true ∧ f.derived = false ∧ e = f.entity ∧ x = writeField g s f
  | [] => by simp [writeItems]
  | f :: rest => by
    rw [writeItems]
    split
    · rename_i h
      rw [Bool.and_eq_true, Bool.not_eq_true'] at h
      rw [List.mem_cons, mem_writeItems, Prod.mk.injEq]
      constructor
      · rintro (⟨h1, h2⟩ | ⟨f', hf, h'⟩)
        · exact ⟨f, List.mem_cons_self, h.1, h.2, h1, h2⟩
        · exact ⟨f', List.mem_cons_of_mem _ hf, h'⟩
      · rintro ⟨f', hf, h1, h2, h3, h4⟩
        rcases List.mem_cons.1 hf with rfl | hf
        · exact Or.inl ⟨h3, h4⟩
        · exact Or.inr ⟨f', hf, h1, h2, h3, h4⟩
    · rename_i h
      rw [mem_writeItems]
      constructor
      · rintro ⟨f', hf, h'⟩
        exact ⟨f', List.mem_cons_of_mem _ hf, h'⟩
      · rintro ⟨f', hf, h1, h2, h3, h4⟩
        rcases List.mem_cons.1 hf with rfl | hf
        · exact absurd (by rw [h1, h2]; rfl) h
        · exact ⟨f', hf, h1, h2, h3, h4⟩

theorem mem_writeFields {g : Graph} {x : Sel} : ∀ {fs : List Field}, x ∈ writeFields g s fs ↔ ∃ f ∈ fs, x = writeField g s f
  | [] => by simp [writeFields]
  | f :: rest => by rw [writeFields, List.mem_cons, mem_writeFields]; simp

theorem dataFits_mem {parent : Option Composite} {f : Field} : ∀ {data : List Field}, DataFits sdl s parent data → f ∈ data →
    (f.included = true ∧ f.derived = false → Fits sdl s parent f.entity) ∧ FieldFits sdl s f
  | [], _, h => by cases h
  | f' :: rest, hd, h => by
    rw [DataFits] at hd
    rcases List.mem_cons.1 h with rfl | h
    · exact hd.1
    · exact dataFits_mem hd.2 h

theorem lookupsFit_mem {f : Field} : ∀ {fs : List Field}, LookupsFit sdl s fs → f ∈ fs → FieldFits sdl s f
  | [], _, h => by cases h
  | f' :: rest, hd, h => by
    rw [LookupsFit] at hd
    rcases List.mem_cons.1 h with rfl | h
    · exact hd.1
    · exact lookupsFit_mem hd.2 h

theorem fieldFits_operation {f : Field} (h : FieldFits sdl s f) : OperationFits sdl s f.ty f.data f.lookups := by
  cases f with
  | mk key name entity included derived superTy subgraphTy typename data lookups =>
    rw [FieldFits] at h
    exact h

theorem isField_writeField (g : Graph) (f : Field) : IsField (writeField g s f) := by
  rw [writeField_eq]
  exact ⟨_, _, _, _, rfl⟩

theorem selects_operation (hs : SdlOk sdl) (ho : Visits sdl order) (hc : Consistent sdl) {parent : Option Composite} {typename : Bool}
    {data lookups : List Field} (hfit : OperationFits sdl s parent data lookups) (ht : MayBe sdl s parent t) :
    Selects sdl s (writeOperation (build sdl order) s parent typename data lookups) t key name ty sub ↔
      ∃ f, Sel.field key name ty sub = writeField (build sdl order) s f ∧
        (f ∈ data ∧ f.included = true ∧ f.derived = false ∧ Possible sdl f.entity.composite t ∨ f ∈ lookups) := by
  have h1 : ∀ p ∈ writeItems (build sdl order) s data, IsField p.2 := fun p hp => by
    obtain ⟨f, _, _, _, _, h⟩ := mem_writeItems.1 (show (p.1, p.2) ∈ _ from hp)
    rw [h]; exact isField_writeField _ f
  have h2 : ∀ x ∈ writeFields (build sdl order) s lookups, IsField x := fun x hx => by
    obtain ⟨f, _, h⟩ := mem_writeFields.1 hx
    rw [h]; exact isField_writeField _ f
  have h3 : ∀ p ∈ writeItems (build sdl order) s data, Fits sdl s parent p.1 := fun p hp => by
    obtain ⟨f, h1, h2, h3, h4, _⟩ := mem_writeItems.1 (show (p.1, p.2) ∈ _ from hp)
    rw [h4]
    exact (dataFits_mem hfit.2.1 h1).1 ⟨h2, h3⟩
  have h4 : (∃ o, parent = some (.object o)) ∨ writeFields (build sdl order) s lookups = [] := by
    rcases hfit.1 with h | h
    · exact Or.inl h
    · right; rw [h, writeFields]
  unfold writeOperation
  rw [selects_set hs ho hc h1 h2 h3 h4 ht]
  simp only [mem_writeItems, mem_writeFields]
  constructor
  · rintro (⟨e, ⟨f, h1, h2, h3, rfl, h4⟩, h5⟩ | ⟨f, h1, h2⟩)
    · exact ⟨f, h4, Or.inl ⟨h1, h2, h3, h5⟩⟩
    · exact ⟨f, h2, Or.inr h1⟩
  · rintro ⟨f, h4, (⟨h1, h2, h3, h5⟩ | h1)⟩
    · exact Or.inl ⟨f.entity, ⟨f, h1, h2, h3, rfl, h4⟩, h5⟩
    · exact Or.inr ⟨f, h1, h4⟩

theorem sent_nil_sels {parent : Option Composite} {p : Path} (h : Sent sdl s parent [] p) : p = [] := by
  cases h with
  | nil => rfl
  | cons _ h _ => rcases selects_iff.1 h with h | ⟨_, _, h, _⟩ <;> cases h

theorem sent_iff (hs : SdlOk sdl) (ho : Visits sdl order) (hc : Consistent sdl) : ∀ (p : Path) {parent : Option Composite} {typename : Bool}
    {data lookups : List Field}, OperationFits sdl s parent data lookups →
    (Sent sdl s parent (writeOperation (build sdl order) s parent typename data lookups) p ↔ Wanted sdl s parent data lookups p)
  | [], _, _, _, _, _ => ⟨fun _ => .nil, fun _ => .nil⟩
  | (t, k, n) :: rest, parent, typename, data, lookups, hfit => by
    have hsub : ∀ f : Field, FieldFits sdl s f →
        (Sent sdl s f.ty (match f.ty with
          | some c => writeSet (build sdl order) s (some c) f.typename (writeItems (build sdl order) s f.data)
            (writeFields (build sdl order) s f.lookups)
          | none => []) rest ↔ (rest ≠ [] → f.ty ≠ none) ∧ Wanted sdl s f.ty f.data f.lookups rest) := by
      intro f hf
      have hop := fieldFits_operation hf
      cases hty : f.ty with
      | none =>
        constructor
        · intro h
          have := sent_nil_sels h
          subst this
          exact ⟨fun h => absurd rfl h, .nil⟩
        · rintro ⟨h1, _⟩
          have : rest = [] := Classical.byContradiction fun h => h1 h rfl
          subst this
          exact .nil
      | some c =>
        rw [hty] at hop
        have ih := sent_iff hs ho hc rest (typename := f.typename) hop
        exact ⟨fun h => ⟨fun _ he => (by cases he), ih.1 h⟩, fun h => ih.2 h.2⟩
    constructor
    · intro h
      cases h with
      | cons hm hsel hrest =>
        obtain ⟨f, he, hf⟩ := (selects_operation hs ho hc hfit hm).1 hsel
        rw [writeField_eq] at he
        cases he
        rcases hf with ⟨h1, h2, h3, h4⟩ | h1
        · obtain ⟨h5, h6⟩ := (hsub f (dataFits_mem hfit.2.1 h1).2).1 hrest
          exact .data hm h1 h2 h3 h4 h5 h6
        · obtain ⟨h5, h6⟩ := (hsub f (lookupsFit_mem hfit.2.2 h1)).1 hrest
          exact .lookup hm h1 h5 h6
    · intro h
      have build_ : ∀ f : Field, FieldFits sdl s f → MayBe sdl s parent t → (rest ≠ [] → f.ty ≠ none) → Wanted sdl s f.ty f.data f.lookups rest →
          (f ∈ data ∧ f.included = true ∧ f.derived = false ∧ Possible sdl f.entity.composite t ∨ f ∈ lookups) →
          Sent sdl s parent (writeOperation (build sdl order) s parent typename data lookups) ((t, f.key, f.name) :: rest) := by
        intro f hff hm h5 h6 hf
        exact .cons hm ((selects_operation hs ho hc hfit hm).2 ⟨f, (writeField_eq _ f).symm, hf⟩) ((hsub f hff).2 ⟨h5, h6⟩)
      cases h with
      | data hm h1 h2 h3 h4 h5 h6 => exact build_ _ (dataFits_mem hfit.2.1 h1).2 hm h5 h6 (Or.inl ⟨h1, h2, h3, h4⟩)
      | lookup hm h1 h5 h6 => exact build_ _ (lookupsFit_mem hfit.2.2 h1) hm h5 h6 (Or.inr h1)

/-! ## Validity -/

variable {defined : Composite → Nat → Prop}

theorem allAccepted_iff {parent : Option Composite} : ∀ {xs : List Sel}, AllAccepted sdl s defined parent xs ↔ ∀ x ∈ xs, Accepted sdl s defined parent x
  | [] => ⟨fun _ x h => (by cases h), fun _ => .nil⟩
  | y :: ys => by
    constructor
    · intro h x hx
      cases h with
      | cons h1 h2 =>
        rcases List.mem_cons.1 hx with rfl | hx
        · exact h1
        · exact allAccepted_iff.1 h2 x hx
    · intro h
      exact .cons (h y List.mem_cons_self) (allAccepted_iff.2 fun x hx => h x (List.mem_cons_of_mem _ hx))

theorem writeSet_ne (g : Graph) (parent : Option Composite) (typename : Bool) (items : List (Entity × Sel)) (lookups : List Sel) :
    writeSet g s parent typename items lookups ≠ [] := by
  unfold writeSet
  simp only
  generalize (if typename = true then [Sel.typename] else []) ++ writeSetFields g s parent items lookups = out
  split
  · simp
  · rename_i h
    exact fun he => h (List.isEmpty_iff.2 he)

theorem accepted_set (hs : SdlOk sdl) (ho : Visits sdl order) (hc : Consistent sdl) {parent : Option Composite} {typename : Bool}
    {items : List (Entity × Sel)} {lookups : List Sel}
    (hi : ∀ p ∈ items, ∃ n, Sound sdl s defined parent p.1 n ∧ ∀ c, defined c n → Accepted sdl s defined (some c) p.2)
    (hl : ∀ x ∈ lookups, ∀ c, parent = some c → Accepted sdl s defined (some c) x) :
    ∀ x ∈ writeSet (build sdl order) s parent typename items lookups, Accepted sdl s defined parent x := by
  have hpart : ∀ x ∈ writeSetFields (build sdl order) s parent items lookups, Accepted sdl s defined parent x := by
    have hinner : ∀ {e xs}, (e, xs) ∈ chunks items → AllAccepted sdl s defined (some e.composite) xs := by
      intro e xs h
      rw [allAccepted_iff]
      intro x hx
      obtain ⟨n, h1, h2⟩ := hi _ (mem_chunks.1 ⟨xs, h, hx⟩)
      exact h2 _ h1.defined_
    have hsound : ∀ {e xs}, (e, xs) ∈ chunks items → ∃ n, Sound sdl s defined parent e n := by
      intro e xs h
      cases xs with
      | nil => exact absurd rfl (chunk_ne h)
      | cons x xs =>
        obtain ⟨n, h1, _⟩ := hi _ (mem_chunks.1 ⟨_, h, List.mem_cons_self⟩)
        exact ⟨n, h1⟩
    cases parent with
    | none =>
      intro x hx
      rw [writeSetFields] at hx
      obtain ⟨⟨e, xs⟩, hm, rfl⟩ := List.mem_map.1 hx
      obtain ⟨n, hn⟩ := hsound hm
      refine .on ?_ (chunk_ne hm) (hinner hm)
      cases e with
      | object o => exact ⟨o, hn.entity_ o rfl, rfl, hn.entity_ o rfl⟩
      | interface i => exact (hn.interface i rfl (by simp) (by simp)).2
    | some parent =>
      by_cases hp : ∃ o, parent = .object o
      · obtain ⟨o, rfl⟩ := hp
        intro x hx
        rw [writeSetFields] at hx
        rcases List.mem_append.1 hx with hx | hx
        · obtain ⟨p, hp, rfl⟩ := List.mem_map.1 hx
          obtain ⟨n, h1, h2⟩ := hi p hp
          exact h2 _ (h1.object o rfl)
        · exact hl x hx _ rfl
      · have hne : ∀ o, parent ≠ .object o := fun o h => hp ⟨o, h⟩
        have hw : writeSetFields (build sdl order) s (some parent) items lookups = (chunks items).flatMap (writeChunk (build sdl order) s parent) := by
          cases parent with
          | object o => exact absurd rfl (hne o)
          | interface i => rfl
          | union u => rfl
        intro x hx
        rw [hw] at hx
        obtain ⟨⟨e, xs⟩, hm, hx'⟩ := List.mem_flatMap.1 hx
        clear hx
        revert hx'
        intro hx
        obtain ⟨n, hn⟩ := hsound hm
        cases e with
        | object o =>
          rw [writeChunk] at hx
          split at hx
          · rename_i hin
            rw [List.mem_singleton.1 hx]
            exact .on ⟨o, (C57_includes_iff sdl order s o parent).1 hin, rfl, hn.entity_ o rfl⟩ (chunk_ne hm) (hinner hm)
          · cases hx
        | interface i =>
          rw [writeChunk] at hx
          by_cases hpi : parent = .interface i
          · rw [if_pos hpi] at hx
            subst hpi
            exact allAccepted_iff.1 (hinner hm) x hx
          · rw [if_neg hpi] at hx
            obtain ⟨h1, h2⟩ := hn.interface i rfl (fun h => hpi (Option.some.inj h)) (fun o h => hne o (Option.some.inj h))
            have hful : (build sdl order).fullyImplemented s (.interface i) = true := by
              obtain ⟨t, _, ht⟩ := h2
              have hlt := (hc.implements t s i ht).1
              exact (C57_interface_fully_iff sdl order hs ho s i _ (List.getElem?_eq_getElem hlt)).2 (Or.inr h1)
            rw [if_pos hful] at hx
            rw [List.mem_singleton.1 hx]
            exact .on h2 (chunk_ne hm) (hinner hm)
  intro x hx
  unfold writeSet at hx
  simp only at hx
  generalize hpre : (if typename = true then [Sel.typename] else []) = pre at hx
  split at hx
  · rw [List.mem_singleton.1 hx]; exact .typenameSkipped
  · rcases List.mem_append.1 hx with hx | hx
    · subst hpre
      cases typename with
      | true => rw [List.mem_singleton.1 hx]; exact .typename
      | false => cases hx
    · exact hpart x hx

mutual
theorem accepted_field (hs : SdlOk sdl) (ho : Visits sdl order) (hc : Consistent sdl) : ∀ (f : Field), FieldSound sdl s defined f →
    ∀ c, defined c f.name → Accepted sdl s defined (some c) (writeField (build sdl order) s f)
  | .mk key name entity included derived superTy subgraphTy typename data lookups, h, c, hd => by
    rw [FieldSound] at h
    rw [writeField]
    cases hty : subgraphTy.or superTy with
    | none => exact .leaf hd
    | some ty =>
      rw [hty] at h
      exact .composite hd (writeSet_ne _ _ _ _ _) (allAccepted_iff.2 (accepted_set hs ho hc (accepted_items hs ho hc data h.1)
        (accepted_lookups hs ho hc lookups h.2)))
theorem accepted_items (hs : SdlOk sdl) (ho : Visits sdl order) (hc : Consistent sdl) {parent : Option Composite} : ∀ (data : List Field),
    DataSound sdl s defined parent data → ∀ p ∈ writeItems (build sdl order) s data,
    ∃ n, Sound sdl s defined parent p.1 n ∧ ∀ c, defined c n → Accepted sdl s defined (some c) p.2
  | [], _, p, hp => by simp [writeItems] at hp
  | f :: rest, h, p, hp => by
    rw [DataSound] at h
    rw [writeItems] at hp
    split at hp
    · rename_i hin
      rw [Bool.and_eq_true, Bool.not_eq_true'] at hin
      rcases List.mem_cons.1 hp with hp | hp
      · subst hp
        exact ⟨f.name, h.1.1 hin, accepted_field hs ho hc f h.1.2⟩
      · exact accepted_items hs ho hc rest h.2 p hp
    · exact accepted_items hs ho hc rest h.2 p hp
theorem accepted_lookups (hs : SdlOk sdl) (ho : Visits sdl order) (hc : Consistent sdl) {parent : Option Composite} : ∀ (fs : List Field),
    LookupsSound sdl s defined parent fs → ∀ x ∈ writeFields (build sdl order) s fs, ∀ c, parent = some c → Accepted sdl s defined (some c) x
  | [], _, x, hx, _, _ => by simp [writeFields] at hx
  | f :: rest, h, x, hx, c, hp => by
    rw [LookupsSound] at h
    rw [writeFields] at hx
    rcases List.mem_cons.1 hx with hx | hx
    · subst hx
      exact accepted_field hs ho hc f h.1.2 c (h.1.1 c hp)
    · exact accepted_lookups hs ho hc rest h.2 x hx c hp
end

/-! ## Braces -/

theorem allFilled_iff : ∀ {xs : List Sel}, AllFilled xs ↔ ∀ x ∈ xs, Filled x
  | [] => by simp [AllFilled]
  | y :: ys => by rw [AllFilled, allFilled_iff]; simp

theorem filled_set (g : Graph) {parent : Option Composite} {typename : Bool} {items : List (Entity × Sel)} {lookups : List Sel}
    (hi : ∀ p ∈ items, Filled p.2) (hl : ∀ x ∈ lookups, Filled x) : ∀ x ∈ writeSet g s parent typename items lookups, Filled x := by
  have hon : ∀ {e e' : Entity} {xs}, (e, xs) ∈ chunks items → Filled (.on e' xs) := by
    intro e e' xs h
    rw [Filled, allFilled_iff]
    exact ⟨chunk_ne h, fun x hx => hi _ (mem_chunks.1 ⟨xs, h, hx⟩)⟩
  have hpart : ∀ x ∈ writeSetFields g s parent items lookups, Filled x := by
    intro x hx
    unfold writeSetFields at hx
    split at hx
    · obtain ⟨⟨e, xs⟩, hm, rfl⟩ := List.mem_map.1 hx
      exact hon hm
    · rcases List.mem_append.1 hx with hx | hx
      · obtain ⟨p, hp, rfl⟩ := List.mem_map.1 hx
        exact hi p hp
      · exact hl x hx
    · obtain ⟨⟨e, xs⟩, hm, hx'⟩ := List.mem_flatMap.1 hx
      cases e with
      | object o =>
        rw [writeChunk] at hx'
        split at hx'
        · rw [List.mem_singleton.1 hx']; exact hon hm
        · cases hx'
      | interface i =>
        rw [writeChunk] at hx'
        split at hx'
        · exact hi _ (mem_chunks.1 ⟨xs, hm, hx'⟩)
        · split at hx'
          · rw [List.mem_singleton.1 hx']; exact hon hm
          · rcases List.mem_append.1 hx' with h | h
            · obtain ⟨o, _, rfl⟩ := List.mem_map.1 h
              exact hon hm
            · split at h
              · rw [List.mem_singleton.1 h]; exact hon hm
              · cases h
  intro x hx
  unfold writeSet at hx
  simp only at hx
  generalize hpre : (if typename = true then [Sel.typename] else []) = pre at hx
  split at hx
  · rw [List.mem_singleton.1 hx]; simp [Filled]
  · rcases List.mem_append.1 hx with hx | hx
    · subst hpre
      cases typename with
      | true => rw [List.mem_singleton.1 hx]; simp [Filled]
      | false => cases hx
    · exact hpart x hx

mutual
theorem filled_field (g : Graph) : ∀ (f : Field), Filled (writeField g s f)
  | .mk key name entity included derived superTy subgraphTy typename data lookups => by
    rw [writeField]
    cases hty : subgraphTy.or superTy with
    | none => simp [Filled]
    | some ty =>
      simp only [Filled]
      exact ⟨writeSet_ne _ _ _ _ _, allFilled_iff.2 (filled_set g (filled_items g data) (filled_lookups g lookups))⟩
theorem filled_items (g : Graph) : ∀ (data : List Field), ∀ p ∈ writeItems g s data, Filled p.2
  | [], p, hp => by simp [writeItems] at hp
  | f :: rest, p, hp => by
    rw [writeItems] at hp
    split at hp
    · rcases List.mem_cons.1 hp with hp | hp
      · subst hp; exact filled_field g f
      · exact filled_items g rest p hp
    · exact filled_items g rest p hp
theorem filled_lookups (g : Graph) : ∀ (fs : List Field), ∀ x ∈ writeFields g s fs, Filled x
  | [], x, hx => by simp [writeFields] at hx
  | f :: rest, x, hx => by
    rw [writeFields] at hx
    rcases List.mem_cons.1 hx with hx | hx
    · subst hx; exact filled_field g f
    · exact filled_lookups g rest x hx
end
end

end Verif.SubgraphQuery
