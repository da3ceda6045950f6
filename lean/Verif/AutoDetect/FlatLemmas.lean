import Verif.AutoDetect.FoundLemmas

/-!
# Keys of scalars
-/

namespace Verif.AutoDetect

open Verif.Views (Out Item Json Inj)
open Verif.Injection

variable {S : Schema} {key : List (Item Unit)} {args : List Nat}

theorem nonNull_eq {w w' : Wrap} : (w = w' ∨ nonNull w = w') ↔
    w.withoutNonNull = w'.withoutNonNull ∧ (w.isNonNull = true → w'.isNonNull = true) := by
  cases w with
  | named r =>
    cases w' with
    | named r' => cases r <;> cases r' <;> simp [nonNull, Wrap.withoutNonNull, Wrap.isNonNull]
    | list r' w' => simp [nonNull, Wrap.withoutNonNull]
  | list r w =>
    cases w' with
    | named r' => simp [nonNull, Wrap.withoutNonNull]
    | list r' w' =>
      cases r <;> cases r' <;> simp [nonNull, Wrap.withoutNonNull, Wrap.isNonNull]

theorem nonNull_of_without {w w' : Wrap} (h : w.withoutNonNull = w'.withoutNonNull) : nonNull w = nonNull w' := by
  cases w with
  | named => cases w' with
    | named => rfl
    | list => simp [Wrap.withoutNonNull] at h
  | list => cases w' with
    | named => simp [Wrap.withoutNonNull] at h
    | list => simp [Wrap.withoutNonNull] at h; simp [nonNull, h]

theorem canInject_suits {field input : Ty} (hl : field.definition.isLeaf = true) :
    canInject field input false = true ↔ Suits input field := by
  have h1 : ∀ d : Def, d.isLeaf = true → ((match d with
      | .scalar id => decide (Def.scalar id = input.definition)
      | .enum id => decide (Def.enum id = input.definition)
      | _ => isInput input.definition) = true ↔ input.definition = d) := by
    intro d hd
    cases d <;> simp [Def.isLeaf] at hd ⊢ <;> constructor <;> exact fun h => h.symm
  rw [canInject, Suits, ← nonNull_eq, Bool.and_eq_true]
  refine and_congr (h1 _ hl) ?_
  simp

theorem suits_same {a b field : Ty} (ha : Suits a field) (hb : Suits b field) : sameTy (tyNonNull a) (tyNonNull b) = true := by
  rw [sameTy, tyNonNull, tyNonNull]
  simp only [Bool.and_eq_true, decide_eq_true_eq]
  exact ⟨ha.1.trans hb.1.symm, nonNull_of_without (ha.2.1.trans hb.2.1.symm)⟩

/-- The injection of a field of a flat key. -/
theorem flat_inj (hf : Flat S key) {i : Nat} {pos : Option Nat} {inj : Inj}
    (h : mapping S args key (subInjections S key) false i = .ok (some (pos, inj))) :
    (pos = none ∧ ∃ j, inj = .default j) ∨
    ∃ p item, pos = some p ∧ key[p]? = some item ∧ inj = .select item.id .identity ∧ Suits (S.input i).ty (S.fieldTy item.id) ∧
      (S.fieldName item.id = (S.input i).name ∨
        ∀ i' ∈ args, i' ≠ i → sameTy (tyNonNull (S.input i').ty) (tyNonNull (S.input i).ty) = false) ∧
      (List.range key.length).find? (matching S args key false i) = some p := by
  rcases mapping_ok h with ⟨rfl, j, rfl, _⟩ | ⟨p, item, rfl, hitem, hcan, hfind, hinj⟩
  · exact .inl ⟨rfl, j, rfl⟩
  · have hmem := List.mem_of_getElem? hitem
    refine .inr ⟨p, item, rfl, hitem, ?_, (canInject_suits (hf.leaf item hmem).2).1 hcan, ?_, hfind⟩
    · rcases hinj with ⟨_, h'⟩ | ⟨h', _⟩
      · exact h'
      · exact absurd (hf.leaf item hmem).1 h'
    · obtain ⟨item', hitem', _, h'⟩ := find_pos hfind
      rw [hitem] at hitem'
      cases hitem'
      rcases h' with h' | ⟨h', _⟩
      · exact .inl h'
      · exact .inr h'

theorem flat_mapping (hf : Flat S key) {i p : Nat}
    (h : (List.range key.length).find? (matching S args key false i) = some p) :
    ∃ item, key[p]? = some item ∧
      mapping S args key (subInjections S key) false i = .ok (some (some p, .select item.id .identity)) := by
  obtain ⟨item, hitem, _⟩ := find_pos h
  refine ⟨item, hitem, ?_⟩
  have hsub : (subInjections S key)[p]? = some (subInjection S item) := by
    rw [subInjections_eq, List.getElem?_map, hitem]
    rfl
  rw [mapping, h]
  simp only [hitem, hsub]
  rw [if_pos (by simp [(hf.leaf item (List.mem_of_getElem? hitem)).1])]

theorem flat_once (hf : Flat S key) (hnames : ∀ i ∈ args, ∀ j ∈ args, (S.input i).name = (S.input j).name → i = j)
    {kvs : List (Nat × Inj)} (h : mapKey S args key (subInjections S key) false = .ok (some kvs)) :
    (∀ a ∈ kvs, ∀ b ∈ kvs, ∀ f, a.2 = .select f .identity → b.2 = .select f .identity → a.1 = b.1) ∧
    (∀ a ∈ kvs, ∀ item ∈ key, S.fieldName item.id = (S.input a.1).name → Suits (S.input a.1).ty (S.fieldTy item.id) →
      a.2 = .select item.id .identity) := by
  obtain ⟨_, found, hm, hall⟩ := mapKey_ok h
  obtain ⟨m1, _, m3, m4⟩ := mapAll_ok hm
  have hin : ∀ a ∈ kvs, a.1 ∈ args := fun a ha => m1.subset (List.mem_map.2 ⟨a, ha, rfl⟩)
  have hmap : ∀ a ∈ kvs, ∀ f, a.2 = .select f .identity → ∃ (p : Nat) (item : Item Unit), key[p]? = some item ∧ item.id = f ∧
      Suits (S.input a.1).ty (S.fieldTy f) ∧ (S.fieldName f = (S.input a.1).name ∨
        ∀ i' ∈ args, i' ≠ a.1 → sameTy (tyNonNull (S.input i').ty) (tyNonNull (S.input a.1).ty) = false) := by
    intro a ha f hf'
    rcases m3 a ha with ⟨_, j, hj, _⟩ | ⟨pos, hpos⟩
    · rw [hj] at hf'; cases hf'
    · rcases flat_inj hf hpos with ⟨_, j, hj⟩ | ⟨p, item, _, hitem, hinj, hs, hu, _⟩
      · rw [hj] at hf'; cases hf'
      · rw [hinj] at hf'
        cases hf'
        exact ⟨p, item, hitem, rfl, hs, hu⟩
  refine ⟨?_, ?_⟩
  · intro a ha b hb f haf hbf
    obtain ⟨_, _, _, _, hsa, hua⟩ := hmap a ha f haf
    obtain ⟨_, _, _, _, hsb, hub⟩ := hmap b hb f hbf
    by_cases hab : a.1 = b.1
    · exact hab
    · rcases hua with hua | hua
      · rcases hub with hub | hub
        · exact hnames _ (hin a ha) _ (hin b hb) (hua.symm.trans hub)
        · have := hub a.1 (hin a ha) hab
          rw [suits_same hsa hsb] at this
          cases this
      · have := hua b.1 (hin b hb) (fun h => hab h.symm)
        rw [suits_same hsb hsa] at this
        cases this
  · intro a ha item hitem hname hsuits
    obtain ⟨q, hq, hqi⟩ := List.mem_iff_getElem.1 hitem
    have hqi : key[q]? = some item := by rw [List.getElem?_eq_getElem hq, hqi]
    have hmatch : matching S args key false a.1 q = true := by
      rw [matching, hqi]
      simp only [Bool.and_eq_true, Bool.or_eq_true_iff]
      exact ⟨(canInject_suits (hf.leaf item hitem).2).2 hsuits, .inl (by simp [hname])⟩
    have hsome : ((List.range key.length).find? (matching S args key false a.1)).isSome = true := by
      rw [List.find?_isSome]
      exact ⟨q, List.mem_range.2 hq, hmatch⟩
    rw [Option.isSome_iff_exists] at hsome
    obtain ⟨p, hp⟩ := hsome
    obtain ⟨item', hitem', hmapping⟩ := flat_mapping hf hp
    have hpos : mapping S args key (subInjections S key) false a.1 = .ok (some (some p, a.2)) := by
      rcases m3 a ha with ⟨h', _⟩ | ⟨pos, h'⟩
      · rw [hmapping] at h'
        cases h'
      · rw [hmapping] at h'
        rw [hmapping, (Prod.mk.inj (Option.some.inj (Out.ok.inj h'))).2]
    rcases flat_inj hf hpos with ⟨hx, _⟩ | ⟨p', item', hx, hitem', hinj, hs', hu, hfind⟩
    · cases hx
    · cases hx
      rw [hinj]
      by_cases hpq : p = q
      · subst hpq
        rw [hitem'] at hqi
        cases hqi
        rfl
      · rcases hu with hu | hu
        · rw [hf.names item' (List.mem_of_getElem? hitem') item hitem (hu.trans hname.symm)]
        · exfalso
          obtain ⟨b, hb, hbpos⟩ := m4 q (hall q hq)
          rcases flat_inj hf hbpos with ⟨hx, _⟩ | ⟨q', item'', hx, hitem'', _, hs'', _, _⟩
          · cases hx
          · cases hx
            rw [hqi] at hitem''
            cases hitem''
            by_cases hab : b.1 = a.1
            · rw [hab, hpos] at hbpos
              simp at hbpos
              exact hpq hbpos.1
            · have := hu b.1 (hin b hb) hab
              rw [suits_same hs'' hsuits] at this
              cases this

end Verif.AutoDetect
