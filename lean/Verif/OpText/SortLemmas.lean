import Verif.OpText.Normalize
import Verif.OpChecks.TableLemmas
/-!
# Sorting by a string
-/
namespace Verif.OpText

open Verif.OpChecks

variable {α : Type} {cmp : α → α → Ordering} {key : α → Str}

theorem sortBy_key_sorted (hk : ∀ a b, cmp a b = compare (key a) (key b)) (l : List α) :
    (sortBy (fun a b => (cmp a b).isLE) l).Pairwise fun a b => (compare (key a) (key b)).isLE = true := by
  have e : (fun a b => (cmp a b).isLE) = fun a b => (compare (key a) (key b)).isLE := by
    funext a b; rw [hk]
  rw [e]
  exact sorted_sortBy key l

/-- Without two equal keys the result of the sort does not depend on the order. -/
theorem sortBy_key_perm (hk : ∀ a b, cmp a b = compare (key a) (key b)) {l l' : List α} (hp : l.Perm l')
    (hn : (l.map key).Nodup) : sortBy (fun a b => (cmp a b).isLE) l = sortBy (fun a b => (cmp a b).isLE) l' := by
  have hinj : ∀ a ∈ l, ∀ b ∈ l, key a = key b → a = b := by
    clear hp
    induction l with
    | nil => intro a ha; cases ha
    | cons x t ih =>
      rw [List.map_cons, List.nodup_cons] at hn
      intro a ha b hb e
      rcases List.mem_cons.1 ha with ha' | ha' <;> rcases List.mem_cons.1 hb with hb' | hb'
      · rw [ha', hb']
      · exact absurd (List.mem_map.2 ⟨b, hb', by rw [← e, ha']⟩) hn.1
      · exact absurd (List.mem_map.2 ⟨a, ha', by rw [e, hb']⟩) hn.1
      · exact ih hn.2 a ha' b hb' e
  have h1 := sortBy_perm (fun a b => (cmp a b).isLE) l
  have h2 := sortBy_perm (fun a b => (cmp a b).isLE) l'
  refine List.Perm.eq_of_pairwise ?_ (sortBy_key_sorted hk l) (sortBy_key_sorted hk l') (h1.trans (hp.trans h2.symm))
  intro a b ha hb hab hba
  have ha := h1.mem_iff.1 ha
  have hb := hp.mem_iff.2 (h2.mem_iff.1 hb)
  refine hinj a ha b hb ?_
  have h := Std.OrientedCmp.isLE_antisymm hab hba
  exact Std.LawfulEqCmp.eq_of_compare h

theorem insertBy_of_le {le : α → α → Bool} {x : α} {l : List α} (h : ∀ y ∈ l, le x y = true) : insertBy le x l = x :: l := by
  cases l with
  | nil => rfl
  | cons y t => unfold insertBy; rw [if_pos (h y List.mem_cons_self)]

theorem sortBy_of_sorted {le : α → α → Bool} {l : List α} (h : l.Pairwise fun a b => le a b = true) : sortBy le l = l := by
  induction l with
  | nil => rfl
  | cons x t ih =>
    obtain ⟨h1, h2⟩ := List.pairwise_cons.1 h
    show insertBy le x (sortBy le t) = _
    rw [ih h2, insertBy_of_le h1]

theorem sortBy_key_of_sorted (hk : ∀ a b, cmp a b = compare (key a) (key b)) {l : List α}
    (h : l.Pairwise fun a b => (compare (key a) (key b)).isLE = true) : sortBy (fun a b => (cmp a b).isLE) l = l := by
  apply sortBy_of_sorted
  simpa only [hk] using h

theorem sortBy_map {β : Type} {le : α → α → Bool} {le' : β → β → Bool} (f : α → β) (h : ∀ a b, le' (f a) (f b) = le a b)
    (l : List α) : (sortBy le l).map f = sortBy le' (l.map f) := by
  have hi : ∀ x l, (insertBy le x l).map f = insertBy le' (f x) (l.map f) := by
    intro x l
    induction l with
    | nil => rfl
    | cons y t ih =>
      simp only [insertBy, List.map_cons, h]
      split
      · rfl
      · rw [List.map_cons, ih]
  induction l with
  | nil => rfl
  | cons x t ih =>
    show (insertBy le x (sortBy le t)).map f = insertBy le' (f x) (sortBy le' (t.map f))
    rw [hi, ih]

/-- A sort that puts one kind first sorts each kind on its own. -/
theorem sortBy_split {le : α → α → Bool} (p : α → Bool) (hlt : ∀ a b, p a = true → p b = false → le a b = true)
    (hgt : ∀ a b, p a = false → p b = true → le a b = false) (heq : ∀ a b, p a = false → p b = false → le a b = true) (l : List α) :
    sortBy le l = sortBy le (l.filter p) ++ l.filter fun a => !p a := by
  have h1 : ∀ x (l m : List α), p x = true → (∀ y ∈ l, p y = true) → (∀ y ∈ m, p y = false) →
      insertBy le x (l ++ m) = insertBy le x l ++ m := by
    intro x l m hx hl hm
    induction l with
    | nil =>
      show insertBy le x m = [x] ++ m
      rw [insertBy_of_le fun y hy => hlt x y hx (hm y hy)]
      rfl
    | cons y t ih =>
      simp only [insertBy, List.cons_append]
      split
      · rfl
      · rw [ih fun z hz => hl z (List.mem_cons_of_mem _ hz)]; rfl
  have h2 : ∀ x (l m : List α), p x = false → (∀ y ∈ l, p y = true) → (∀ y ∈ m, p y = false) →
      insertBy le x (l ++ m) = l ++ x :: m := by
    intro x l m hx hl hm
    induction l with
    | nil =>
      show insertBy le x m = x :: m
      exact insertBy_of_le fun y hy => heq x y hx (hm y hy)
    | cons y t ih =>
      simp only [insertBy, List.cons_append]
      rw [if_neg (by rw [hgt x y hx (hl y List.mem_cons_self)]; simp), ih fun z hz => hl z (List.mem_cons_of_mem _ hz)]
  induction l with
  | nil => rfl
  | cons x t ih =>
    show insertBy le x (sortBy le t) = _
    rw [ih]
    have ha : ∀ y ∈ sortBy le (t.filter p), p y = true := fun y hy =>
      (List.mem_filter.1 ((sortBy_perm le _).mem_iff.1 hy)).2
    have hb : ∀ y ∈ t.filter fun a => !p a, p y = false := fun y hy => by
      simpa using (List.mem_filter.1 hy).2
    cases hx : p x with
    | true =>
      rw [h1 x _ _ hx ha hb, List.filter_cons_of_pos hx, List.filter_cons_of_neg (by simp [hx])]
      rfl
    | false =>
      rw [h2 x _ _ hx ha hb, List.filter_cons_of_neg (by simp [hx]), List.filter_cons_of_pos (by simp [hx])]

end Verif.OpText
