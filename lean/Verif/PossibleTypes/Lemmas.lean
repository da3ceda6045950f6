import Verif.PossibleTypes.Spec
import Verif.OpChecks.TableLemmas
/-! Lemmas on sorted ids, binary searches and the merging loops. -/
namespace Verif.PossibleTypes
open Verif.OpChecks (sortBy cmp2 sortBy_perm sortBy_sorted sorted_sortBy mono_of_sorted cmp2_eq)
open Verif.PatchPaths (binarySearchBy search_found search_complete)

/-! ## Tables -/

theorem mem_sortIds {a : Nat} {l : List Nat} : a ∈ sortIds l ↔ a ∈ l := (sortBy_perm _ l).mem_iff

theorem sorted_sortIds (l : List Nat) : (sortIds l).Pairwise (· ≤ ·) := by
  have := sortBy_sorted (le := fun a b : Nat => decide (a ≤ b)) (by simp; omega) (by simp; omega) l
  exact this.imp (by simp)

theorem strict_sortIds {l : List Nat} (h : l.Nodup) : (sortIds l).Pairwise (· < ·) := by
  have h1 := sorted_sortIds l
  have h2 : (sortIds l).Nodup := ((sortBy_perm _ l).nodup_iff).2 h
  refine (h1.and h2).imp ?_
  rintro a b ⟨h3, h4⟩
  omega

theorem mem_dedup {a : Nat} : ∀ {l : List Nat}, a ∈ dedup l ↔ a ∈ l
  | [] => by simp [dedup]
  | b :: rest => by
    have ih := mem_dedup (a := a) (l := rest)
    unfold dedup
    cases hd : dedup rest with
    | nil => rw [hd] at ih; simp only [List.mem_cons, ← ih]
    | cons c tail =>
      rw [hd] at ih
      simp only
      split
      · rename_i e
        subst e
        rw [List.mem_cons (a := a) (b := b) (l := rest), ← ih]
        simp
      · rw [List.mem_cons (a := a) (b := b) (l := rest), ← ih, List.mem_cons]

theorem search_iff {l : List (Nat × Nat)} {s i : Nat} :
    (binarySearchBy (fun r : Nat × Nat => (compare r.1 s).then (compare r.2 i)) (sortBy (fun a b => (cmp2 a b).isLE) l)).1 = true ↔
      (s, i) ∈ l := by
  constructor
  · intro h
    obtain ⟨a, ha, he⟩ := search_found h
    have : a = (s, i) := cmp2_eq.1 he
    rw [this] at ha
    exact ((sortBy_perm _ l).mem_iff).1 ha
  · intro h
    exact search_complete (mono_of_sorted (cmp := cmp2) (g := fun a => a) (sorted_sortBy (cmp := cmp2) (fun a => a) l) (s, i))
      (((sortBy_perm _ l).mem_iff).2 h) (cmp2_eq.2 rfl)

theorem implements_iff {sdl : Sdl} {o s i : Nat} :
    implements (sdl.objects.map (buildObject sdl.subgraphs)) o s i = true ↔ ImplementsIn sdl o s i := by
  unfold implements ImplementsIn
  rw [List.getElem?_map]
  cases hd : sdl.objects[o]? with
  | none => simp
  | some d =>
    simp only [Option.map_some, Option.some.injEq, exists_eq_left']
    exact search_iff

theorem hasMember_iff {l : List (Nat × Nat)} {s o : Nat} : hasMember (sortBy (fun a b => (cmp2 a b).isLE) l) s o = true ↔ (s, o) ∈ l :=
  search_iff

theorem mem_existsIn {sdl : Sdl} {js : List Nat} {s : Nat} : s ∈ existsIn sdl.subgraphs js ↔ InSubgraph sdl js s := by
  unfold existsIn InSubgraph
  cases js with
  | nil => simp
  | cons a rest => simp [mem_sortIds]

theorem mem_pushed {objects : List ObjectSdl} {order : List Nat} {i o : Nat} :
    o ∈ pushed objects order i ↔ o ∈ order ∧ ∃ d, objects[o]? = some d ∧ i ∈ d.interfaces := by
  unfold pushed
  rw [List.mem_flatMap]
  constructor
  · rintro ⟨a, ha, h⟩
    cases hd : objects[a]? with
    | none => rw [hd] at h; cases h
    | some d =>
      rw [hd] at h
      simp only [List.mem_filterMap] at h
      obtain ⟨j, hj, h⟩ := h
      split at h
      · rename_i e
        cases h
        exact ⟨ha, d, hd, e ▸ hj⟩
      · cases h
  · rintro ⟨ho, d, hd, hi⟩
    refine ⟨o, ho, ?_⟩
    rw [hd]
    simp only [List.mem_filterMap]
    exact ⟨i, hi, if_pos rfl⟩

theorem nodup_filterMap_const {o i : Nat} : ∀ {l : List Nat}, l.Nodup → (l.filterMap fun j => if j = i then some o else none).Nodup
  | [], _ => List.nodup_nil
  | a :: rest, h => by
    have ih := nodup_filterMap_const (o := o) (i := i) (List.nodup_cons.1 h).2
    rw [List.filterMap_cons]
    split
    · exact ih
    · rename_i b e
      split at e
      · rename_i ea
        cases e
        subst ea
        have : (rest.filterMap fun j => if j = a then some o else none) = [] := by
          rw [List.filterMap_eq_nil_iff]
          intro x hx
          rw [if_neg]
          rintro rfl
          exact (List.nodup_cons.1 h).1 hx
        rw [this]
        simp
      · cases e

theorem nodup_pushed {objects : List ObjectSdl} (hd : ∀ d ∈ objects, d.interfaces.Nodup) (i : Nat) :
    ∀ {order : List Nat}, order.Nodup → (pushed objects order i).Nodup
  | [], _ => List.nodup_nil
  | a :: rest, h => by
    have ih := nodup_pushed hd i (List.nodup_cons.1 h).2
    have hsplit : pushed objects (a :: rest) i = pushed objects [a] i ++ pushed objects rest i := by
      unfold pushed; simp
    rw [hsplit, List.nodup_append]
    refine ⟨?_, ih, ?_⟩
    · unfold pushed
      simp only [List.flatMap_cons, List.flatMap_nil, List.append_nil]
      split
      · rename_i d e
        exact nodup_filterMap_const (hd d (List.mem_of_getElem? e))
      · exact List.nodup_nil
    · rintro x hx y hy rfl
      have h1 := (mem_pushed.1 hx).1
      have h2 := (mem_pushed.1 hy).1
      simp only [List.mem_singleton] at h1
      exact (List.nodup_cons.1 h).1 (h1 ▸ h2)

/-! ## Merging loops -/

theorem lt_all {a : Nat} {as : List Nat} (h : (a :: as).Pairwise (· < ·)) : ∀ x ∈ as, a < x := (List.pairwise_cons.1 h).1

theorem intersectLoop_iff : ∀ (fuel : Nat) {left right : List Nat}, left.length + right.length < fuel → left.Pairwise (· < ·) →
    right.Pairwise (· < ·) → (intersectLoop fuel left right = true ↔ ∃ a, a ∈ left ∧ a ∈ right)
  | 0, _, _, h, _, _ => by omega
  | fuel + 1, [], _, _, _, _ => by simp [intersectLoop]
  | fuel + 1, a :: as, [], _, _, _ => by simp [intersectLoop]
  | fuel + 1, a :: as, b :: bs, h, hl, hr => by
    simp only [List.length_cons] at h
    unfold intersectLoop
    cases hc : compare a b with
    | lt =>
      simp only
      rw [Nat.compare_eq_lt] at hc
      rw [intersectLoop_iff fuel (by simp only [List.length_cons]; omega) (List.pairwise_cons.1 hl).2 hr]
      constructor
      · rintro ⟨x, h1, h2⟩; exact ⟨x, List.mem_cons_of_mem _ h1, h2⟩
      · rintro ⟨x, h1, h2⟩
        rcases List.mem_cons.1 h1 with rfl | h1
        · rcases List.mem_cons.1 h2 with rfl | h2
          · omega
          · have := lt_all hr x h2; omega
        · exact ⟨x, h1, h2⟩
    | eq =>
      rw [Nat.compare_eq_eq] at hc
      simp only [true_iff]
      exact ⟨a, List.mem_cons_self, hc ▸ List.mem_cons_self⟩
    | gt =>
      simp only
      rw [Nat.compare_eq_gt] at hc
      rw [intersectLoop_iff fuel (by simp only [List.length_cons]; omega) hl (List.pairwise_cons.1 hr).2]
      constructor
      · rintro ⟨x, h1, h2⟩; exact ⟨x, h1, List.mem_cons_of_mem _ h2⟩
      · rintro ⟨x, h1, h2⟩
        rcases List.mem_cons.1 h2 with rfl | h2
        · rcases List.mem_cons.1 h1 with rfl | h1
          · omega
          · have := lt_all hl x h1; omega
        · exact ⟨x, h1, h2⟩

theorem disjointLoop_eq : ∀ (fuel : Nat) (left right : List Nat), disjointLoop fuel left right = !intersectLoop fuel left right
  | 0, _, _ => rfl
  | fuel + 1, [], _ => rfl
  | fuel + 1, a :: as, [] => rfl
  | fuel + 1, a :: as, b :: bs => by
    unfold disjointLoop intersectLoop
    cases compare a b with
    | lt => exact disjointLoop_eq fuel _ _
    | eq => rfl
    | gt => exact disjointLoop_eq fuel _ _

theorem subsetLoop_iff : ∀ (fuel : Nat) {left right : List Nat}, left.length + right.length < fuel → left.Pairwise (· < ·) →
    right.Pairwise (· < ·) → (subsetLoop fuel left right = true ↔ ∀ a ∈ left, a ∈ right ∨ ∀ b ∈ right, b < a)
  | 0, _, _, h, _, _ => by omega
  | fuel + 1, [], _, _, _, _ => by simp [subsetLoop]
  | fuel + 1, a :: as, [], _, _, _ => by simp [subsetLoop]
  | fuel + 1, a :: as, b :: bs, h, hl, hr => by
    simp only [List.length_cons] at h
    unfold subsetLoop
    cases hc : compare a b with
    | lt =>
      rw [Nat.compare_eq_lt] at hc
      simp only [Bool.false_eq_true, false_iff]
      intro hall
      rcases hall a List.mem_cons_self with h1 | h1
      · rcases List.mem_cons.1 h1 with rfl | h1
        · omega
        · have := lt_all hr a h1; omega
      · have := h1 b List.mem_cons_self; omega
    | eq =>
      rw [Nat.compare_eq_eq] at hc
      subst hc
      simp only
      rw [subsetLoop_iff fuel (by simp only [List.length_cons]; omega) (List.pairwise_cons.1 hl).2 hr]
      constructor
      · intro hall x hx
        rcases List.mem_cons.1 hx with rfl | hx
        · exact Or.inl List.mem_cons_self
        · exact hall x hx
      · exact fun hall x hx => hall x (List.mem_cons_of_mem _ hx)
    | gt =>
      rw [Nat.compare_eq_gt] at hc
      simp only
      rw [subsetLoop_iff fuel (by simp only [List.length_cons]; omega) hl (List.pairwise_cons.1 hr).2]
      have hall : ∀ x ∈ a :: as, b < x := by
        intro x hx
        rcases List.mem_cons.1 hx with rfl | hx
        · exact hc
        · have := lt_all hl x hx; omega
      constructor
      · intro h1 x hx
        rcases h1 x hx with h2 | h2
        · exact Or.inl (List.mem_cons_of_mem _ h2)
        · refine Or.inr fun y hy => ?_
          rcases List.mem_cons.1 hy with rfl | hy
          · exact hall x hx
          · exact h2 y hy
      · intro h1 x hx
        rcases h1 x hx with h2 | h2
        · rcases List.mem_cons.1 h2 with rfl | h2
          · exact absurd (hall x hx) (by omega)
          · exact Or.inl h2
        · exact Or.inr fun y hy => h2 y (List.mem_cons_of_mem _ hy)

/-! ## Splitting -/

theorem common_nil_right (l : List Nat) : common l [] = [] := by simp [common]

theorem common_lt {a b : Nat} {as bs : List Nat} (h : a < b) (hr : (b :: bs).Pairwise (· < ·)) :
    common (a :: as) (b :: bs) = common as (b :: bs) := by
  unfold common
  rw [List.filter_cons, if_neg]
  simp only [decide_eq_true_eq, List.mem_cons, not_or]
  refine ⟨by omega, fun hm => ?_⟩
  have := lt_all hr a hm; omega

theorem common_gt {a b : Nat} {as bs : List Nat} (h : b < a) (hl : (a :: as).Pairwise (· < ·)) :
    common (a :: as) (b :: bs) = common (a :: as) bs := by
  unfold common
  apply List.filter_congr
  intro x hx
  have hx' : b < x := by
    rcases List.mem_cons.1 hx with rfl | hx
    · exact h
    · have := lt_all hl x hx; omega
  simp only [List.mem_cons, decide_eq_decide]
  constructor
  · rintro (rfl | h)
    · omega
    · exact h
  · exact Or.inr

theorem common_eq {a : Nat} {as bs : List Nat} (hl : (a :: as).Pairwise (· < ·)) :
    common (a :: as) (a :: bs) = a :: common as bs := by
  unfold common
  rw [List.filter_cons, if_pos (by simp)]
  congr 1
  apply List.filter_congr
  intro x hx
  have := lt_all hl x hx
  simp only [List.mem_cons, decide_eq_decide]
  constructor
  · rintro (rfl | h)
    · omega
    · exact h
  · exact Or.inr

theorem splitRun_finished (e : SplitEnv) (b : Bool) (added : List Nat) : ∀ n, splitRun e n (.finished b added) = .finished b added
  | 0 => rfl
  | n + 1 => splitRun_finished e b added n

theorem splits_ends (e : SplitEnv) : ∀ (fuel : Nat) {left right added : List Nat}, left.length + right.length < fuel →
    left.Pairwise (· < ·) → right.Pairwise (· < ·) → ∀ {res : Bool × List Nat}, Splits e added (common left right) (some res) →
    ∃ n, splitRun e n (.running left right added) = .finished res.1 res.2
  | 0, _, _, _, h, _, _, _, _ => by omega
  | fuel + 1, [], right, added, _, _, _, res, h => by
    cases h
    exact ⟨1, rfl⟩
  | fuel + 1, a :: as, [], added, _, _, _, res, h => by
    rw [common_nil_right] at h
    cases h
    exact ⟨1, rfl⟩
  | fuel + 1, a :: as, b :: bs, added, hf, hl, hr, res, h => by
    simp only [List.length_cons] at hf
    cases hc : compare a b with
    | lt =>
      rw [common_lt (Nat.compare_eq_lt.1 hc) hr] at h
      obtain ⟨n, hn⟩ := splits_ends e fuel (by simp only [List.length_cons]; omega) (List.pairwise_cons.1 hl).2 hr h
      refine ⟨n + 1, ?_⟩
      rw [splitRun, splitStep, hc]
      exact hn
    | gt =>
      rw [common_gt (Nat.compare_eq_gt.1 hc) hl] at h
      obtain ⟨n, hn⟩ := splits_ends e fuel (by simp only [List.length_cons]; omega) hl (List.pairwise_cons.1 hr).2 h
      refine ⟨n + 1, ?_⟩
      rw [splitRun, splitStep, hc]
      exact hn
    | eq =>
      have e1 := Nat.compare_eq_eq.1 hc
      subst e1
      rw [common_eq hl] at h
      cases h with
      | unresolvable h1 h2 => exact ⟨1, by simp only [splitRun, splitStep, hc, h1, h2, Bool.not_true, Bool.false_eq_true, if_false, Bool.not_false, if_true]⟩
      | refused h1 h2 h3 => exact ⟨1, by simp only [splitRun, splitStep, hc, h1, h2, h3, Bool.not_true, Bool.false_eq_true, if_false, Bool.not_false, if_true]⟩
      | next h1 h2 h3 h4 =>
        obtain ⟨n, hn⟩ := splits_ends e fuel (by omega) (List.pairwise_cons.1 hl).2 (List.pairwise_cons.1 hr).2 h4
        refine ⟨n + 1, ?_⟩
        simp only [splitRun, splitStep, hc, h1, h2, h3, Bool.not_true, Bool.false_eq_true, if_false]
        exact hn

theorem stuck_forever (e : SplitEnv) {a : Nat} {as bs added : List Nat} (h : e.implementsHere a = false) :
    ∀ n, splitRun e n (.running (a :: as) (a :: bs) added) = .running (a :: as) (a :: bs) added
  | 0 => rfl
  | n + 1 => by
    have hs : splitStep e (.running (a :: as) (a :: bs) added) = .running (a :: as) (a :: bs) added := by
      have hc : compare a a = .eq := Nat.compare_eq_eq.2 rfl
      simp only [splitStep, hc, h, Bool.not_false, if_true]
    rw [splitRun, hs]
    exact stuck_forever e h n

theorem splits_stuck (e : SplitEnv) : ∀ (fuel : Nat) {left right added : List Nat}, left.length + right.length < fuel →
    left.Pairwise (· < ·) → right.Pairwise (· < ·) → Splits e added (common left right) none →
    ∀ n, ∃ l r ad, splitRun e n (.running left right added) = .running l r ad
  | 0, _, _, _, h, _, _, _ => by omega
  | fuel + 1, [], right, added, _, _, _, h => by cases h
  | fuel + 1, a :: as, [], added, _, _, _, h => by
    rw [common_nil_right] at h
    cases h
  | fuel + 1, a :: as, b :: bs, added, hf, hl, hr, h => by
    simp only [List.length_cons] at hf
    intro n
    cases hc : compare a b with
    | lt =>
      rw [common_lt (Nat.compare_eq_lt.1 hc) hr] at h
      have ih := splits_stuck e fuel (by simp only [List.length_cons]; omega) (List.pairwise_cons.1 hl).2 hr h
      cases n with
      | zero => exact ⟨_, _, _, rfl⟩
      | succ n => rw [splitRun, splitStep, hc]; exact ih n
    | gt =>
      rw [common_gt (Nat.compare_eq_gt.1 hc) hl] at h
      have ih := splits_stuck e fuel (by simp only [List.length_cons]; omega) hl (List.pairwise_cons.1 hr).2 h
      cases n with
      | zero => exact ⟨_, _, _, rfl⟩
      | succ n => rw [splitRun, splitStep, hc]; exact ih n
    | eq =>
      have e1 := Nat.compare_eq_eq.1 hc
      subst e1
      rw [common_eq hl] at h
      cases h with
      | stuck h1 => exact ⟨_, _, _, stuck_forever e h1 n⟩
      | next h1 h2 h3 h4 =>
        have ih := splits_stuck e fuel (by omega) (List.pairwise_cons.1 hl).2 (List.pairwise_cons.1 hr).2 h4
        cases n with
        | zero => exact ⟨_, _, _, rfl⟩
        | succ n =>
          simp only [splitRun, splitStep, hc, h1, h2, h3, Bool.not_true, Bool.false_eq_true, if_false]
          exact ih n

theorem splits_total (e : SplitEnv) : ∀ (added l : List Nat), ∃ out, Splits e added l out
  | added, [] => ⟨_, .done added⟩
  | added, o :: rest => by
    cases h1 : e.implementsHere o with
    | false => exact ⟨_, .stuck h1⟩
    | true =>
      cases h2 : e.resolvable o with
      | false => exact ⟨_, .unresolvable h1 h2⟩
      | true =>
        cases h3 : e.provides added o with
        | false => exact ⟨_, .refused h1 h2 h3⟩
        | true =>
          obtain ⟨out, h4⟩ := splits_total e (added ++ [o]) rest
          exact ⟨out, .next h1 h2 h3 h4⟩

theorem should_of_splits {e : SplitEnv} {added l : List Nat} {out : Option (Bool × List Nat)} (h : Splits e added l out) :
    ∀ res, out = some res → ShouldSplit e added l res := by
  induction h with
  | done added => intro res h; cases h; exact .done added
  | stuck _ => intro res h; cases h
  | unresolvable h1 h2 => intro res h; cases h; exact .unresolvable h1 h2
  | refused h1 h2 h3 => intro res h; cases h; exact .refused h1 h2 h3
  | next h1 h2 h3 _ ih => intro res h; exact .next h1 h2 h3 (ih res h)

theorem splits_none {e : SplitEnv} {added l : List Nat} {out : Option (Bool × List Nat)} (h : Splits e added l out) :
    out = none ↔ ∃ pre o post, l = pre ++ o :: post ∧ e.implementsHere o = false ∧
      ∀ (p : List Nat) (x : Nat) (q : List Nat), pre = p ++ x :: q → e.implementsHere x = true ∧ e.resolvable x = true ∧ e.provides (added ++ p) x = true := by
  induction h with
  | done added => simp
  | @stuck added o rest h1 =>
    simp only [true_iff]
    exact ⟨[], o, rest, rfl, h1, fun p x q h => by cases p <;> cases h⟩
  | @unresolvable added o rest h1 h2 =>
    simp only [reduceCtorEq, false_iff]
    rintro ⟨pre, x, post, h3, h4, h5⟩
    cases pre with
    | nil => cases h3; rw [h1] at h4; cases h4
    | cons y ys => cases h3; have := (h5 [] o ys rfl).2.1; rw [h2] at this; cases this
  | @refused added o rest h1 h2 h3 =>
    simp only [reduceCtorEq, false_iff]
    rintro ⟨pre, x, post, h3', h4, h5⟩
    cases pre with
    | nil => cases h3'; rw [h1] at h4; cases h4
    | cons y ys => cases h3'; have := (h5 [] o ys rfl).2.2; rw [List.append_nil, h3] at this; cases this
  | @next added o rest out h1 h2 h3 _ ih =>
    rw [ih]
    constructor
    · rintro ⟨pre, x, post, h4, h5, h6⟩
      refine ⟨o :: pre, x, post, by rw [h4]; rfl, h5, ?_⟩
      intro p y q hp
      cases p with
      | nil => cases hp; exact ⟨h1, h2, by rw [List.append_nil]; exact h3⟩
      | cons z zs =>
        cases hp
        have := h6 zs y q rfl
        rw [List.append_assoc] at this
        exact this
    · rintro ⟨pre, x, post, h4, h5, h6⟩
      cases pre with
      | nil => cases h4; rw [h1] at h5; cases h5
      | cons z zs =>
        cases h4
        refine ⟨zs, x, post, rfl, h5, ?_⟩
        intro p y q hp
        have := h6 (o :: p) y q (by rw [hp]; rfl)
        rw [List.append_assoc]
        exact this

end Verif.PossibleTypes
