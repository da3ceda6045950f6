import Verif.NullProp.Spec
import Verif.DefaultMerge.Lemmas
import Verif.OpChecks.TableLemmas

/-! # Lemmas on serialisation -/
namespace Verif.NullProp

open Verif.DefaultMerge (Key Field)
open Verif.OpChecks (sortBy insertBy sortBy_perm sortBy_sorted)

theorem mapM_some_of {α β : Type} {f g : α → Option β} {l : List α} {r : List β}
    (h : l.mapM f = some r) (hfg : ∀ a ∈ l, ∀ b, f a = some b → g a = some b) : l.mapM g = some r := by
  induction l generalizing r with
  | nil => simpa using h
  | cons a t ih =>
    rw [List.mapM_cons] at h ⊢
    cases hb : f a with
    | none => simp [hb] at h
    | some b =>
      cases ht : t.mapM f with
      | none => simp [hb, ht] at h
      | some bs =>
        rw [hfg a List.mem_cons_self b hb, ih ht (fun x hx => hfg x (List.mem_cons_of_mem _ hx))]
        simpa [hb, ht] using h

theorem mapM_eq_some_iff {α β : Type} {f : α → Option β} {l : List α} {r : List β} :
    l.mapM f = some r ↔ l.length = r.length ∧ ∀ (i : Nat) a b, l[i]? = some a → r[i]? = some b → f a = some b := by
  induction l generalizing r with
  | nil =>
    constructor
    · intro h
      have : r = [] := by simpa using h.symm
      subst this
      simp
    · rintro ⟨h, -⟩
      cases r with
      | nil => simp
      | cons _ _ => simp at h
  | cons a t ih =>
    rw [List.mapM_cons]
    constructor
    · intro h
      cases hb : f a with
      | none => simp [hb] at h
      | some b =>
        cases ht : t.mapM f with
        | none => simp [hb, ht] at h
        | some bs =>
          have : r = b :: bs := by simpa [hb, ht] using h.symm
          subst this
          obtain ⟨h1, h2⟩ := ih.1 ht
          refine ⟨by simp [h1], ?_⟩
          intro i x y hx hy
          cases i with
          | zero => simp at hx hy; subst hx; subst hy; exact hb
          | succ i => exact h2 i x y (by simpa using hx) (by simpa using hy)
    · rintro ⟨h1, h2⟩
      cases r with
      | nil => simp at h1
      | cons b bs =>
        have hb : f a = some b := h2 0 a b rfl rfl
        have ht : t.mapM f = some bs := ih.2 ⟨by simpa using h1, fun i x y hx hy =>
          h2 (i + 1) x y (by simpa using hx) (by simpa using hy)⟩
        simp [hb, ht]

theorem mapM_none {α β : Type} {f : α → Option β} {l : List α} : l.mapM f = none ↔ ∃ a ∈ l, f a = none := by
  induction l with
  | nil => simp
  | cons a t ih =>
    rw [List.mapM_cons]
    cases hb : f a with
    | none => simp [hb]
    | some b =>
      cases ht : t.mapM f with
      | none => simp [hb, ih.1 ht]
      | some bs =>
        have : ¬ ∃ a ∈ t, f a = none := fun h => by simp [ih.2 h] at ht
        simp [hb]
        simpa using this

theorem showVal_succ {n : Nat} {ps : List Data} {v : Val} {o : Out} (h : showVal n ps v = some o) :
    showVal (n + 1) ps v = some o := by
  induction n generalizing v o with
  | zero => simp [showVal] at h
  | succ n ih =>
    cases v with
    | list id =>
      rw [showVal] at h ⊢
      cases hl : getList ps id with
      | none => simp [hl] at h
      | some vs =>
        simp only [hl, Option.bind_some, Option.map_eq_some_iff] at h ⊢
        obtain ⟨os, h1, h2⟩ := h
        exact ⟨os, mapM_some_of h1 (fun a _ b hb => ih hb), h2⟩
    | obj id =>
      rw [showVal] at h ⊢
      cases hl : getObj ps id with
      | none => simp [hl] at h
      | some vs =>
        simp only [hl, Option.bind_some, Option.map_eq_some_iff] at h ⊢
        obtain ⟨os, h1, h2⟩ := h
        refine ⟨os, mapM_some_of h1 ?_, h2⟩
        intro a _ b hb
        simp only [Option.map_eq_some_iff] at hb ⊢
        obtain ⟨x, hx, hb⟩ := hb
        exact ⟨x, ih hx, hb⟩
    | _ => simpa [showVal] using h

theorem showVal_mono {n m : Nat} {ps : List Data} {v : Val} {o : Out} (h : showVal n ps v = some o) (hm : n ≤ m) :
    showVal m ps v = some o := by
  induction hm with
  | refl => exact h
  | step _ ih => exact showVal_succ ih

/-- The value is serialised to `o`. -/
def Shows (ps : List Data) (v : Val) (o : Out) : Prop := ∃ n, showVal n ps v = some o

theorem shows_null {ps : List Data} : Shows ps .null .null := ⟨1, rfl⟩
theorem shows_unexpected {ps : List Data} : Shows ps .unexpected .null := ⟨1, rfl⟩
theorem shows_inacc {ps : List Data} {i : Id} : Shows ps (.inacc i) .null := ⟨1, rfl⟩
theorem shows_leaf {ps : List Data} {l : Leaf} : Shows ps (.leaf l) (.leaf l) := ⟨1, rfl⟩

theorem Shows.det {ps : List Data} {v : Val} {o o' : Out} (h : Shows ps v o) (h' : Shows ps v o') : o = o' := by
  obtain ⟨n, hn⟩ := h
  obtain ⟨m, hm⟩ := h'
  have h1 := showVal_mono hn (Nat.le_max_left n m)
  have h2 := showVal_mono hm (Nat.le_max_right n m)
  rw [h1] at h2
  exact Option.some.inj h2

theorem exists_fuel {ps : List Data} (vs : List Val) (h : ∀ v ∈ vs, ∃ o, Shows ps v o) :
    ∃ n, ∀ v ∈ vs, ∀ o, Shows ps v o → showVal n ps v = some o := by
  induction vs with
  | nil => exact ⟨0, by simp⟩
  | cons v t ih =>
    obtain ⟨n, hn⟩ := ih fun x hx => h x (List.mem_cons_of_mem _ hx)
    obtain ⟨o, m, hm⟩ := h v List.mem_cons_self
    refine ⟨max n m, ?_⟩
    intro x hx o' ho'
    rcases List.mem_cons.1 hx with rfl | hx
    · have : o' = o := ho'.det ⟨m, hm⟩
      subst this
      exact showVal_mono hm (Nat.le_max_right _ _)
    · exact showVal_mono (hn x hx o' ho') (Nat.le_max_left _ _)

theorem shows_list {ps : List Data} {id : Id} {vs : List Val} {os : List Out} (hg : getList ps id = some vs)
    (hl : vs.length = os.length)
    (h : ∀ (i : Nat) v o, vs[i]? = some v → os[i]? = some o → Shows ps v o) : Shows ps (.list id) (.list os) := by
  have hex : ∀ v ∈ vs, ∃ o, Shows ps v o := by
    intro v hv
    obtain ⟨i, hi⟩ := List.mem_iff_getElem?.1 hv
    have hlt : i < os.length := by
      rw [← hl]
      exact (List.getElem?_eq_some_iff.1 hi).1
    exact ⟨os[i], h i v _ hi (List.getElem?_eq_getElem hlt)⟩
  obtain ⟨n, hn⟩ := exists_fuel vs hex
  refine ⟨n + 1, ?_⟩
  rw [showVal]
  simp only [hg, Option.bind_some, Option.map_eq_some_iff]
  refine ⟨os, mapM_eq_some_iff.2 ⟨hl, ?_⟩, rfl⟩
  intro i v o hv ho
  exact hn v (List.mem_iff_getElem?.2 ⟨i, hv⟩) o (h i v o hv ho)

theorem shows_obj {ps : List Data} {id : Id} {G : List Fld} {os : List (Nat × Out)} (hg : getObj ps id = some G)
    (hl : (G.dropWhile fun f => !visible f.key).length = os.length)
    (h : ∀ (i : Nat) f o, (G.dropWhile fun f => !visible f.key)[i]? = some f → os[i]? = some o →
      f.key.key = o.1 ∧ Shows ps f.value o.2) : Shows ps (.obj id) (.obj os) := by
  have hex : ∀ v ∈ (G.dropWhile fun f => !visible f.key).map (·.value), ∃ o, Shows ps v o := by
    intro v hv
    obtain ⟨f, hf, rfl⟩ := List.mem_map.1 hv
    obtain ⟨i, hi⟩ := List.mem_iff_getElem?.1 hf
    have hlt : i < os.length := by
      rw [← hl]
      exact (List.getElem?_eq_some_iff.1 hi).1
    exact ⟨_, (h i f _ hi (List.getElem?_eq_getElem hlt)).2⟩
  obtain ⟨n, hn⟩ := exists_fuel _ hex
  refine ⟨n + 1, ?_⟩
  rw [showVal]
  simp only [hg, Option.bind_some, Option.map_eq_some_iff]
  refine ⟨os, mapM_eq_some_iff.2 ⟨hl, ?_⟩, rfl⟩
  intro i f o hf ho
  obtain ⟨h1, h2⟩ := h i f o hf ho
  refine Option.map_eq_some_iff.2 ⟨o.2, hn f.value (List.mem_map.2 ⟨f, List.mem_iff_getElem?.2 ⟨i, hf⟩, rfl⟩) _ h2, ?_⟩
  rw [h1]

/-! ## Order of the fields -/

theorem fldLe_iff {a b : Fld} : fldLe a b = true ↔ ¬ b.key.Before a.key := by
  unfold fldLe
  cases h : a.key.cmp b.key with
  | lt =>
    have := DefaultMerge.Key.cmp_lt.1 h
    simp [Ordering.isLE, this.asymm]
  | eq =>
    have := DefaultMerge.Key.cmp_eq.1 h
    rw [this]
    simp [Ordering.isLE, DefaultMerge.Key.Before.irrefl]
  | gt =>
    have := DefaultMerge.Key.cmp_gt.1 h
    simp [Ordering.isLE, this]

theorem keyLe_iff {a b : Key × Out} : keyLe a b = true ↔ ¬ b.1.Before a.1 := by
  unfold keyLe DefaultMerge.Key.Before
  simp
  omega

theorem sort_fld_sorted (F : List Fld) : (sortBy fldLe F).Pairwise fun a b => ¬ b.key.Before a.key := by
  have := sortBy_sorted (le := fldLe) ?_ ?_ F
  · exact this.imp fun h => fldLe_iff.1 h
  · intro a b c hab hbc
    rw [fldLe_iff] at *
    unfold DefaultMerge.Key.Before at *
    omega
  · intro a b
    rw [Bool.or_eq_true, fldLe_iff, fldLe_iff]
    unfold DefaultMerge.Key.Before
    omega

theorem sort_key_sorted (F : List (Key × Out)) : (sortBy keyLe F).Pairwise fun a b => ¬ b.1.Before a.1 := by
  have := sortBy_sorted (le := keyLe) ?_ ?_ F
  · exact this.imp fun h => keyLe_iff.1 h
  · intro a b c hab hbc
    rw [keyLe_iff] at *
    unfold DefaultMerge.Key.Before at *
    omega
  · intro a b
    rw [Bool.or_eq_true, keyLe_iff, keyLe_iff]
    unfold DefaultMerge.Key.Before
    omega

/-- Two sorted lists of distinct keys with the same keys are equal. -/
theorem eq_of_sorted_keys {l l' : List Key} (h : l.Pairwise fun a b => ¬ b.Before a)
    (h' : l'.Pairwise fun a b => ¬ b.Before a) (hp : l.Perm l') : l = l' := by
  refine List.Perm.eq_of_pairwise (le := fun a b => ¬ b.Before a) ?_ h h' hp
  intro a b _ _ h1 h2
  rcases DefaultMerge.Key.trichotomy a b with h | h | h
  · exact absurd h h2
  · exact h
  · exact absurd h h1

theorem dropWhile_eq_filter {G : List Fld} (h : G.Pairwise fun a b => ¬ b.key.Before a.key) :
    (G.dropWhile fun f => !visible f.key) = G.filter fun f => visible f.key := by
  induction G with
  | nil => rfl
  | cons f t ih =>
    obtain ⟨h1, h2⟩ := List.pairwise_cons.1 h
    by_cases hf : visible f.key = true
    · simp only [List.dropWhile, hf, Bool.not_true, List.filter]
      congr 1
      refine (List.filter_eq_self.2 ?_).symm
      intro g hg
      have := h1 g hg
      unfold visible at *
      unfold DefaultMerge.Key.Before at this
      simp only [bne_iff_ne, ne_eq] at *
      omega
    · simp only [List.dropWhile, List.filter]
      simp only [Bool.not_eq_true] at hf
      rw [hf]
      exact ih h2

/-- The value paired with a key. -/
theorem val_of_key {α : Type} {l : List (Key × α)} (h : (l.map (·.1)).Nodup) {k : Key} {a b : α} (ha : (k, a) ∈ l)
    (hb : (k, b) ∈ l) : a = b := by
  induction l with
  | nil => cases ha
  | cons x t ih =>
    obtain ⟨h1, h2⟩ := List.nodup_cons.1 (show (x.1 :: t.map (·.1)).Nodup from h)
    have key : ∀ c, (k, c) ∈ t → x.1 ≠ k := by
      intro c hc heq
      exact h1 (List.mem_map.2 ⟨_, hc, heq.symm⟩)
    rcases List.mem_cons.1 ha with h3 | h3 <;> rcases List.mem_cons.1 hb with h4 | h4
    · exact (Prod.mk.inj (h3.trans h4.symm)).2
    · exact absurd (by rw [← h3]) (key _ h4)
    · exact absurd (by rw [← h4]) (key _ h3)
    · exact ih h2 h3 h4

/-- Fields stored in order, each shown as the requested value of its key, are the object in order. -/
theorem shows_fields {ps : List Data} {id : Id} {G F : List Fld} {os : List (Key × Out)}
    (hg : getObj ps id = some G) (hG : G.map (·.key) = (sortBy fldLe F).map (·.key))
    (hF : (F.map (·.key)).Nodup) (hos : (os.map (·.1)).Nodup)
    (hk : ∀ k, k ∈ os.map (·.1) ↔ k ∈ F.map (·.key) ∧ visible k = true)
    (hv : ∀ f ∈ G, visible f.key = true → ∀ o, (f.key, o) ∈ os → Shows ps f.value o) :
    Shows ps (.obj id) (.obj (inOrder os)) := by
  have hsF := sort_fld_sorted F
  have hsG : G.Pairwise fun a b => ¬ b.key.Before a.key := by
    have h1 : (G.map (·.key)).Pairwise fun a b => ¬ b.Before a := by
      rw [hG]
      exact List.pairwise_map.2 hsF
    exact List.pairwise_map.1 h1
  have hdrop := dropWhile_eq_filter hsG
  have hGp : (G.map (·.key)).Perm (F.map (·.key)) := by
    rw [hG]
    exact (sortBy_perm fldLe F).map _
  have hGn : (G.map (·.key)).Nodup := hGp.nodup_iff.2 hF
  have hkeys : (G.filter fun f => visible f.key).map (·.key) = (sortBy keyLe os).map (·.1) := by
    apply eq_of_sorted_keys
    · exact List.pairwise_map.2 (hsG.sublist List.filter_sublist)
    · exact List.pairwise_map.2 (sort_key_sorted os)
    · apply (List.perm_ext_iff_of_nodup ?_ ?_).2
      · intro k
        rw [((sortBy_perm keyLe os).map _).mem_iff, hk]
        constructor
        · intro h
          obtain ⟨f, hf, rfl⟩ := List.mem_map.1 h
          obtain ⟨h1, h2⟩ := List.mem_filter.1 hf
          exact ⟨hGp.mem_iff.1 (List.mem_map.2 ⟨f, h1, rfl⟩), h2⟩
        · rintro ⟨h1, h2⟩
          obtain ⟨f, hf, rfl⟩ := List.mem_map.1 (hGp.mem_iff.2 h1)
          exact List.mem_map.2 ⟨f, List.mem_filter.2 ⟨hf, h2⟩, rfl⟩
      · exact hGn.sublist (List.Sublist.map _ List.filter_sublist)
      · exact ((sortBy_perm keyLe os).map _).nodup_iff.2 hos
  apply shows_obj hg
  · rw [hdrop]
    have := congrArg List.length hkeys
    unfold inOrder
    simpa using this
  · intro i f o hf ho
    rw [hdrop] at hf
    unfold inOrder at ho
    rw [List.getElem?_map, Option.map_eq_some_iff] at ho
    obtain ⟨p, hp, rfl⟩ := ho
    have hkf : f.key = p.1 := by
      have h1 : ((G.filter fun f => visible f.key).map (·.key))[i]? = some f.key := by
        rw [List.getElem?_map, hf]
        rfl
      have h2 : ((sortBy keyLe os).map (·.1))[i]? = some p.1 := by
        rw [List.getElem?_map, hp]
        rfl
      rw [hkeys, h2] at h1
      exact (Option.some.inj h1).symm
    have hpm : p ∈ os := (sortBy_perm keyLe os).mem_iff.1 (List.mem_iff_getElem?.2 ⟨i, hp⟩)
    have hfm := List.mem_filter.1 (List.mem_iff_getElem?.2 ⟨i, hf⟩)
    refine ⟨by rw [hkf], hv f hfm.1 hfm.2 p.2 ?_⟩
    rw [hkf]
    exact hpm

end Verif.NullProp
