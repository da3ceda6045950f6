import Verif.Collect.Lemmas
namespace Verif.Collect

variable {poss : Nat → List Nat} {env : Nat → Bool}

theorem eraseDups_filter (p : Nat → Bool) (l : List Nat) :
    (l.filter p).eraseDups = l.eraseDups.filter p := by
  obtain ⟨n, hn⟩ : ∃ n, n = l.length := ⟨_, rfl⟩
  induction n using Nat.strongRecOn generalizing l with
  | ind n ih =>
    cases l with
    | nil => rfl
    | cons a l =>
      have hl : (l.filter fun b => !b == a).length < n := by
        subst hn; exact Nat.lt_succ_of_le (List.length_filter_le ..)
      rw [List.eraseDups_cons, List.filter_cons, List.filter_cons, ← ih _ hl _ rfl]
      have hcomm : ((l.filter p).filter fun b => !b == a) = (l.filter fun b => !b == a).filter p := by
        simp only [List.filter_filter]
        exact List.filter_congr fun x _ => Bool.and_comm ..
      split
      · rw [List.eraseDups_cons, hcomm]
      · rename_i h
        have hself : ((l.filter p).filter fun b => !b == a) = l.filter p := ?_
        · rw [← hcomm, hself]
        refine List.filter_eq_self.2 fun x hx => ?_
        have := (List.mem_filter.1 hx).2
        simp only [Bool.not_eq_true', beq_eq_false_iff_ne, ne_eq]
        intro e; subst e; exact h this

section FirstOfKey
variable {α : Type} {key : α → Nat}

theorem mem_of_mem_firstOfKey {l : List α} {x : α} (h : x ∈ firstOfKey key l) : x ∈ l := by
  induction l with
  | nil => simp [firstOfKey] at h
  | cons a l ih =>
    rcases List.mem_cons.1 h with h | h
    · simp [h]
    · exact List.mem_cons_of_mem _ (ih (List.mem_filter.1 h).1)

theorem firstOfKey_sublist (l : List α) : (firstOfKey key l).Sublist l := by
  induction l with
  | nil => simp [firstOfKey]
  | cons a l ih => exact (List.filter_sublist.trans ih).cons₂ a

theorem find_cons_ne {l : List α} {a : α} {k : Nat} (h : key a ≠ k) :
    (a :: l).find? (fun x => key x == k) = l.find? (fun x => key x == k) := by
  simp [List.find?_cons, h]

theorem mem_firstOfKey {l : List α} {x : α} :
    x ∈ firstOfKey key l ↔ l.find? (fun y => key y == key x) = some x := by
  induction l with
  | nil => simp [firstOfKey]
  | cons a l ih =>
    simp only [firstOfKey, List.mem_cons, List.mem_filter, ih, decide_eq_true_eq]
    by_cases h : key a = key x
    · simp only [List.find?_cons, h, beq_self_eq_true, Option.some.injEq, eq_comm (a := a),
        not_true_eq_false, ne_eq, and_false, or_false]
    · rw [find_cons_ne h]
      constructor
      · rintro (rfl | h')
        · exact absurd rfl h
        · exact h'.1
      · intro h'
        exact Or.inr ⟨h', Ne.symm h⟩

theorem firstOfKey_keys (l : List α) : (firstOfKey key l).map key = (l.map key).eraseDups := by
  induction l with
  | nil => rfl
  | cons a l ih =>
    simp only [firstOfKey, List.map_cons, List.eraseDups_cons]
    congr 1
    have : ((firstOfKey key l).filter fun t => decide (key t ≠ key a)).map key =
        ((firstOfKey key l).map key).filter fun k => !k == key a := by
      rw [List.filter_map]
      congr 1
      apply List.filter_congr
      intro x _
      simp only [Function.comp, decide_not]
      congr 1
    rw [this, ih]
    generalize l.map key = m
    rw [eraseDups_filter]

theorem firstOfKey_filter_keys (p : α → Bool) (l : List α) :
    ((firstOfKey key l).filter p).map key =
      (l.map key).eraseDups.filter fun k => (l.find? fun x => key x == k).any p := by
  rw [← firstOfKey_keys, List.filter_map]
  congr 1
  apply List.filter_congr
  intro x hx
  simp [mem_firstOfKey.1 hx]

end FirstOfKey

/-! ## Shapes -/

theorem groupFirsts_subset {cur : Option Nat} {l : List Node} {x : Node}
    (h : x ∈ groupFirsts cur l) : x ∈ l := by
  induction l generalizing cur with
  | nil => simp [groupFirsts] at h
  | cons a l ih =>
    simp only [groupFirsts] at h
    split at h
    · exact List.mem_cons_of_mem _ (ih h)
    · rcases List.mem_cons.1 h with h | h
      · simp [h]
      · exact List.mem_cons_of_mem _ (ih h)

theorem groupFirsts_sublist (cur : Option Nat) (l : List Node) : (groupFirsts cur l).Sublist l := by
  induction l generalizing cur with
  | nil => simp [groupFirsts]
  | cons a l ih =>
    simp only [groupFirsts]
    split
    · exact (ih _).cons _
    · exact (ih _).cons₂ _

theorem mem_groupFirsts {rank : Nat → Nat} (hr : ∀ a b, rank a = rank b → a = b) (l : List Node)
    (hs : l.Pairwise fun a b => rank a.key < rank b.key ∨ (rank a.key = rank b.key ∧ a.pos ≤ b.pos))
    (hp : l.Pairwise fun a b => a.pos ≠ b.pos) (cur : Option Nat)
    (hc : ∀ c, cur = some c → ∀ m ∈ l, rank c ≤ rank m.key) (x : Node) :
    x ∈ groupFirsts cur l ↔
      x ∈ l ∧ cur ≠ some x.key ∧ ∀ m ∈ l, m.key = x.key → x.pos ≤ m.pos := by
  induction l generalizing cur with
  | nil => simp [groupFirsts]
  | cons a l ih =>
    obtain ⟨hs1, hs2⟩ := List.pairwise_cons.1 hs
    obtain ⟨hp1, hp2⟩ := List.pairwise_cons.1 hp
    simp only [groupFirsts]
    split
    · rename_i hcur
      rw [ih hs2 hp2 cur (fun c h m hm => hc c h m (List.mem_cons_of_mem _ hm))]
      constructor
      · rintro ⟨h1, h2, h3⟩
        refine ⟨List.mem_cons_of_mem _ h1, h2, fun m hm hk => ?_⟩
        rcases List.mem_cons.1 hm with rfl | hm
        · exact absurd (hcur.trans (by rw [hk])) h2
        · exact h3 m hm hk
      · rintro ⟨h1, h2, h3⟩
        rcases List.mem_cons.1 h1 with rfl | h1
        · exact absurd hcur h2
        · exact ⟨h1, h2, fun m hm hk => h3 m (List.mem_cons_of_mem _ hm) hk⟩
    · rename_i hcur
      rw [List.mem_cons, ih hs2 hp2 (some a.key) (by
        intro c h m hm
        cases h
        rcases hs1 m hm with h | h <;> omega)]
      constructor
      · rintro (rfl | ⟨h1, h2, h3⟩)
        · refine ⟨List.mem_cons_self .., hcur, fun m hm hk => ?_⟩
          rcases List.mem_cons.1 hm with rfl | hm
          · exact Nat.le_refl _
          · rcases hs1 m hm with h | h
            · rw [hk] at h; omega
            · exact h.2
        · have hne : a.key ≠ x.key := fun h => h2 (by rw [h])
          refine ⟨List.mem_cons_of_mem _ h1, ?_, fun m hm hk => ?_⟩
          · intro h
            have h4 := hc _ h a (List.mem_cons_self ..)
            rcases hs1 x h1 with h | h
            · omega
            · exact hne (hr _ _ h.1)
          · rcases List.mem_cons.1 hm with rfl | hm
            · exact absurd hk hne
            · exact h3 m hm hk
      · rintro ⟨h1, h2, h3⟩
        rcases List.mem_cons.1 h1 with rfl | h1
        · exact Or.inl rfl
        · refine Or.inr ⟨h1, ?_, fun m hm hk => h3 m (List.mem_cons_of_mem _ hm) hk⟩
          intro h
          have hk : a.key = x.key := by simpa using h
          have h4 := h3 a (List.mem_cons_self ..) hk
          rcases hs1 x h1 with h | h
          · rw [hk] at h; omega
          · have := hp1 x h1; omega

theorem mem_firstOfKey_sorted {l : List Node} (hp : l.Pairwise fun a b => a.pos < b.pos) {x : Node} :
    x ∈ firstOfKey Node.key l ↔ x ∈ l ∧ ∀ m ∈ l, m.key = x.key → x.pos ≤ m.pos := by
  induction l with
  | nil => simp [firstOfKey]
  | cons a l ih =>
    obtain ⟨h1, h2⟩ := List.pairwise_cons.1 hp
    simp only [firstOfKey, List.mem_cons, List.mem_filter, ih h2, decide_eq_true_eq]
    constructor
    · rintro (rfl | ⟨⟨h3, h4⟩, h5⟩)
      · refine ⟨Or.inl rfl, ?_⟩
        rintro m (rfl | hm) _
        · exact Nat.le_refl _
        · exact Nat.le_of_lt (h1 m hm)
      · refine ⟨Or.inr h3, ?_⟩
        rintro m (rfl | hm) hk
        · exact absurd hk.symm h5
        · exact h4 m hm hk
    · rintro ⟨rfl | h3, h4⟩
      · exact Or.inl rfl
      · refine Or.inr ⟨⟨h3, fun m hm => h4 m (Or.inr hm)⟩, ?_⟩
        intro hk
        have := h4 a (Or.inl rfl) hk.symm
        have := h1 x h3
        omega

theorem nodup_of_pos {l : List Node} (hp : l.Pairwise fun a b => a.pos ≠ b.pos) : l.Nodup :=
  hp.imp fun h e => h (by rw [e])

/-- A shape has the first field of each response key. -/
theorem shape_perm {rank : Nat → Nat} (hr : ∀ a b, rank a = rank b → a = b) {l sorted : List Node}
    (hp : l.Pairwise fun a b => a.pos < b.pos) (hs : SortedByKey rank sorted l) :
    (groupFirsts none sorted).Perm (firstOfKey Node.key l) := by
  have hpl : l.Pairwise fun a b => a.pos ≠ b.pos := hp.imp fun h => Nat.ne_of_lt h
  have hps : sorted.Pairwise fun a b => a.pos ≠ b.pos :=
    (hs.perm.pairwise_iff (fun h => Ne.symm h)).2 hpl
  refine (List.perm_ext_iff_of_nodup ((nodup_of_pos hps).sublist (groupFirsts_sublist _ _))
    ((nodup_of_pos hpl).sublist (firstOfKey_sublist _))).2 fun x => ?_
  rw [mem_groupFirsts hr sorted hs.sorted hps none (by simp), mem_firstOfKey_sorted hp]
  simp only [ne_eq, reduceCtorEq, not_false_eq_true, true_and]
  constructor
  · rintro ⟨h1, h2⟩
    exact ⟨hs.perm.mem_iff.1 h1, fun m hm => h2 m (hs.perm.mem_iff.2 hm)⟩
  · rintro ⟨h1, h2⟩
    exact ⟨hs.perm.mem_iff.2 h1, fun m hm => h2 m (hs.perm.mem_iff.1 hm)⟩

theorem dropWhile_sorted (f : Node → Nat) (l : List Node) (h : l.Pairwise fun a b => f a ≤ f b) :
    l.dropWhile (fun n => f n == 0) = l.filter fun n => f n != 0 := by
  induction l with
  | nil => rfl
  | cons a l ih =>
    obtain ⟨h1, h2⟩ := List.pairwise_cons.1 h
    rw [List.dropWhile_cons, List.filter_cons]
    by_cases h0 : f a = 0
    · simp [h0, ih h2]
    · have : l.filter (fun n => f n != 0) = l := List.filter_eq_self.2 fun x hx => by
        have := h1 x hx
        simp; omega
      simp [h0, this]

theorem eq_of_pos {l : List Node} (hp : l.Pairwise fun a b => a.pos < b.pos) {a b : Node}
    (ha : a ∈ l) (hb : b ∈ l) (h : a.pos = b.pos) : a = b := by
  induction l with
  | nil => simp at ha
  | cons c l ih =>
    obtain ⟨h1, h2⟩ := List.pairwise_cons.1 hp
    rcases List.mem_cons.1 ha with ha | ha <;> rcases List.mem_cons.1 hb with hb | hb
    · rw [ha, hb]
    · have := h1 b hb; subst ha; omega
    · have := h1 a ha; subst hb; omega
    · exact ih h2 ha hb

/-- The written keys are those of the included first fields, by position. -/
theorem written_eq {rank : Nat → Nat} (hr : ∀ a b, rank a = rank b → a = b) {l sorted : List Node}
    (hp : l.Pairwise fun a b => a.pos < b.pos) (h0 : ∀ n ∈ l, 0 < n.pos)
    (hs : SortedByKey rank sorted l) {keys : List Nat}
    (hw : Written env (groupFirsts none sorted) keys) :
    keys = ((firstOfKey Node.key l).filter (included env)).map Node.key := by
  obtain ⟨fields, hf, hsort, rfl⟩ := hw
  rw [dropWhile_sorted _ _ hsort]
  congr 1
  have hperm := hf.trans (shape_perm hr hp hs)
  have hin : ∀ n ∈ fields, n ∈ l := fun n hn => mem_of_mem_firstOfKey (hperm.mem_iff.1 hn)
  have heq : (fields.filter fun n => shownPos env n != 0) = fields.filter (included env) := by
    apply List.filter_congr
    intro x hx
    have := h0 x (hin x hx)
    simp only [shownPos]
    cases included env x
    · simp
    · simp; omega
  rw [heq]
  refine List.Perm.eq_of_pairwise (le := fun a b => a.pos ≤ b.pos) ?_ ?_ ?_ (hperm.filter _)
  · intro a b ha hb h1 h2
    exact eq_of_pos hp (hin a (List.mem_filter.1 ha).1)
      (mem_of_mem_firstOfKey (List.mem_filter.1 hb).1) (Nat.le_antisymm h1 h2)
  · rw [List.pairwise_filter]
    refine hsort.imp fun h ha hb => ?_
    simpa [shownPos, ha, hb] using h
  · exact ((hp.imp fun h => Nat.le_of_lt h).sublist (firstOfKey_sublist _)).filter _

end Verif.Collect
