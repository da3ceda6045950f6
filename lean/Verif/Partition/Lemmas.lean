import Verif.Partition.Model
/-! Lemmas on the merge loops of the partitioning. -/
namespace Verif.Partition

/-- Strictly increasing. -/
abbrev Inc (l : List Nat) : Prop := l.Pairwise (· < ·)

theorem Inc.nodup {l : List Nat} (h : Inc l) : l.Nodup := h.imp fun h => Nat.ne_of_lt h

theorem inc_cons {a : Nat} {l : List Nat} : Inc (a :: l) ↔ (∀ b ∈ l, a < b) ∧ Inc l := List.pairwise_cons

theorem Inc.drop {l : List Nat} (h : Inc l) (n : Nat) : Inc (l.drop n) := h.sublist (List.drop_sublist n l)

theorem interLoop_filter {l r : List Nat} (hl : Inc l) (hr : Inc r) :
    interLoop l r = l.filter fun x => decide (x ∈ r) := by
  fun_induction interLoop l r with
  | case1 => rfl
  | case2 a l => simp
  | case3 a l b r h ih =>
    rw [ih (inc_cons.1 hl).2 hr, List.filter_cons_of_neg]
    simp only [decide_eq_true_eq, List.mem_cons, not_or]
    refine ⟨by omega, fun h' => ?_⟩
    have := (inc_cons.1 hr).1 a h'; omega
  | case4 a l b r h h' ih =>
    rw [ih hl (inc_cons.1 hr).2]
    apply List.filter_congr
    intro x hx
    have : b < x := by
      rcases List.mem_cons.1 hx with rfl | hx
      · exact h'
      · have := (inc_cons.1 hl).1 x hx; omega
    simp [show x ≠ b by omega]
  | case5 a l b r h h' ih =>
    have : a = b := by omega
    subst this
    rw [ih (inc_cons.1 hl).2 (inc_cons.1 hr).2, List.filter_cons_of_pos (by simp)]
    congr 1
    apply List.filter_congr
    intro x hx
    have := (inc_cons.1 hl).1 x hx
    simp [show x ≠ a by omega]

theorem mem_interLoop {l r : List Nat} (hl : Inc l) (hr : Inc r) {x : Nat} :
    x ∈ interLoop l r ↔ x ∈ l ∧ x ∈ r := by
  rw [interLoop_filter hl hr]; simp

theorem inc_interLoop {l r : List Nat} (hl : Inc l) (hr : Inc r) : Inc (interLoop l r) := by
  rw [interLoop_filter hl hr]; exact hl.sublist List.filter_sublist

theorem supLoop_iff {o c : List Nat} (ho : Inc o) (hc : Inc c) :
    supLoop o c = true ↔ ∀ x ∈ o, x ∈ c := by
  fun_induction supLoop o c with
  | case1 => simp
  | case2 a l => simp only [Bool.false_eq_true, false_iff]; intro h; simpa using h a (by simp)
  | case3 a l b r h =>
    simp only [Bool.false_eq_true, false_iff]
    intro hh
    rcases List.mem_cons.1 (hh a (by simp)) with h1 | h1
    · omega
    · have := (inc_cons.1 hc).1 a h1; omega
  | case4 a l b r h h' ih =>
    rw [ih ho (inc_cons.1 hc).2]
    have key : ∀ x ∈ a :: l, x ≠ b := by
      intro x hx
      rcases List.mem_cons.1 hx with rfl | hx
      · omega
      · have := (inc_cons.1 ho).1 x hx; omega
    constructor
    · intro h1 x hx; exact List.mem_cons_of_mem _ (h1 x hx)
    · intro h1 x hx
      rcases List.mem_cons.1 (h1 x hx) with h2 | h2
      · exact absurd h2 (key x hx)
      · exact h2
  | case5 a l b r h h' ih =>
    have : a = b := by omega
    subst this
    rw [ih (inc_cons.1 ho).2 (inc_cons.1 hc).2]
    constructor
    · intro h1 x hx
      rcases List.mem_cons.1 hx with rfl | hx
      · simp
      · exact List.mem_cons_of_mem _ (h1 x hx)
    · intro h1 x hx
      have := (inc_cons.1 ho).1 x hx
      rcases List.mem_cons.1 (h1 x (by simp [hx])) with h2 | h2
      · omega
      · exact h2

theorem supLoop_length {o c : List Nat} (h : supLoop o c = true) : o.length ≤ c.length := by
  fun_induction supLoop o c with
  | case1 => simp
  | case2 a l => simp at h
  | case3 a l b r h1 => simp at h
  | case4 a l b r h1 h' ih => have := ih h; simp at *; omega
  | case5 a l b r h1 h' ih => have := ih h; simp at *; omega

theorem isSuperset_iff {o c : List Nat} (ho : Inc o) (hc : Inc c) :
    isSuperset c o = true ↔ ∀ x ∈ o, x ∈ c := by
  rw [← supLoop_iff ho hc]
  unfold isSuperset
  split
  · rename_i h
    simp only [Bool.false_eq_true, false_iff]
    intro h'
    have := supLoop_length h'
    omega
  · rfl

/-! ## The in-place intersection -/

theorem keepLoop_spec {tys : List Nat} (k : Nat) (v : List Nat) (n l r : Nat) (hn : n ≤ l)
    (hk : (v.length - l) + (tys.length - r) ≤ k) :
    ∃ v' n', keepLoop tys k v n l r = some (v', n') ∧
      v'.take n' = v.take n ++ interLoop (v.drop l) (tys.drop r) := by
  induction k generalizing v n l r with
  | zero =>
    refine ⟨v, n, rfl, ?_⟩
    rw [List.drop_eq_nil_of_le (by omega : v.length ≤ l)]
    simp [interLoop]
  | succ k ih =>
    unfold keepLoop
    cases hl : v[l]? with
    | none =>
      refine ⟨v, n, by simp, ?_⟩
      rw [List.drop_eq_nil_of_le (List.getElem?_eq_none_iff.1 hl)]
      simp [interLoop]
    | some a =>
      obtain ⟨hl', ha⟩ := List.getElem?_eq_some_iff.1 hl
      have hA : v.drop l = a :: v.drop (l + 1) := by rw [List.drop_eq_getElem_cons hl', ha]
      cases hr : tys[r]? with
      | none =>
        refine ⟨v, n, by simp, ?_⟩
        rw [List.drop_eq_nil_of_le (List.getElem?_eq_none_iff.1 hr), hA]
        simp [interLoop]
      | some b =>
        obtain ⟨hr', hb⟩ := List.getElem?_eq_some_iff.1 hr
        have hB : tys.drop r = b :: tys.drop (r + 1) := by rw [List.drop_eq_getElem_cons hr', hb]
        simp only
        split
        · rename_i h
          obtain ⟨v', n', h1, h2⟩ := ih v n (l + 1) r (by omega) (by omega)
          refine ⟨v', n', h1, ?_⟩
          rw [h2, hA, hB]
          rw [interLoop, if_pos h]
        · split
          · rename_i h h'
            obtain ⟨v', n', h1, h2⟩ := ih v n l (r + 1) hn (by omega)
            refine ⟨v', n', h1, ?_⟩
            rw [h2, hA, hB]
            rw [interLoop, if_neg h, if_pos h']
          · rename_i h h'
            have hn' : n < v.length := by omega
            have hsw : swap v l n = some ((v.set l v[n]).set n a) := by
              simp [swap, hl, List.getElem?_eq_getElem hn']
            obtain ⟨v', n', h1, h2⟩ := ih ((v.set l v[n]).set n a) (n + 1) (l + 1) (r + 1) (by omega)
              (by simp; omega)
            refine ⟨v', n', by rw [hsw]; exact h1, ?_⟩
            rw [h2, hA, hB]
            rw [interLoop, if_neg h, if_neg h']
            rw [List.drop_set_of_lt (by omega), List.drop_set_of_lt (by omega)]
            rw [List.take_add_one, List.take_set_of_le (by omega), List.take_set_of_le (by omega)]
            simp [hn']

theorem keep_eq {v tys : List Nat} : keep v tys = some (interLoop v tys) := by
  obtain ⟨v', n', h1, h2⟩ := keepLoop_spec (tys := tys) (v.length + tys.length) v 0 0 0 (by omega) (by omega)
  simp only [keep, h1, Option.map_some, h2]
  simp

theorem keepAll_spec {poss : Nat → List Nat} (hp : ∀ c, Inc (poss c)) (cs : List Nat) {v : List Nat}
    (hv : Inc v) : ∃ w, keepAll poss v cs = some w ∧ Inc w ∧ ∀ x, x ∈ w ↔ x ∈ v ∧ ∀ c ∈ cs, x ∈ poss c := by
  induction cs generalizing v with
  | nil => exact ⟨v, rfl, hv, by simp⟩
  | cons c t ih =>
    obtain ⟨w, h1, h2, h3⟩ := ih (inc_interLoop hv (hp c))
    refine ⟨w, by simp [keepAll, keep_eq, h1], h2, ?_⟩
    intro x
    rw [h3, mem_interLoop hv (hp c)]
    simp [and_assoc]

theorem possibleTypes_spec {poss : Nat → List Nat} (hp : ∀ c, Inc (poss c)) {output : List Nat}
    (ho : Inc output) (cs : List Nat) :
    ∃ w, possibleTypes poss output cs = some w ∧ Inc w ∧
      ∀ x, x ∈ w ↔ x ∈ output ∧ ∀ c ∈ cs, x ∈ poss c := by
  cases cs with
  | nil => exact ⟨output, rfl, ho, by simp⟩
  | cons c t =>
    obtain ⟨w, h1, h2, h3⟩ := keepAll_spec hp t (inc_interLoop ho (hp c))
    refine ⟨w, h1, h2, ?_⟩
    intro x
    rw [h3, mem_interLoop ho (hp c)]
    simp [and_assoc]

/-! ## `extract_intersection` -/

theorem moveLoop_spec (k : Nat) (v : List Nat) (i n : Nat) (h : n ≤ i) (hk : v.length - i ≤ k) :
    (moveLoop k v i n).1.take (moveLoop k v i n).2 = v.take n ++ v.drop i := by
  induction k generalizing v i n with
  | zero => simp [moveLoop, List.drop_eq_nil_of_le (by omega : v.length ≤ i)]
  | succ k ih =>
    unfold moveLoop
    cases hi : v[i]? with
    | none => simp [List.drop_eq_nil_of_le (List.getElem?_eq_none_iff.1 hi)]
    | some a =>
      obtain ⟨hi', ha⟩ := List.getElem?_eq_some_iff.1 hi
      simp only
      rw [ih _ _ _ (by omega) (by simp; omega)]
      rw [List.drop_set_of_lt (by omega), List.take_add_one, List.take_set_of_le (by omega),
        List.drop_eq_getElem_cons hi', ha]
      have : n < v.length := by omega
      simp [this]

theorem compact_eq {v : List Nat} {i n : Nat} (h : n ≤ i) : compact v i n = v.take n ++ v.drop i := by
  unfold compact
  split
  · exact moveLoop_spec _ _ _ _ h (by omega)
  · rename_i h'
    have : i = n := by simpa using h'
    subst this
    simp

theorem filter_true (l : List Nat) : l.filter (fun _ => true) = l := by
  rw [List.filter_eq_self]; simp

/-- The state of the loop describes the two differences. -/
theorem exLoop_spec (k : Nat) (s : Ex) (hl : s.leftLen ≤ s.l) (hr : s.rightLen ≤ s.r)
    (il : Inc (s.left.drop s.l)) (ir : Inc (s.right.drop s.r))
    (hk : (s.left.length - s.l) + (s.right.length - s.r) ≤ k) :
    let s' := exLoop k s
    s'.leftLen ≤ s'.l ∧ s'.rightLen ≤ s'.r ∧
    s'.inter = s.inter ++ interLoop (s.left.drop s.l) (s.right.drop s.r) ∧
    s'.left.take s'.leftLen ++ s'.left.drop s'.l =
      s.left.take s.leftLen ++ (s.left.drop s.l).filter (fun x => decide (x ∉ s.right.drop s.r)) ∧
    s'.right.take s'.rightLen ++ s'.right.drop s'.r =
      s.right.take s.rightLen ++ (s.right.drop s.r).filter (fun x => decide (x ∉ s.left.drop s.l)) := by
  induction k generalizing s with
  | zero =>
    have h1 : s.left.drop s.l = [] := List.drop_eq_nil_of_le (by omega)
    have h2 : s.right.drop s.r = [] := List.drop_eq_nil_of_le (by omega)
    simp [exLoop, h1, h2, interLoop, hl, hr]
  | succ k ih =>
    unfold exLoop
    cases ha : s.left[s.l]? with
    | none =>
      have h1 : s.left.drop s.l = [] := List.drop_eq_nil_of_le (List.getElem?_eq_none_iff.1 ha)
      simp [h1, interLoop, hl, hr, filter_true]
    | some a =>
      obtain ⟨hl', ha'⟩ := List.getElem?_eq_some_iff.1 ha
      have hA : s.left.drop s.l = a :: s.left.drop (s.l + 1) := by rw [List.drop_eq_getElem_cons hl', ha']
      cases hb : s.right[s.r]? with
      | none =>
        have h1 : s.right.drop s.r = [] := List.drop_eq_nil_of_le (List.getElem?_eq_none_iff.1 hb)
        simp only [h1]
        refine ⟨hl, hr, ?_, ?_, ?_⟩
        · rw [hA]; simp [interLoop]
        · simp [filter_true]
        · simp
      | some b =>
        obtain ⟨hr', hb'⟩ := List.getElem?_eq_some_iff.1 hb
        have hB : s.right.drop s.r = b :: s.right.drop (s.r + 1) := by rw [List.drop_eq_getElem_cons hr', hb']
        rw [hA] at il
        rw [hB] at ir
        have il' := inc_cons.1 il
        have ir' := inc_cons.1 ir
        simp only
        split
        · rename_i h
          obtain ⟨h1, h2, h3, h4, h5⟩ := ih { s with left := s.left.set s.leftLen a, leftLen := s.leftLen + 1, l := s.l + 1 }
            (by simp; omega) hr
            (by simp only; rw [List.drop_set_of_lt (by omega)]; exact il'.2) (by simp only; rw [hB]; exact ir)
            (by simp; omega)
          simp only at h1 h2 h3 h4 h5
          rw [List.drop_set_of_lt (by omega)] at h3 h4 h5
          refine ⟨h1, h2, ?_, ?_, ?_⟩
          · rw [h3, hA, hB, interLoop, if_pos h]
          · rw [h4, List.take_add_one, List.take_set_of_le (by omega), hA, hB]
            have : s.leftLen < s.left.length := by omega
            rw [List.filter_cons_of_pos]
            · simp [this]
            · simp only [List.mem_cons, not_or, decide_eq_true_eq]
              refine ⟨by omega, fun hh => ?_⟩
              have := ir'.1 a hh; omega
          · rw [h5, hA, hB]
            congr 1
            apply List.filter_congr
            intro x hx
            have : a < x := by
              rcases List.mem_cons.1 hx with rfl | hx
              · exact h
              · have := ir'.1 x hx; omega
            simp [show x ≠ a by omega]
        · split
          · rename_i h0 h
            obtain ⟨h1, h2, h3, h4, h5⟩ := ih { s with right := s.right.set s.rightLen b, rightLen := s.rightLen + 1, r := s.r + 1 }
              hl (by simp; omega) (by simp only; rw [hA]; exact il)
              (by simp only; rw [List.drop_set_of_lt (by omega)]; exact ir'.2)
              (by simp; omega)
            simp only at h1 h2 h3 h4 h5
            rw [List.drop_set_of_lt (by omega)] at h3 h4 h5
            refine ⟨h1, h2, ?_, ?_, ?_⟩
            · rw [h3, hA, hB, interLoop, if_neg h0, if_pos h]
            · rw [h4, hA, hB]
              congr 1
              apply List.filter_congr
              intro x hx
              have : b < x := by
                rcases List.mem_cons.1 hx with rfl | hx
                · exact h
                · have := il'.1 x hx; omega
              simp [show x ≠ b by omega]
            · rw [h5, List.take_add_one, List.take_set_of_le (by omega), hA, hB]
              have : s.rightLen < s.right.length := by omega
              rw [List.filter_cons_of_pos]
              · simp [this]
              · simp only [List.mem_cons, not_or, decide_eq_true_eq]
                refine ⟨by omega, fun hh => ?_⟩
                have := il'.1 b hh; omega
          · rename_i h0 h
            have hab : a = b := by omega
            obtain ⟨h1, h2, h3, h4, h5⟩ := ih { s with inter := s.inter ++ [a], l := s.l + 1, r := s.r + 1 }
              (by simp; omega) (by simp; omega) il'.2 ir'.2 (by simp; omega)
            simp only at h1 h2 h3 h4 h5
            refine ⟨h1, h2, ?_, ?_, ?_⟩
            · rw [h3, hA, hB, interLoop, if_neg h0, if_neg h]; simp
            · rw [h4, hA, hB, hab, List.filter_cons_of_neg (by simp)]
              congr 1
              apply List.filter_congr
              intro x hx
              have := il'.1 x hx
              simp [show x ≠ b by omega]
            · rw [h5, hA, hB, hab, List.filter_cons_of_neg (by simp)]
              congr 1
              apply List.filter_congr
              intro x hx
              have := ir'.1 x hx
              simp [show x ≠ b by omega]

theorem le_getLast {l : List Nat} (h : Inc l) {x m : Nat} (hm : l.getLast? = some m) (hx : x ∈ l) : x ≤ m := by
  induction l with
  | nil => cases hx
  | cons a t ih =>
    cases t with
    | nil => simp at hm hx; omega
    | cons b t =>
      rw [List.getLast?_cons_cons] at hm
      rcases List.mem_cons.1 hx with rfl | hx
      · have h1 := (inc_cons.1 h).1 m (List.mem_of_getLast? hm); omega
      · exact ih (inc_cons.1 h).2 hm hx

theorem head_le {l : List Nat} (h : Inc l) {x m : Nat} (hm : l.head? = some m) (hx : x ∈ l) : m ≤ x := by
  cases l with
  | nil => cases hx
  | cons a t =>
    simp only [List.head?_cons, Option.some.injEq] at hm
    subst hm
    rcases List.mem_cons.1 hx with rfl | hx
    · omega
    · have := (inc_cons.1 h).1 x hx; omega

theorem extract_spec {l r : List Nat} (hl : Inc l) (hr : Inc r) (nl : l ≠ []) (nr : r ≠ []) :
    extract l r = some (l.filter (fun x => decide (x ∉ r)), r.filter (fun x => decide (x ∉ l)),
      l.filter (fun x => decide (x ∈ r))) := by
  obtain ⟨a, ha⟩ : ∃ a, l.getLast? = some a := ⟨_, List.getLast?_eq_some_getLast nl⟩
  obtain ⟨b, hb⟩ : ∃ a, r.getLast? = some a := ⟨_, List.getLast?_eq_some_getLast nr⟩
  obtain ⟨c, hc⟩ : ∃ a, l.head? = some a := ⟨_, List.head?_eq_some_head nl⟩
  obtain ⟨d, hd⟩ : ∃ a, r.head? = some a := ⟨_, List.head?_eq_some_head nr⟩
  unfold extract
  simp only [ha, hb, hc, hd]
  split
  · rename_i h
    have hdis : ∀ x ∈ l, x ∉ r := by
      intro x h1 h2
      have := le_getLast hl ha h1
      have := le_getLast hr hb h2
      have := head_le hl hc h1
      have := head_le hr hd h2
      omega
    have hdis' : ∀ x ∈ r, x ∉ l := fun x h1 h2 => hdis x h2 h1
    have e1 : l.filter (fun x => decide (x ∉ r)) = l := by
      rw [List.filter_eq_self]; intro x hx; simpa using hdis x hx
    have e2 : r.filter (fun x => decide (x ∉ l)) = r := by
      rw [List.filter_eq_self]; intro x hx; simpa using hdis' x hx
    have e3 : l.filter (fun x => decide (x ∈ r)) = [] := by
      rw [List.filter_eq_nil_iff]; intro x hx; simpa using hdis x hx
    rw [e1, e2, e3]
  · obtain ⟨h1, h2, h3, h4, h5⟩ := exLoop_spec (l.length + r.length) ⟨l, r, [], 0, 0, 0, 0⟩ (by simp) (by simp)
      (by simpa using hl) (by simpa using hr) (by simp)
    simp only [List.drop_zero, List.take_zero, List.nil_append] at h1 h2 h3 h4 h5
    rw [compact_eq h1, compact_eq h2, h3, h4, h5, interLoop_filter hl hr]

end Verif.Partition
