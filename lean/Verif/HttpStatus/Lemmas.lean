import Verif.HttpStatus.Spec

namespace Verif.HttpStatus

/-! ## Counting -/

theorem increment_count (k : Counter) (codes : List Code) (c : Code) (h : ∀ x, k x = codes.count x % 65536) :
    ∀ x, k.increment c x = (codes ++ [c]).count x % 65536 := by
  intro x
  unfold Counter.increment
  rw [List.count_append]
  by_cases e : x = c
  · rw [if_pos e, e, h c, List.count_singleton_self]
    omega
  · rw [if_neg e, h x]
    have : [c].count x = 0 := by
      rw [List.count_eq_zero]
      simpa using e
    rw [this]
    rfl

theorem foldl_count {V : Type} : ∀ (errors : List (Err V)) (k : Counter) (codes : List Code), (∀ x, k x = codes.count x % 65536) →
    ∀ x, errors.foldl (fun k e => k.increment e.code) k x = (codes ++ errors.map (·.code)).count x % 65536
  | [], k, codes, h => by simpa using h
  | e :: errors, k, codes, h => by
    have := foldl_count errors (k.increment e.code) (codes ++ [e.code]) (increment_count k codes e.code h)
    simpa [List.append_assoc] using this

theorem ofErrors_count {V : Type} (errors : List (Err V)) (x : Code) : Counter.ofErrors errors x = (errors.map (·.code)).count x % 65536 := by
  have := foldl_count errors Counter.zero [] (by intro x; rfl) x
  unfold Counter.ofErrors
  simpa using this

theorem all_mem (c : Code) : c ∈ Code.all := by cases c <;> decide

theorem toVec_mem (k : Counter) (c : Code) (n : Nat) : (c, n) ∈ k.toVec ↔ n = k c ∧ 0 < n := by
  unfold Counter.toVec
  rw [List.mem_filterMap]
  constructor
  · rintro ⟨x, _, h⟩
    split at h
    · rename_i hp
      cases h
      exact ⟨rfl, hp⟩
    · cases h
  · rintro ⟨rfl, h⟩
    exact ⟨c, all_mem c, by rw [if_pos h]⟩

theorem count_eq (k : Counter) : k.count = (Code.all.map k).sum := by
  unfold Counter.count Code.all
  simp only [List.foldl, List.map, List.sum_cons, List.sum_nil]
  omega

theorem count_zero (k : Counter) : k.count = 0 ↔ ∀ c, k c = 0 := by
  rw [count_eq]
  constructor
  · intro h c
    have : ∀ l : List Code, (l.map k).sum = 0 → ∀ x ∈ l, k x = 0 := by
      intro l
      induction l with
      | nil => intro _ x hx; cases hx
      | cons y l ih =>
        intro h x hx
        rw [List.map_cons, List.sum_cons] at h
        rcases List.mem_cons.mp hx with rfl | hx
        · omega
        · exact ih (by omega) x hx
    exact this _ h c (all_mem c)
  · intro h
    unfold Code.all
    simp [h]

/-! ## Parts -/

structure Inv {V : Type} (ctx : Ctx V) (ps : List (Push V)) (b : Builder V) : Prop where
  errors : b.part.errors = errorsOf ps
  firsts : Firsts (queriesOf ps) b.part.shared
  seen : ∀ i, i ∈ b.seen ↔ ∃ q ∈ b.part.shared, q.1 = i
  counted : ∀ x, b.counter x = (codesOf (fun i => (ctx.query i).code) ps b.part.shared).count x % 65536

theorem count_perm_error (A B : List Code) (c x : Code) : ((A ++ [c]) ++ B).count x = ((A ++ B) ++ [c]).count x := by
  simp only [List.count_append]
  omega

theorem inv_step {V : Type} (ctx : Ctx V) (ps : List (Push V)) (b : Builder V) (p : Push V) (h : Inv ctx ps b) : Inv ctx (ps ++ [p]) (b.step ctx p) := by
  cases p with
  | error e =>
    have e1 : errorsOf (ps ++ [Push.error e]) = errorsOf ps ++ [e] := by unfold errorsOf; rw [List.filterMap_append]; rfl
    have e2 : queriesOf (ps ++ [Push.error e]) = queriesOf ps := by unfold queriesOf; rw [List.filterMap_append]; simp
    refine ⟨?_, ?_, h.seen, ?_⟩
    · rw [e1, ← h.errors]; rfl
    · rw [e2]; exact h.firsts
    · intro x
      unfold codesOf
      rw [e1, List.map_append]
      show Counter.increment b.counter e.code x = _
      rw [increment_count b.counter _ e.code h.counted x]
      unfold codesOf
      rw [← count_perm_error]
      rfl
  | query i l path =>
    have e1 : errorsOf (ps ++ [Push.query i l path]) = errorsOf ps := by unfold errorsOf; rw [List.filterMap_append]; simp
    have e2 : queriesOf (ps ++ [Push.query i l path]) = queriesOf ps ++ [(i, l, path)] := by
      unfold queriesOf; rw [List.filterMap_append]; rfl
    by_cases hi : i ∈ b.seen
    · have hb : b.step ctx (.query i l path) = b := by
        show b.pushQuery ctx i l path = b
        unfold Builder.pushQuery
        rw [if_pos hi]
      rw [hb]
      refine ⟨by rw [e1]; exact h.errors, ?_, h.seen, ?_⟩
      · rw [e2]
        refine ⟨h.firsts.kept.trans (List.sublist_append_left _ _), h.firsts.once, ?_, ?_⟩
        · intro x hx
          rcases List.mem_append.mp hx with hx | hx
          · exact h.firsts.all x hx
          · rw [List.mem_singleton] at hx
            rw [hx]
            exact (h.seen i).mp hi
        · intro y hy
          obtain ⟨a, b', e, ha⟩ := h.firsts.first y hy
          exact ⟨a, b' ++ [(i, l, path)], by rw [e]; simp, ha⟩
      · intro x
        unfold codesOf
        rw [e1]
        exact h.counted x
    · have hb : b.step ctx (.query i l path) =
          { seen := i :: b.seen
            counter := b.counter.increment (ctx.query i).code
            part := { b.part with shared := b.part.shared ++ [(i, l, path)] } } := by
        show b.pushQuery ctx i l path = _
        unfold Builder.pushQuery
        rw [if_neg hi]
      have hnew : ∀ q ∈ b.part.shared, q.1 ≠ i := fun q hq e => hi ((h.seen i).mpr ⟨q, hq, e⟩)
      rw [hb]
      refine ⟨by rw [e1]; exact h.errors, ?_, ?_, ?_⟩
      · rw [e2]
        refine ⟨h.firsts.kept.append (List.Sublist.refl _), ?_, ?_, ?_⟩
        · rw [List.map_append, List.nodup_append]
          refine ⟨h.firsts.once, by simp, ?_⟩
          intro x hx y hy
          obtain ⟨q, hq, rfl⟩ := List.mem_map.mp hx
          simp only [List.map_cons, List.map_nil, List.mem_singleton] at hy
          rw [hy]
          exact hnew q hq
        · intro x hx
          rcases List.mem_append.mp hx with hx | hx
          · obtain ⟨y, hy, e⟩ := h.firsts.all x hx
            exact ⟨y, List.mem_append_left _ hy, e⟩
          · exact ⟨x, List.mem_append_right _ hx, rfl⟩
        · intro y hy
          rcases List.mem_append.mp hy with hy | hy
          · obtain ⟨a, b', e, ha⟩ := h.firsts.first y hy
            exact ⟨a, b' ++ [(i, l, path)], by rw [e]; simp, ha⟩
          · rw [List.mem_singleton] at hy
            refine ⟨queriesOf ps, [], by rw [hy], ?_⟩
            intro x hx e
            obtain ⟨z, hz, ez⟩ := h.firsts.all x hx
            exact hnew z hz (by rw [ez, e, hy])
      · intro j
        show j ∈ i :: b.seen ↔ ∃ q ∈ b.part.shared ++ [(i, l, path)], q.1 = j
        rw [List.mem_cons, h.seen]
        constructor
        · rintro (rfl | ⟨q, hq, e⟩)
          · exact ⟨(j, l, path), List.mem_append_right _ List.mem_cons_self, rfl⟩
          · exact ⟨q, List.mem_append_left _ hq, e⟩
        · rintro ⟨q, hq, e⟩
          rcases List.mem_append.mp hq with hq | hq
          · exact Or.inr ⟨q, hq, e⟩
          · rw [List.mem_singleton] at hq
            exact Or.inl (by rw [← e, hq])
      · intro x
        show Counter.increment b.counter (ctx.query i).code x = _
        rw [increment_count b.counter _ _ h.counted x]
        unfold codesOf
        rw [e1, List.map_append, List.append_assoc]
        rfl

theorem inv_new {V : Type} (ctx : Ctx V) : Inv ctx [] (Builder.new V) :=
  ⟨rfl, ⟨List.Sublist.refl _, List.nodup_nil, by intro x hx; (cases hx), by intro x hx; (cases hx)⟩,
    by intro i; constructor; (intro h; cases h); (rintro ⟨q, hq, _⟩; cases hq), by intro x; rfl⟩

theorem inv_foldl {V : Type} (ctx : Ctx V) : ∀ (ps done : List (Push V)) (b : Builder V), Inv ctx done b →
    Inv ctx (done ++ ps) (ps.foldl (Builder.step ctx) b)
  | [], done, b, h => by simpa using h
  | p :: ps, done, b, h => by
    have := inv_foldl ctx ps (done ++ [p]) (b.step ctx p) (inv_step ctx done b p h)
    simpa [List.append_assoc] using this

theorem inv_build {V : Type} (ctx : Ctx V) (ps : List (Push V)) : Inv ctx ps (ps.foldl (Builder.step ctx) (Builder.new V)) := by
  simpa using inv_foldl ctx ps [] (Builder.new V) (inv_new ctx)

theorem writeShared_once {V : Type} (ctx : Ctx V) : ∀ (l : List (Nat × Location × List Seg)) (seen : List Nat), (l.map (·.1)).Nodup →
    (∀ q ∈ l, q.1 ∉ seen) → writeShared ctx seen l = l.map (writeQueryError ctx)
  | [], _, _, _ => rfl
  | q :: l, seen, hn, hs => by
    rw [List.map_cons, List.nodup_cons] at hn
    rw [writeShared, if_neg (hs q List.mem_cons_self), writeShared_once ctx l (q.1 :: seen) hn.2, List.map_cons]
    intro x hx hm
    rcases List.mem_cons.mp hm with e | hm
    · exact hn.1 (by rw [← e]; exact List.mem_map_of_mem hx)
    · exact hs x (List.mem_cons_of_mem _ hx) hm

/-! ## All parts -/

/-- The builder of a part. -/
def built {V : Type} (ctx : Ctx V) (ps : List (Push V)) : Builder V := ps.foldl (Builder.step ctx) (Builder.new V)

theorem build_eq {V : Type} (ctx : Ctx V) : ∀ (l : List (List (Push V))) (p : Parts V),
    (l.foldl (fun p ps => p.push (built ctx ps)) p).parts = p.parts ++ l.map (fun ps => (built ctx ps).part) ∧
    (l.foldl (fun p ps => p.push (built ctx ps)) p).count = p.count + (l.map (fun ps => (built ctx ps).counter.count)).sum
  | [], p => by simp
  | ps :: l, p => by
    obtain ⟨h1, h2⟩ := build_eq ctx l (p.push (built ctx ps))
    rw [List.foldl_cons, h1, h2]
    constructor
    · simp [Parts.push]
    · simp only [Parts.push, List.map_cons, List.sum_cons]
      omega

theorem build_counter {V : Type} (ctx : Ctx V) (x : Code) : ∀ (l : List (List (Push V))) (p : Parts V) (n : Nat), p.counter x = n % 65536 →
    (l.foldl (fun p ps => p.push (built ctx ps)) p).counter x =
      (n + (l.map (fun ps => (codesOf (fun i => (ctx.query i).code) ps (built ctx ps).part.shared).count x)).sum) % 65536
  | [], p, n, h => by simpa using h
  | ps :: l, p, n, h => by
    rw [List.foldl_cons, build_counter ctx x l (p.push (built ctx ps)) (n + (codesOf (fun i => (ctx.query i).code) ps (built ctx ps).part.shared).count x),
      List.map_cons, List.sum_cons, Nat.add_assoc]
    show (p.counter x + (built ctx ps).counter x) % 65536 = _
    have hc : (built ctx ps).counter x = _ := (inv_build ctx ps).counted x
    rw [h, hc, ← Nat.add_mod]
    rfl

/-! ## Greatest priority -/

theorem max_foldl : ∀ (l done : List (Nat × Nat)) (best : Option (Nat × Nat)),
    (match best with
      | none => done = []
      | some m => ∃ a b, done = a ++ m :: b ∧ (∀ x ∈ a, x.2 ≤ m.2) ∧ ∀ x ∈ b, x.2 < m.2) →
    match l.foldl (fun best x =>
      match best with
      | none => some x
      | some b => if b.2 ≤ x.2 then some x else some b) best with
      | none => done ++ l = []
      | some m => ∃ a b, done ++ l = a ++ m :: b ∧ (∀ x ∈ a, x.2 ≤ m.2) ∧ ∀ x ∈ b, x.2 < m.2
  | [], done, best, h => by
    rw [List.foldl_nil, List.append_nil]
    exact h
  | y :: l, done, best, h => by
    rw [List.foldl_cons]
    have e : done ++ y :: l = (done ++ [y]) ++ l := by simp
    rw [e]
    apply max_foldl l (done ++ [y])
    cases best with
    | none =>
      have h : done = [] := h
      simp only
      exact ⟨[], [], by rw [h], by intro x hx; (cases hx), by intro x hx; (cases hx)⟩
    | some m =>
      obtain ⟨a, b, hd, ha, hb⟩ := h
      by_cases hm : m.2 ≤ y.2
      · simp only [hm, if_true]
        refine ⟨done, [], rfl, ?_, by intro x hx; (cases hx)⟩
        intro x hx
        rw [hd] at hx
        rcases List.mem_append.mp hx with hx | hx
        · exact Nat.le_trans (ha x hx) hm
        · rcases List.mem_cons.mp hx with rfl | hx
          · exact hm
          · exact Nat.le_trans (Nat.le_of_lt (hb x hx)) hm
      · simp only [hm, if_false]
        refine ⟨a, b ++ [y], by rw [hd]; simp, ha, ?_⟩
        intro x hx
        rcases List.mem_append.mp hx with hx | hx
        · exact hb x hx
        · rw [List.mem_singleton] at hx
          rw [hx]
          omega

theorem max_spec (l : List (Nat × Nat)) :
    match maxByPriority l with
    | none => l = []
    | some m => ∃ a b, l = a ++ m :: b ∧ (∀ x ∈ a, x.2 ≤ m.2) ∧ ∀ x ∈ b, x.2 < m.2 := by
  have := max_foldl l [] none rfl
  rw [List.nil_append] at this
  exact this

theorem toVec_sub (k : Counter) : (k.toVec.map (·.1)).Sublist Code.all := by
  unfold Counter.toVec
  have : ∀ l : List Code, ((l.filterMap (fun c => if 0 < k c then some (c, k c) else none)).map (·.1)).Sublist l := by
    intro l
    induction l with
    | nil => exact .slnil
    | cons c l ih =>
      by_cases h : 0 < k c
      · rw [List.filterMap_cons_some (by rw [if_pos h]), List.map_cons]
        exact ih.cons₂ c
      · rw [List.filterMap_cons_none (by rw [if_neg h])]
        exact ih.cons c
  exact this Code.all

/-- No 401 comes after a 403. -/
theorem ordered : (Code.all.map Code.statusWithPriority).Pairwise (fun x y => ¬ (x.1 = 403 ∧ y.1 = 401)) := by decide

end Verif.HttpStatus
