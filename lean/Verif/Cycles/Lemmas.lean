import Verif.Cycles.Spec
import Mathlib.Data.List.Nodup
/-!
# Search and collection
-/
namespace Verif.Cycles

/-! ## Search -/

/-- Paths along a list of edges. -/
inductive PathIn (es : List Edge) : Nat → Nat → Prop
  | refl (a : Nat) : PathIn es a a
  | step {a c : Nat} (e : Edge) : e ∈ es → e.src = a → PathIn es e.dst c → PathIn es a c

theorem PathIn.trans {es : List Edge} {a b c : Nat} (h : PathIn es a b) (h' : PathIn es b c) : PathIn es a c := by
  induction h with
  | refl => exact h'
  | step e h1 h2 _ ih => exact .step e h1 h2 (ih h')

theorem dfs_sound {es : List Edge} {tgt n : Nat} {st vis : List Nat} (h : dfs es tgt n st vis = true) :
    ∃ x ∈ st, PathIn es x tgt := by
  induction n generalizing st vis with
  | zero => simp [dfs] at h
  | succ n ih =>
    cases st with
    | nil => simp [dfs] at h
    | cons x st =>
      rw [dfs] at h
      split at h
      · obtain ⟨y, hy, hp⟩ := ih h
        exact ⟨y, by simp [hy], hp⟩
      · split at h
        · rename_i hx; exact ⟨x, by simp, hx ▸ .refl _⟩
        · obtain ⟨y, hy, hp⟩ := ih h
          rcases List.mem_append.1 hy with hy | hy
          · simp only [List.mem_reverse, List.mem_filter, List.mem_map, decide_eq_true_eq] at hy
            obtain ⟨⟨e, ⟨he, hs⟩, rfl⟩, -⟩ := hy
            exact ⟨x, by simp, .step e he hs hp⟩
          · exact ⟨y, by simp [hy], hp⟩

/-- The edges from nodes not visited. -/
def left (es : List Edge) (vis : List Nat) : Nat := (es.filter fun e => !vis.contains e.src).length

theorem left_cons {es : List Edge} {vis : List Nat} {x : Nat} (h : vis.contains x = false) :
    left es (x :: vis) + (es.filter fun e => e.src = x).length = left es vis := by
  unfold left
  induction es with
  | nil => rfl
  | cons e t ih =>
    simp only [List.filter_cons]
    by_cases hx : e.src = x
    · have h1 : (x :: vis).contains e.src = true := by simp [hx]
      have h2 : vis.contains e.src = false := by rw [hx]; exact h
      have h3 : decide (e.src = x) = true := by simp [hx]
      simp only [h1, h2, h3, Bool.not_true, Bool.not_false, if_true, Bool.false_eq_true, if_false,
        List.length_cons]
      omega
    · have h1 : (x :: vis).contains e.src = vis.contains e.src := by
        simp [hx]
      simp only [h1, hx, decide_false, Bool.false_eq_true, if_false]
      cases vis.contains e.src
      · simp only [Bool.not_false, if_true, List.length_cons]; omega
      · simp only [Bool.not_true, Bool.false_eq_true, if_false]; exact ih

theorem dfs_complete {es : List Edge} {tgt n : Nat} {st vis : List Nat} (hn : st.length + left es vis < n)
    (hinv : ∀ e ∈ es, e.src ∈ vis → e.dst ∈ vis ∨ e.dst ∈ st) (hto : tgt ∉ vis)
    (h : dfs es tgt n st vis = false) : ∀ x, (x ∈ st ∨ x ∈ vis) → ¬ PathIn es x tgt := by
  induction n generalizing st vis with
  | zero => omega
  | succ n ih =>
    cases st with
    | nil =>
      intro x hx hp
      have hx : x ∈ vis := by simpa using hx
      clear ih hn h
      induction hp with
      | refl => exact hto hx
      | step e he hs _ ihp =>
        rcases hinv e he (hs ▸ hx) with h | h
        · exact ihp hto (Or.inr h) h
        · simp at h
    | cons y st =>
      rw [dfs] at h
      split at h
      · rename_i hv
        have hv : y ∈ vis := by simpa using hv
        intro x hx
        refine ih ?_ ?_ hto h x ?_
        · simp only [List.length_cons] at hn; omega
        · intro e he hs
          rcases hinv e he hs with h1 | h1
          · exact Or.inl h1
          · rcases List.mem_cons.1 h1 with h1 | h1
            · exact Or.inl (h1 ▸ hv)
            · exact Or.inr h1
        · rcases hx with hx | hx
          · rcases List.mem_cons.1 hx with rfl | hx
            · exact Or.inr hv
            · exact Or.inl hx
          · exact Or.inr hx
      · rename_i hv
        split at h
        · cases h
        · rename_i hyt
          have hv' : vis.contains y = false := by simpa using hv
          have hle : ∀ (l : List Nat) (q : Nat → Bool), (l.filter q).length ≤ l.length := fun l q => List.length_filter_le q l
          intro x hx
          refine ih ?_ ?_ ?_ h x ?_
          · have := left_cons (es := es) hv'
            have h2 := hle ((es.filter fun e => decide (e.src = y)).map (·.dst)) (fun z => !(y :: vis).contains z)
            simp only [List.length_cons] at hn
            simp only [List.length_append, List.length_reverse]
            rw [List.length_map] at h2
            omega
          · intro e he hs
            by_cases hd : e.dst ∈ y :: vis
            · exact Or.inl hd
            · right
              rcases List.mem_cons.1 hs with hs | hs
              · simp only [List.mem_append, List.mem_reverse, List.mem_filter, List.mem_map, decide_eq_true_eq]
                exact Or.inl ⟨⟨e, ⟨he, hs⟩, rfl⟩, by simpa using hd⟩
              · rcases hinv e he hs with h1 | h1
                · exact absurd (List.mem_cons_of_mem _ h1) hd
                · rcases List.mem_cons.1 h1 with h1 | h1
                  · exact absurd (by simp [h1]) hd
                  · exact List.mem_append_right _ h1
          · simp only [List.mem_cons, not_or]; exact ⟨fun hc => hyt hc.symm, hto⟩
          · rcases hx with hx | hx
            · rcases List.mem_cons.1 hx with rfl | hx
              · exact Or.inr (by simp)
              · exact Or.inl (List.mem_append_right _ hx)
            · exact Or.inr (List.mem_cons_of_mem _ hx)

theorem pathIn_reqs {g : Graph} {a b : Nat} : PathIn g.reqs a b ↔ Path g a b := by
  constructor
  · intro h
    induction h with
    | refl => exact .refl _
    | step e h1 h2 _ ih =>
      simp only [Graph.reqs, List.mem_filter, decide_eq_true_eq] at h1
      obtain ⟨s, d, k⟩ := e
      simp only at h1 h2
      obtain ⟨h1, rfl⟩ := h1
      subst h2
      exact .step h1 ih
  · intro h
    induction h with
    | refl => exact .refl _
    | step h1 _ ih =>
      exact .step ⟨_, _, .requiredBySubgraph⟩ (by simp [Graph.reqs, h1]) rfl ih

theorem hasPath_iff {g : Graph} {a b : Nat} : hasPath g a b = true ↔ Path g a b := by
  rw [← pathIn_reqs]
  unfold hasPath
  constructor
  · intro h
    obtain ⟨x, hx, hp⟩ := dfs_sound h
    rw [List.mem_singleton] at hx
    exact hx ▸ hp
  · intro h
    cases hd : dfs g.reqs b (g.reqs.length + 2) [a] [] with
    | true => rfl
    | false =>
      refine absurd h (dfs_complete ?_ (by simp) (by simp) hd a (by simp))
      have : left g.reqs [] ≤ g.reqs.length := List.length_filter_le _ _
      simp only [List.length_singleton]
      omega

/-! ## Edges -/

theorem mem_out {g : Graph} {n : Nat} {e : Edge} : e ∈ g.out n ↔ e ∈ g.edges ∧ e.src = n := by
  simp [Graph.out]

theorem mem_fieldsOf {g : Graph} {p f : Nat} : f ∈ g.fieldsOf p ↔ ⟨p, f, .field⟩ ∈ g.edges := by
  simp only [Graph.fieldsOf, List.mem_map, List.mem_filter, mem_out, decide_eq_true_eq]
  constructor
  · rintro ⟨⟨s, d, k⟩, ⟨⟨h1, h2⟩, h3⟩, h4⟩
    simp only at h2 h3 h4
    subst h2 h3 h4
    exact h1
  · intro h
    exact ⟨_, ⟨⟨h, rfl⟩, rfl⟩, rfl⟩

theorem isConnected_iff {g : Graph} {p f : Nat} :
    isConnected g p f = true ↔ ∃ x, ⟨p, x, .field⟩ ∈ g.edges ∧ (Path g x f ∨ Path g f x) := by
  simp only [isConnected, List.any_eq_true, mem_fieldsOf, Bool.or_eq_true_iff, hasPath_iff]

/-- Two edges of the tree with the same target are the same. -/
theorem tree_unique {es : List Edge} (h : ((es.filter fun e => decide (Hier e.kind)).map (·.dst)).Nodup)
    {e e' : Edge} (he : e ∈ es) (he' : e' ∈ es) (hk : Hier e.kind) (hk' : Hier e'.kind) (hd : e.dst = e'.dst) :
    e = e' := by
  have h1 : e ∈ es.filter fun e => decide (Hier e.kind) := by simp [he, hk]
  have h2 : e' ∈ es.filter fun e => decide (Hier e.kind) := by simp [he', hk']
  exact List.inj_on_of_nodup_map h h1 h2 hd

/-! ## Removal -/

theorem mem_eraseP_unique {es : List Edge} {q : Edge → Bool} {e0 : Edge} (hq : ∀ e ∈ es, q e = true ↔ e = e0)
    (hc : es.count e0 ≤ 1) (e : Edge) : e ∈ es.eraseP q ↔ e ∈ es ∧ e ≠ e0 := by
  induction es with
  | nil => simp
  | cons x t ih =>
    by_cases hx : x = e0
    · subst hx
      rw [List.eraseP_cons_of_pos ((hq x (by simp)).2 rfl)]
      rw [List.count_cons_self] at hc
      have h0 : x ∉ t := by
        intro h
        have := List.one_le_count_iff.2 h
        omega
      simp only [List.mem_cons]
      constructor
      · intro h; exact ⟨Or.inr h, fun hc => h0 (hc ▸ h)⟩
      · rintro ⟨h | h, h'⟩
        · exact absurd h h'
        · exact h
    · have hqx : ¬ q x = true := fun h => hx ((hq x (by simp)).1 h)
      rw [List.eraseP_cons_of_neg hqx, List.mem_cons, List.mem_cons,
        ih (fun e he => hq e (by simp [he])) (by rw [List.count_cons_of_ne hx] at hc; exact hc)]
      constructor
      · rintro (h | ⟨h, h'⟩)
        · exact ⟨Or.inl h, h ▸ hx⟩
        · exact ⟨Or.inr h, h'⟩
      · rintro ⟨h | h, h'⟩
        · exact Or.inl h
        · exact Or.inr ⟨h, h'⟩

theorem count_tree {es : List Edge} (h : ((es.filter fun e => decide (Hier e.kind)).map (·.dst)).Nodup)
    {e : Edge} (hk : Hier e.kind) : es.count e ≤ 1 := by
  have h1 : (es.filter fun e => decide (Hier e.kind)).Nodup := List.Nodup.of_map _ h
  have h2 : (es.filter fun e => decide (Hier e.kind)).count e = es.count e := by
    rw [List.count_filter]; simp [hk]
  rw [← h2]
  exact List.nodup_iff_count.1 h1 e

end Verif.Cycles
