import Verif.Flac.Spec
/-!
# Lemmas on sets, the next edge and paths
-/
namespace Verif.Flac

theorem mem_put {x y : Nat} {s : List Nat} : x ∈ put y s ↔ x = y ∨ x ∈ s := by
  unfold put
  split
  · next h =>
    constructor
    · exact Or.inr
    · rintro (rfl | h')
      · simpa using h
      · exact h'
  · simp

theorem mem_union {x : Nat} {s t : List Nat} : x ∈ union s t ↔ x ∈ s ∨ x ∈ t := by
  unfold union
  induction t generalizing s with
  | nil => simp
  | cons y t ih => rw [List.foldl_cons, ih, mem_put, List.mem_cons]; grind

theorem disjoint_iff {s t : List Nat} : disjoint s t = true ↔ ∀ x ∈ s, x ∉ t := by
  simp [disjoint]

theorem nodup_put {x : Nat} {s : List Nat} (h : s.Nodup) : (put x s).Nodup := by
  unfold put
  split
  · exact h
  · next h' => rw [List.nodup_cons]; exact ⟨by simpa using h', h⟩

theorem upd_same {α : Type} {f : Nat → α} {i : Nat} {v : α} : upd f i v i = v := by simp [upd]

theorem upd_ne {α : Type} {f : Nat → α} {i j : Nat} {v : α} (h : j ≠ i) : upd f i v j = f j := by simp [upd, h]

section
variable {g : Graph}

theorem mem_incoming {n e : Nat} : e ∈ g.incoming n ↔ e < g.edges.length ∧ g.dst e = n := by
  simp [Graph.incoming]

theorem mem_outgoing {n e : Nat} : e ∈ g.outgoing n ↔ e < g.edges.length ∧ g.src e = n := by
  simp [Graph.outgoing]

theorem nodup_outgoing {n : Nat} : (g.outgoing n).Nodup := by
  unfold Graph.outgoing
  refine List.Pairwise.filter _ ?_
  rw [List.pairwise_reverse]
  exact List.nodup_range.imp fun h => Ne.symm h

/-! ## The next edge -/

theorem next_fold {m : List Nat} (l : List Nat) (acc : Nat × Option Nat)
    (h0 : ∀ e, acc.2 = some e → g.weight e = acc.1) :
    let r := l.foldl (nextStep g m) acc
    (∀ e, r.2 = some e → g.weight e = r.1) ∧ r.1 ≤ acc.1 ∧ (∀ i ∈ l, i ∉ m → r.1 ≤ g.weight i) ∧
      (r = acc ∨ ∃ e ∈ l, e ∉ m ∧ r.2 = some e ∧ g.weight e < acc.1) := by
  induction l generalizing acc with
  | nil => simpa using h0
  | cons x t ih =>
    simp only [List.foldl_cons]
    by_cases hc : (!m.contains x && decide (g.weight x < acc.1)) = true
    · have hs : nextStep g m acc x = (g.weight x, some x) := by simp only [nextStep, hc, if_true]
      rw [hs]
      simp only [Bool.and_eq_true, Bool.not_eq_true', List.contains_eq_mem, decide_eq_false_iff_not, decide_eq_true_eq] at hc
      obtain ⟨h1, h2, h3, h4⟩ := ih (g.weight x, some x) (by simp)
      refine ⟨h1, by omega, ?_, Or.inr ?_⟩
      · intro i hi him
        rcases List.mem_cons.1 hi with rfl | hi
        · exact h2
        · exact h3 i hi him
      · rcases h4 with h4 | ⟨e, he, hm, h5, h6⟩
        · exact ⟨x, by simp, hc.1, by rw [h4], hc.2⟩
        · exact ⟨e, by simp [he], hm, h5, by simp only at h6; omega⟩
    · have hs : nextStep g m acc x = acc := by simp only [nextStep, hc, if_false]; rfl
      rw [hs]
      simp only [Bool.and_eq_true, Bool.not_eq_true', List.contains_eq_mem, decide_eq_false_iff_not, decide_eq_true_eq] at hc
      obtain ⟨h1, h2, h3, h4⟩ := ih acc h0
      refine ⟨h1, h2, ?_, ?_⟩
      · intro i hi him
        rcases List.mem_cons.1 hi with rfl | hi
        · have : ¬ g.weight i < acc.1 := fun h => hc ⟨him, h⟩
          omega
        · exact h3 i hi him
      · rcases h4 with h4 | ⟨e, he, hm, h5, h6⟩
        · exact Or.inl h4
        · exact Or.inr ⟨e, by simp [he], hm, h5, h6⟩

theorem findNext_some {m : List Nat} {n e : Nat} (h : findNext g m n = some e) :
    e < g.edges.length ∧ g.dst e = n ∧ e ∉ m ∧ g.weight e < 65535 ∧
      ∀ i, i < g.edges.length → g.dst i = n → i ∉ m → g.weight e ≤ g.weight i := by
  obtain ⟨h1, -, h3, h4⟩ := next_fold (g := g) (m := m) (g.incoming n) (65535, none) (by simp)
  unfold findNext at h
  rcases h4 with h4 | ⟨e', he, hm, h5, h6⟩
  · rw [h4] at h; simp at h
  · rw [h5] at h
    cases h
    rw [mem_incoming] at he
    refine ⟨he.1, he.2, hm, h6, fun i hi hd him => ?_⟩
    rw [h1 _ h5]
    exact h3 i (mem_incoming.2 ⟨hi, hd⟩) him

theorem findNext_none {m : List Nat} {n : Nat} (h : findNext g m n = none) :
    ∀ i, i < g.edges.length → g.dst i = n → i ∉ m → 65535 ≤ g.weight i := by
  obtain ⟨h1, -, h3, h4⟩ := next_fold (g := g) (m := m) (g.incoming n) (65535, none) (by simp)
  unfold findNext at h
  intro i hi hd him
  have := h3 i (mem_incoming.2 ⟨hi, hd⟩) him
  rcases h4 with h4 | ⟨e', he, hm, h5, h6⟩
  · rw [h4] at this; exact this
  · rw [h5] at h; simp at h

theorem findNext_congr {m m' : List Nat} {n : Nat} (h : ∀ i, g.dst i = n → (i ∈ m ↔ i ∈ m')) :
    findNext g m n = findNext g m' n := by
  unfold findNext
  have : ∀ (l : List Nat) acc, (∀ i ∈ l, g.dst i = n) → l.foldl (nextStep g m) acc = l.foldl (nextStep g m') acc := by
    intro l
    induction l with
    | nil => simp
    | cons x t ih =>
      intro acc hl
      simp only [List.foldl_cons]
      have : nextStep g m acc x = nextStep g m' acc x := by
        have := h x (hl x (by simp))
        simp only [nextStep, List.contains_eq_mem, decide_eq_decide.2 this]
      rw [this]
      exact ih _ fun i hi => hl i (by simp [hi])
  rw [this _ _ fun i hi => (mem_incoming.1 hi).2]

theorem findNext_usable {m : List Nat} {n i : Nat} (hi : i < g.edges.length) (hd : g.dst i = n) (hm : i ∉ m)
    (hw : g.weight i < 65535) : ∃ e, findNext g m n = some e := by
  cases h : findNext g m n with
  | some e => exact ⟨e, rfl⟩
  | none => have := findNext_none h i hi hd hm; omega

/-! ## Paths -/

variable {es es' : List Nat} {a b c : Nat}

theorem Path.trans (h : Path g es a b) (h' : Path g es b c) : Path g es a c := by
  induction h with
  | refl => exact h'
  | step he _ ih => exact .step he (ih h')

theorem Path.mono (hs : ∀ e ∈ es, e ∈ es') (h : Path g es a b) : Path g es' a b := by
  induction h with
  | refl => exact .refl _
  | step he _ ih => exact .step (hs _ he) ih

theorem Path.edge {e : Nat} (he : e ∈ es) : Path g es (g.src e) (g.dst e) := .step he (.refl _)

/-- The last edge of a path. -/
theorem Path.last (h : Path g es a b) : a = b ∨ ∃ e ∈ es, g.dst e = b ∧ Path g es a (g.src e) := by
  induction h with
  | refl => exact Or.inl rfl
  | step he h ih =>
    right
    rcases ih with rfl | ⟨e', he', hd, hp⟩
    · exact ⟨_, he, rfl, .refl _⟩
    · exact ⟨e', he', hd, .step he hp⟩

/-- The first edge of a path. -/
theorem Path.first (h : Path g es a b) : a = b ∨ ∃ e ∈ es, g.src e = a ∧ Path g es (g.dst e) b := by
  cases h with
  | refl => exact Or.inl rfl
  | step he h => exact Or.inr ⟨_, he, rfl, h⟩

/-- Induction on the last edge. -/
theorem Path.snocInd {a : Nat} {P : Nat → Prop} (h0 : P a)
    (h1 : ∀ e ∈ es, Path g es a (g.src e) → P (g.src e) → P (g.dst e)) {b : Nat} (h : Path g es a b) : P b := by
  induction h with
  | refl => exact h0
  | step he h ih =>
    refine ih (h1 _ he (.refl _) h0) ?_
    intro e' he' hp hP
    exact h1 e' he' (.step he hp) hP

theorem path_cons {e : Nat} :
    Path g (e :: es) a b ↔ Path g es a b ∨ Path g es a (g.src e) ∧ Path g es (g.dst e) b := by
  constructor
  · intro h
    induction h with
    | refl => exact Or.inl (.refl _)
    | @step f c hf _ ih =>
      rcases List.mem_cons.1 hf with rfl | hf
      · rcases ih with ih | ⟨-, ih⟩
        · exact Or.inr ⟨.refl _, ih⟩
        · exact Or.inr ⟨.refl _, ih⟩
      · rcases ih with ih | ⟨ih, ih'⟩
        · exact Or.inl (.step hf ih)
        · exact Or.inr ⟨.step hf ih, ih'⟩
  · rintro (h | ⟨h, h'⟩)
    · exact h.mono (by simp_all)
    · exact (h.mono (es' := e :: es) (by simp_all)).trans (.step (by simp) (h'.mono (by simp_all)))

theorem path_congr (h : ∀ e, e ∈ es ↔ e ∈ es') : Path g es a b ↔ Path g es' a b :=
  ⟨fun hp => hp.mono fun e he => (h e).1 he, fun hp => hp.mono fun e he => (h e).2 he⟩

theorem path_put {e : Nat} :
    Path g (put e es) a b ↔ Path g es a b ∨ Path g es a (g.src e) ∧ Path g es (g.dst e) b := by
  rw [← path_cons]
  exact path_congr fun x => by rw [mem_put, List.mem_cons]

/-! ## Without cycles -/

/-- There is no cycle. -/
def Acyc (g : Graph) (es : List Nat) : Prop := ∀ e ∈ es, ¬ Path g es (g.dst e) (g.src e)

theorem Acyc.sub (h : Acyc g es') (hs : ∀ e ∈ es, e ∈ es') : Acyc g es :=
  fun e he hp => h e (hs e he) (hp.mono hs)

theorem acyc_put {e : Nat} (h : Acyc g es) (hn : ¬ Path g es (g.dst e) (g.src e)) : Acyc g (put e es) := by
  intro f hf hp
  rw [path_put] at hp
  rcases mem_put.1 hf with rfl | hf
  · rcases hp with hp | ⟨hp, -⟩ <;> exact hn hp
  · rcases hp with hp | ⟨h1, h2⟩
    · exact h f hf hp
    · exact hn ((h2.trans (.edge hf)).trans h1)

open Classical in
/-- Ranks that increase along edges. -/
theorem Acyc.up (h : Acyc g es) : ∃ rank : Nat → Nat, ∀ e ∈ es, rank (g.src e) < rank (g.dst e) := by
  induction es with
  | nil => exact ⟨fun _ => 0, by simp⟩
  | cons e es ih =>
    obtain ⟨r, hr⟩ := ih (h.sub (by simp_all))
    have hn : ¬ Path g es (g.dst e) (g.src e) := fun hp => h e (by simp) (hp.mono (by simp_all))
    refine ⟨fun x => if Path g es (g.dst e) x then r x + r (g.src e) + 1 else r x, ?_⟩
    intro f hf
    rcases List.mem_cons.1 hf with rfl | hf
    · simp only [hn, if_false, Path.refl, if_true]; omega
    · have := hr f hf
      by_cases h1 : Path g es (g.dst e) (g.src f)
      · have h2 : Path g es (g.dst e) (g.dst f) := h1.trans (.edge hf)
        simp only [h1, h2, if_true]; omega
      · simp only [h1, if_false]
        split <;> omega

open Classical in
/-- Ranks that decrease along edges. -/
theorem Acyc.down (h : Acyc g es) : ∃ rank : Nat → Nat, ∀ e ∈ es, rank (g.dst e) < rank (g.src e) := by
  induction es with
  | nil => exact ⟨fun _ => 0, by simp⟩
  | cons e es ih =>
    obtain ⟨r, hr⟩ := ih (h.sub (by simp_all))
    have hn : ¬ Path g es (g.dst e) (g.src e) := fun hp => h e (by simp) (hp.mono (by simp_all))
    refine ⟨fun x => if Path g es x (g.src e) then r x + r (g.dst e) + 1 else r x, ?_⟩
    intro f hf
    rcases List.mem_cons.1 hf with rfl | hf
    · simp only [hn, if_false, Path.refl, if_true]; omega
    · have := hr f hf
      by_cases h1 : Path g es (g.dst f) (g.src e)
      · have h2 : Path g es (g.src f) (g.src e) := (Path.edge hf).trans h1
        simp only [h1, h2, if_true]; omega
      · simp only [h1, if_false]
        split <;> omega

/-! ## Arborescences -/

/-- What is reached from `x` is a tree. -/
def Arb (g : Graph) (es : List Nat) (x : Nat) : Prop :=
  ∀ e ∈ es, ∀ e' ∈ es, Path g es x (g.src e) → Path g es x (g.src e') → g.dst e = g.dst e' → e = e'

theorem Arb.sub {x y : Nat} (h : Arb g es x) (hp : Path g es x y) : Arb g es y :=
  fun e he e' he' h1 h2 => h e he e' he' (hp.trans h1) (hp.trans h2)

/-- In a tree the nodes from which a node is reached are in a row. -/
theorem Arb.chain {x a b z : Nat} (h : Arb g es x) (ha : Path g es x a) (hb : Path g es x b)
    (h1 : Path g es a z) (h2 : Path g es b z) : Path g es a b ∨ Path g es b a := by
  revert h2
  refine h1.snocInd (P := fun z => Path g es b z → Path g es a b ∨ Path g es b a) Or.inr ?_
  intro e he hp ih h2
  rcases h2.last with rfl | ⟨f, hf, hd, hq⟩
  · exact Or.inl (hp.trans (.edge he))
  · have := h f hf e he (hb.trans hq) (ha.trans hp) hd
    exact ih (this ▸ hq)

/-- Two edges of a node lead to different nodes. -/
theorem Arb.siblings {x e e' z : Nat} (h : Arb g es x) (hc : Acyc g es) (he : e ∈ es) (he' : e' ∈ es)
    (hs : g.src e = x) (hs' : g.src e' = x) (hn : e ≠ e') (h1 : Path g es (g.dst e) z) (h2 : Path g es (g.dst e') z) :
    False := by
  have key : ∀ e e', e ∈ es → e' ∈ es → g.src e = x → g.src e' = x → e ≠ e' → ¬ Path g es (g.dst e) (g.dst e') := by
    intro e e' he he' hs hs' hn hp
    rcases hp.last with hd | ⟨f, hf, hd, hq⟩
    · exact hn (h e he e' he' (hs ▸ .refl _) (hs' ▸ .refl _) hd)
    · have hxf : Path g es x (g.src f) := by rw [← hs]; exact .step he hq
      have := h f hf e' he' hxf (hs' ▸ .refl _) hd
      subst this
      exact hc e he (by rw [hs, ← hs']; exact hq)
  have ha : Path g es x (g.dst e) := hs ▸ .edge he
  have hb : Path g es x (g.dst e') := hs' ▸ .edge he'
  rcases h.chain ha hb h1 h2 with hp | hp
  · exact key e e' he he' hs hs' hn hp
  · exact key e' e he' he hs' hs (Ne.symm hn) hp

end

end Verif.Flac
