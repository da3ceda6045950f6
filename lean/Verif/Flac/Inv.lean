import Verif.Flac.Trav
/-!
# The invariant of a run
-/
namespace Verif.Flac

/-- A usable edge leads to the node. -/
def HasIn (g : Graph) (x : Nat) : Prop := ∃ i, i < g.edges.length ∧ g.dst i = x ∧ g.weight i < 65535

/-- `T` are the terminals, `A` are the positions of those water flows from. -/
structure Inv (g : Graph) (T : List Nat) (A : Nat → Prop) (t : Tree) (s : State) : Prop where
  satMark : ∀ e ∈ s.saturated, e ∈ s.marked
  markLen : ∀ e ∈ s.marked, e < g.edges.length
  markUse : ∀ e ∈ s.marked, g.weight e < 65535
  heapNext : ∀ e ∈ s.heap, findNext g s.marked (g.dst e) = some e
  heapFed : ∀ e ∈ s.heap, s.feeding (g.dst e) ≠ []
  heapNodup : s.heap.Nodup
  fedHeap : ∀ x e, x ∉ t.nodes → s.feeding x ≠ [] → findNext g s.marked x = some e → e ∈ s.heap
  rateFed : ∀ x, s.rate x ≠ 0 → s.feeding x ≠ []
  markFed : ∀ e ∈ s.marked, s.feeding (g.dst e) ≠ []
  markSrc : ∀ e ∈ s.marked, g.dst e ∉ t.nodes → g.src e ∉ t.nodes → HasIn g (g.src e) → s.feeding (g.src e) ≠ []
  markMin : ∀ e ∈ s.marked, ∀ i, i < g.edges.length → g.dst i = g.dst e → i ∉ s.marked → g.weight e ≤ g.weight i
  termFed : ∀ ix n, A ix → T[ix]? = some n → HasIn g n → s.feeding n ≠ []
  exact : ∀ x, x ∉ t.nodes → findNext g s.marked x ≠ none → ∀ ix,
    (ix ∈ s.feeding x ↔ A ix ∧ ∃ n, T[ix]? = some n ∧ Path g s.saturated x n)
  arb : ∀ x, x ∉ t.nodes → findNext g s.marked x ≠ none → Arb g s.saturated x
  acyc : Acyc g s.saturated
  satTerm : ∀ e ∈ s.saturated, ∃ ix n, A ix ∧ T[ix]? = some n ∧ Path g s.saturated (g.dst e) n
  closed : ∀ e ∈ s.saturated, g.src e ∈ t.nodes → g.dst e ∈ t.nodes
  treeSat : ∀ e ∈ s.saturated, g.dst e ∈ t.nodes → ∀ ix n, A ix → T[ix]? = some n →
    Path g s.saturated (g.dst e) n → ix ∈ s.rootFeeding

section
variable {g : Graph} {T : List Nat} {A : Nat → Prop} {t : Tree} {s : State} {e : Nat}

theorem Inv.satLen (h : Inv g T A t s) : ∀ e ∈ s.saturated, e < g.edges.length := fun e he => h.markLen e (h.satMark e he)

/-- The edge is popped and marked. -/
def popped (s : State) (e : Nat) : State := { s with heap := s.heap.erase e, marked := put e s.marked }

theorem eraseIdx_eq_erase {l : List Nat} (hn : l.Nodup) {i e : Nat} (h : l[i]? = some e) : l.eraseIdx i = l.erase e := by
  induction l generalizing i with
  | nil => simp at h
  | cons x l ih =>
    rw [List.nodup_cons] at hn
    cases i with
    | zero => simp only [List.getElem?_cons_zero, Option.some.injEq] at h; subst h; simp
    | succ i =>
      simp only [List.getElem?_cons_succ] at h
      have hne : x ≠ e := by rintro rfl; exact hn.1 (List.mem_of_getElem? h)
      rw [List.eraseIdx_cons_succ, List.erase_cons_tail (by simpa using hne), ih hn.2 h]

theorem mem_erase_nodup {l : List Nat} (hn : l.Nodup) {x y : Nat} : x ∈ l.erase y ↔ x ≠ y ∧ x ∈ l := by
  rw [hn.mem_erase_iff]

/-- What is known of an edge of the heap. -/
theorem Inv.top (h : Inv g T A t s) (he : e ∈ s.heap) :
    e < g.edges.length ∧ e ∉ s.marked ∧ g.weight e < 65535 ∧ s.feeding (g.dst e) ≠ [] ∧
      (∀ i, i < g.edges.length → g.dst i = g.dst e → i ∉ s.marked → g.weight e ≤ g.weight i) ∧
      (∀ x, x ≠ g.dst e → findNext g (put e s.marked) x = findNext g s.marked x) ∧
      (∀ f ∈ s.heap, g.dst f = g.dst e → f = e) ∧
      ∀ x, findNext g (put e s.marked) x ≠ none → findNext g s.marked x ≠ none := by
  obtain ⟨h1, -, h3, h4, h5⟩ := findNext_some (h.heapNext e he)
  have hx : ∀ x, x ≠ g.dst e → findNext g (put e s.marked) x = findNext g s.marked x := by
    intro x hx
    refine findNext_congr fun i hi => ?_
    rw [mem_put]
    refine ⟨?_, Or.inr⟩
    rintro (rfl | h)
    · exact absurd hi.symm hx
    · exact h
  refine ⟨h1, h3, h4, h.heapFed e he, h5, hx, ?_, ?_⟩
  · intro f hf hd
    have h6 := h.heapNext f hf
    rw [hd, h.heapNext e he] at h6
    exact (Option.some.inj h6).symm
  · intro x hn
    by_cases hxe : x = g.dst e
    · rw [hxe, h.heapNext e he]; simp
    · rw [← hx x hxe]; exact hn

/-- The head of a popped edge outside of the tree: what it feeds is known. -/
theorem Inv.head (h : Inv g T A t s) (he : e ∈ s.heap) (hv : g.dst e ∉ t.nodes) :
    (∀ ix, (ix ∈ s.feeding (g.dst e) ↔ A ix ∧ ∃ n, T[ix]? = some n ∧ Path g s.saturated (g.dst e) n)) ∧
      Arb g s.saturated (g.dst e) ∧ ∃ ix n, ix ∈ s.feeding (g.dst e) ∧ A ix ∧ T[ix]? = some n ∧ Path g s.saturated (g.dst e) n := by
  have hn : findNext g s.marked (g.dst e) ≠ none := by rw [h.heapNext e he]; simp
  have hx := h.exact _ hv hn
  refine ⟨hx, h.arb _ hv hn, ?_⟩
  obtain ⟨ix, hix⟩ := List.exists_mem_of_ne_nil _ (h.heapFed e he)
  obtain ⟨ha, n, h1, h2⟩ := (hx ix).1 hix
  exact ⟨ix, n, hix, ha, h1, h2⟩

/-- Popping: all but the progress at the head of the edge. -/
theorem Inv.pop (h : Inv g T A t s) (he : e ∈ s.heap)
    (hsrc : g.dst e ∉ t.nodes → g.src e ∉ t.nodes → HasIn g (g.src e) → s.feeding (g.src e) ≠ []) {s' : State}
    (hs : s' = popped s e ∧ g.dst e ∈ t.nodes ∨ s' = pushNext g (g.dst e) (popped s e)) : Inv g T A t s' := by
  obtain ⟨h1, h2, h3, h4, h5, h6, h7, h8⟩ := h.top he
  have hm : s'.marked = put e s.marked ∧ s'.saturated = s.saturated ∧ s'.feeding = s.feeding ∧ s'.rate = s.rate ∧
      s'.rootFeeding = s.rootFeeding := by
    rcases hs with ⟨rfl, -⟩ | rfl
    · exact ⟨rfl, rfl, rfl, rfl, rfl⟩
    · unfold pushNext; split <;> exact ⟨rfl, rfl, rfl, rfl, rfl⟩
  obtain ⟨m1, m2, m3, m4, m5⟩ := hm
  have hheap : (∀ f, f ∈ s'.heap ↔ (f ≠ e ∧ f ∈ s.heap) ∨ (f ∈ s'.heap ∧ findNext g (put e s.marked) (g.dst e) = some f)) ∧
      s'.heap.Nodup ∧ (g.dst e ∉ t.nodes → ∀ f, findNext g (put e s.marked) (g.dst e) = some f → f ∈ s'.heap) := by
    rcases hs with ⟨rfl, hv⟩ | rfl
    · refine ⟨fun f => ?_, h.heapNodup.erase _, fun hn => absurd hv hn⟩
      show f ∈ s.heap.erase e ↔ _
      rw [mem_erase_nodup h.heapNodup]
      constructor
      · exact Or.inl
      · rintro (hf | ⟨hf, -⟩)
        · exact hf
        · exact (mem_erase_nodup h.heapNodup).1 hf
    · cases hn : findNext g (popped s e).marked (g.dst e) with
      | none =>
        have : pushNext g (g.dst e) (popped s e) = popped s e := by unfold pushNext; rw [hn]
        rw [this]
        have hn' : findNext g (put e s.marked) (g.dst e) = none := hn
        refine ⟨fun f => ?_, h.heapNodup.erase _, by simp [hn']⟩
        show f ∈ s.heap.erase e ↔ _
        rw [mem_erase_nodup h.heapNodup, hn']
        simp
      | some k =>
        have : (pushNext g (g.dst e) (popped s e)).heap = put k (s.heap.erase e) := by unfold pushNext; rw [hn]; rfl
        have hn' : findNext g (put e s.marked) (g.dst e) = some k := hn
        rw [this]
        refine ⟨fun f => ?_, nodup_put (h.heapNodup.erase _), ?_⟩
        · rw [mem_put, mem_erase_nodup h.heapNodup, hn']
          simp only [Option.some.injEq]
          constructor
          · rintro (rfl | h)
            · exact Or.inr ⟨Or.inl rfl, rfl⟩
            · exact Or.inl h
          · rintro (h | ⟨h, -⟩)
            · exact Or.inr h
            · exact h
        · intro _ f hf
          rw [hn'] at hf
          rw [mem_put]; exact Or.inl (Option.some.inj hf).symm
  obtain ⟨hh1, hh2, hh3⟩ := hheap
  constructor
  · rw [m1, m2]; intro f hf; exact mem_put.2 (Or.inr (h.satMark f hf))
  · rw [m1]; intro f hf
    rcases mem_put.1 hf with rfl | hf
    · exact h1
    · exact h.markLen f hf
  · rw [m1]; intro f hf
    rcases mem_put.1 hf with rfl | hf
    · exact h3
    · exact h.markUse f hf
  · rw [m1]; intro f hf
    rcases (hh1 f).1 hf with ⟨hf1, hf2⟩ | ⟨-, hf⟩
    · rw [h6 _ fun hd => hf1 (h7 f hf2 hd)]
      exact h.heapNext f hf2
    · obtain ⟨-, hd, -⟩ := findNext_some hf
      rw [hd]; exact hf
  · rw [m3]; intro f hf
    rcases (hh1 f).1 hf with ⟨hf1, hf2⟩ | ⟨-, hf⟩
    · exact h.heapFed f hf2
    · obtain ⟨-, hd, -⟩ := findNext_some hf
      rw [hd]; exact h4
  · exact hh2
  · rw [m1, m3]
    intro x f hx hfed hn
    by_cases hxe : x = g.dst e
    · rw [hxe] at hn hx
      exact hh3 hx f hn
    · rw [h6 x hxe] at hn
      have := h.fedHeap x f hx hfed hn
      refine (hh1 f).2 (Or.inl ⟨?_, this⟩)
      rintro rfl
      obtain ⟨-, hd, -⟩ := findNext_some hn
      exact hxe hd.symm
  · rw [m3, m4]; exact h.rateFed
  · rw [m1, m3]; intro f hf
    rcases mem_put.1 hf with rfl | hf
    · exact h4
    · exact h.markFed f hf
  · rw [m1, m3]; intro f hf
    rcases mem_put.1 hf with rfl | hf
    · exact hsrc
    · exact h.markSrc f hf
  · rw [m1]; intro f hf i hi hd him
    rw [mem_put, not_or] at him
    rcases mem_put.1 hf with rfl | hf
    · exact h5 i hi hd him.2
    · exact h.markMin f hf i hi hd him.2
  · rw [m3]; exact h.termFed
  · rw [m1, m2, m3]; exact fun x hx hn => h.exact x hx (h8 x hn)
  · rw [m1, m2]; exact fun x hx hn => h.arb x hx (h8 x hn)
  · rw [m2]; exact h.acyc
  · rw [m2]; exact h.satTerm
  · rw [m2]; exact h.closed
  · rw [m2, m5]; exact h.treeSat

/-! ## Saturating an edge -/

/-- The loop over the edges to update. -/
theorem feed_fold {vF : List Nat} {extra : Nat} (l : List (Nat × Nat)) (s : State)
    (hf : ∀ p ∈ l, ∀ q ∈ l, p.2 = q.2 → p = q) (hnd : s.heap.Nodup) :
    let r := l.foldl (feed vF extra) s
    r.saturated = s.saturated ∧ r.marked = s.marked ∧ r.rootFeeding = s.rootFeeding ∧ r.rootLen = s.rootLen ∧
      (∀ x ix, ix ∈ r.feeding x ↔ ix ∈ s.feeding x ∨ (∃ p ∈ l, p.2 = x) ∧ ix ∈ vF) ∧
      (∀ x, r.rate x ≠ 0 → s.rate x ≠ 0 ∨ ∃ p ∈ l, p.2 = x) ∧
      (∀ f, f ∈ r.heap → f ∈ s.heap ∨ ∃ p ∈ l, p.1 = f) ∧ (∀ f ∈ s.heap, f ∈ r.heap) ∧
      (∀ p ∈ l, s.rate p.2 = 0 → p.1 ∈ r.heap) ∧ r.heap.Nodup := by
  induction l generalizing s with
  | nil => simp [hnd]
  | cons p l ih =>
    have hnd' : (feed vF extra s p).heap.Nodup := by
      unfold feed; simp only; split
      · exact nodup_put hnd
      · exact hnd
    obtain ⟨h1, h2, h3, h3', h4, h5, h6, h7, h8, h9⟩ := ih (feed vF extra s p)
      (fun a ha b hb => hf a (by simp [ha]) b (by simp [hb])) hnd'
    simp only [List.foldl_cons]
    have hfeed : ∀ x ix, ix ∈ (feed vF extra s p).feeding x ↔ ix ∈ s.feeding x ∨ p.2 = x ∧ ix ∈ vF := by
      intro x ix
      unfold feed upd
      simp only
      split
      · next hx => subst hx; rw [mem_union]; simp
      · next hx => simp [Ne.symm hx]
    have hheap : ∀ f, f ∈ (feed vF extra s p).heap ↔ f ∈ s.heap ∨ s.rate p.2 = 0 ∧ f = p.1 := by
      intro f
      unfold feed
      simp only
      split
      · next h0 => rw [mem_put]; simp [h0]; exact or_comm
      · next h0 => simp [h0]
    refine ⟨h1, h2, h3, h3', ?_, ?_, ?_, ?_, ?_, h9⟩
    · intro x ix
      rw [h4, hfeed]
      simp only [List.mem_cons, exists_eq_or_imp]
      grind
    · intro x hx
      rcases h5 x hx with h | ⟨q, hq, hqx⟩
      · by_cases hpx : p.2 = x
        · exact Or.inr ⟨p, by simp, hpx⟩
        · left
          unfold feed upd at h
          simpa [Ne.symm hpx] using h
      · exact Or.inr ⟨q, by simp [hq], hqx⟩
    · intro f hfm
      rcases h6 f hfm with h | ⟨q, hq, hqf⟩
      · rcases (hheap f).1 h with h | ⟨-, rfl⟩
        · exact Or.inl h
        · exact Or.inr ⟨p, by simp, rfl⟩
      · exact Or.inr ⟨q, by simp [hq], hqf⟩
    · intro f hfm
      exact h7 f ((hheap f).2 (Or.inl hfm))
    · intro q hq hq0
      rcases List.mem_cons.1 hq with rfl | hq'
      · exact h7 _ ((hheap _).2 (Or.inr ⟨hq0, rfl⟩))
      · by_cases hqp : q.2 = p.2
        · have := hf q hq p (by simp) hqp
          subst this
          exact h7 _ ((hheap _).2 (Or.inr ⟨hq0, rfl⟩))
        · refine h8 q hq' ?_
          unfold feed upd
          simpa [hqp] using hq0

theorem closed_path (h : Inv g T A t s) {a b : Nat} (hp : Path g s.saturated a b) (ha : a ∈ t.nodes) : b ∈ t.nodes := by
  induction hp with
  | refl => exact ha
  | step he _ ih => exact ih (h.closed _ he ha)

/-- The edge saturates. -/
theorem Inv.saturate (h : Inv g T A t s) (he : e ∈ s.heap) (hv : g.dst e ∉ t.nodes) (hu : g.src e ∉ t.nodes)
    {n : Nat} {l : List (Nat × Nat)}
    (hd : detect g (popped s e) ((popped s e).feeding (g.dst e)) n [g.src e] [] = some (some l)) :
    Inv g T A t (pushNext g (g.dst e) (Verif.Flac.saturate e (g.dst e) l (popped s e))) := by
  obtain ⟨h1, h2, h3, h4, h5, h6, h7, h8⟩ := h.top he
  obtain ⟨hx, harb, ix0, n0, hix0, hA0, hT0, hP0⟩ := h.head he hv
  obtain ⟨d1, d2⟩ := detect_some (s := popped s e) h.satLen hd
  have d1 : ∀ y, Path g s.saturated y (g.src e) → ∀ ix ∈ s.feeding (g.dst e), ix ∉ s.feeding y := fun y hp =>
    disjoint_iff.1 (d1 _ (by simp) y hp)
  have d2 : ∀ p : Nat × Nat, p ∈ l ↔ findNext g (put e s.marked) p.2 = some p.1 ∧ Path g s.saturated p.2 (g.src e) := by
    intro p
    rw [d2 p]
    simp [popped]
  have hvu : ¬ Path g s.saturated (g.dst e) (g.src e) := fun hp => d1 _ hp ix0 hix0 hix0
  have huv : g.src e ≠ g.dst e := fun h => hvu (h ▸ .refl _)
  have hlf : ∀ p ∈ l, ∀ q ∈ l, p.2 = q.2 → p = q := by
    intro p hp q hq hpq
    have a1 := ((d2 p).1 hp).1
    have a2 := ((d2 q).1 hq).1
    rw [hpq, a2] at a1
    exact Prod.ext (Option.some.inj a1).symm hpq
  have hlv : ∀ p ∈ l, p.2 ≠ g.dst e := fun p hp hpv => hvu (hpv ▸ ((d2 p).1 hp).2)
  -- the state
  let s0 : State := { popped s e with saturated := put e s.saturated, feeding := upd s.feeding (g.dst e) [] }
  obtain ⟨f1, f2, f3, -, f4, f5, f6, f7, f8, f9⟩ := feed_fold (vF := s.feeding (g.dst e)) (extra := s.rate (g.dst e)) l s0 hlf
    (h.heapNodup.erase _)
  generalize hr : l.foldl (feed (s.feeding (g.dst e)) (s.rate (g.dst e))) s0 = r at f1 f2 f3 f4 f5 f6 f7 f8 f9
  have hsat : Verif.Flac.saturate e (g.dst e) l (popped s e) = { r with feeding := upd r.feeding (g.dst e) (s.feeding (g.dst e)) } := by
    rw [← hr]; rfl
  rw [hsat]
  have hfeed : ∀ x ix, ix ∈ upd r.feeding (g.dst e) (s.feeding (g.dst e)) x ↔
      ix ∈ s.feeding x ∨ (∃ p ∈ l, p.2 = x) ∧ ix ∈ s.feeding (g.dst e) := by
    intro x ix
    by_cases hxv : x = g.dst e
    · rw [hxv, upd_same]
      constructor
      · exact Or.inl
      · rintro (h | ⟨-, h⟩) <;> exact h
    · rw [upd_ne hxv, f4]
      have : s0.feeding x = s.feeding x := upd_ne hxv
      rw [this]
  have hgrow : ∀ x, s.feeding x ≠ [] → upd r.feeding (g.dst e) (s.feeding (g.dst e)) x ≠ [] := by
    intro x hne
    obtain ⟨ix, hix⟩ := List.exists_mem_of_ne_nil _ hne
    exact List.ne_nil_of_mem ((hfeed x ix).2 (Or.inl hix))
  have htarget : ∀ x, findNext g (put e s.marked) x ≠ none → ((∃ p ∈ l, p.2 = x) ↔ Path g s.saturated x (g.src e)) := by
    intro x hne
    constructor
    · rintro ⟨p, hp, rfl⟩; exact ((d2 p).1 hp).2
    · intro hp
      obtain ⟨k, hk⟩ := Option.ne_none_iff_exists'.1 hne
      exact ⟨(k, x), (d2 (k, x)).2 ⟨hk, hp⟩, rfl⟩
  have htfed : ∀ x, (∃ p ∈ l, p.2 = x) → upd r.feeding (g.dst e) (s.feeding (g.dst e)) x ≠ [] :=
    fun x hx => List.ne_nil_of_mem ((hfeed x ix0).2 (Or.inr ⟨hx, hix0⟩))
  -- the pushed edge
  generalize hs' : pushNext g (g.dst e) { r with feeding := upd r.feeding (g.dst e) (s.feeding (g.dst e)) } = s'
  have hm : s'.marked = put e s.marked ∧ s'.saturated = put e s.saturated ∧
      s'.feeding = upd r.feeding (g.dst e) (s.feeding (g.dst e)) ∧ s'.rate = r.rate ∧ s'.rootFeeding = s.rootFeeding := by
    rw [← hs']
    unfold pushNext; split <;> exact ⟨f2, f1, rfl, rfl, f3⟩
  obtain ⟨m1, m2, m3, m4, m5⟩ := hm
  have hheap : (∀ f, f ∈ s'.heap → f ∈ r.heap ∨ findNext g (put e s.marked) (g.dst e) = some f) ∧
      (∀ f ∈ r.heap, f ∈ s'.heap) ∧ s'.heap.Nodup ∧
      (∀ f, findNext g (put e s.marked) (g.dst e) = some f → f ∈ s'.heap) := by
    have hmm : findNext g { r with feeding := upd r.feeding (g.dst e) (s.feeding (g.dst e)) }.marked (g.dst e) =
        findNext g (put e s.marked) (g.dst e) := by rw [show ({ r with feeding := upd r.feeding (g.dst e) (s.feeding (g.dst e)) } : State).marked = put e s.marked from f2]
    rw [← hs']
    unfold pushNext
    rw [hmm]
    cases hn : findNext g (put e s.marked) (g.dst e) with
    | none => exact ⟨fun f => Or.inl, fun f => id, f9, by simp⟩
    | some k =>
      refine ⟨fun f hf => ?_, fun f hf => mem_put.2 (Or.inr hf), nodup_put f9, fun f hf => ?_⟩
      · rcases mem_put.1 hf with rfl | hf
        · exact Or.inr rfl
        · exact Or.inl hf
      · exact mem_put.2 (Or.inl (Option.some.inj hf).symm)
  obtain ⟨hh1, hh2, hh3, hh4⟩ := hheap
  have hheap0 : ∀ f, f ∈ s0.heap ↔ f ≠ e ∧ f ∈ s.heap := fun f => mem_erase_nodup h.heapNodup
  have hnx : ∀ f ∈ s'.heap, findNext g (put e s.marked) (g.dst f) = some f ∧
      upd r.feeding (g.dst e) (s.feeding (g.dst e)) (g.dst f) ≠ [] := by
    intro f hf
    rcases hh1 f hf with hf | hf
    · rcases f6 f hf with hf | ⟨p, hp, rfl⟩
      · obtain ⟨hfe, hfh⟩ := (hheap0 f).1 hf
        have hdf : g.dst f ≠ g.dst e := fun hd => hfe (h7 f hfh hd)
        rw [h6 _ hdf]
        exact ⟨h.heapNext f hfh, hgrow _ (h.heapFed f hfh)⟩
      · have hp' := ((d2 p).1 hp).1
        obtain ⟨-, hpd, -⟩ := findNext_some hp'
        rw [hpd]
        exact ⟨hp', htfed _ ⟨p, hp, rfl⟩⟩
    · obtain ⟨-, hpd, -⟩ := findNext_some hf
      rw [hpd]
      exact ⟨hf, hgrow _ h4⟩
  constructor
  · rw [m1, m2]; intro f hf
    rcases mem_put.1 hf with rfl | hf
    · exact mem_put.2 (Or.inl rfl)
    · exact mem_put.2 (Or.inr (h.satMark f hf))
  · rw [m1]; intro f hf
    rcases mem_put.1 hf with rfl | hf
    · exact h1
    · exact h.markLen f hf
  · rw [m1]; intro f hf
    rcases mem_put.1 hf with rfl | hf
    · exact h3
    · exact h.markUse f hf
  · rw [m1]; exact fun f hf => (hnx f hf).1
  · rw [m3]; exact fun f hf => (hnx f hf).2
  · exact hh3
  · rw [m1, m3]
    intro x f hxt hfed hn
    by_cases hxe : x = g.dst e
    · rw [hxe] at hn; exact hh4 f hn
    · apply hh2
      have hfe : f ≠ e := by
        rintro rfl
        obtain ⟨-, hd, -⟩ := findNext_some hn
        exact hxe hd.symm
      by_cases hfx : s.feeding x = []
      · obtain ⟨ix, hix⟩ := List.exists_mem_of_ne_nil _ hfed
        rcases (hfeed x ix).1 hix with hix | ⟨⟨p, hp, rfl⟩, -⟩
        · rw [hfx] at hix; simp at hix
        · have hpf : p.1 = f := by
            have := ((d2 p).1 hp).1
            rw [hn] at this
            exact (Option.some.inj this).symm
          rw [← hpf]
          refine f8 p hp ?_
          show s.rate p.2 = 0
          apply Classical.byContradiction
          intro hr0
          exact h.rateFed _ hr0 hfx
      · rw [h6 x hxe] at hn
        exact f7 f ((hheap0 f).2 ⟨hfe, h.fedHeap x f hxt hfx hn⟩)
  · rw [m3, m4]
    intro x hr0
    rcases f5 x hr0 with hr1 | hx1
    · exact hgrow _ (h.rateFed x hr1)
    · exact htfed x hx1
  · rw [m1, m3]; intro f hf
    rcases mem_put.1 hf with rfl | hf
    · exact hgrow _ h4
    · exact hgrow _ (h.markFed f hf)
  · rw [m1, m3]; intro f hf hdf hsf hin
    rcases mem_put.1 hf with rfl | hf
    · by_cases hnu : findNext g (put f s.marked) (g.src f) = none
      · obtain ⟨i, hi, hdi, hwi⟩ := hin
        have him : i ∈ put f s.marked := by
          apply Classical.byContradiction
          intro him
          have := findNext_none hnu i hi hdi him
          omega
        rcases mem_put.1 him with rfl | him
        · exact absurd hdi.symm huv
        · rw [← hdi]; exact hgrow _ (h.markFed i him)
      · exact htfed _ ((htarget _ hnu).2 (.refl _))
    · exact hgrow _ (h.markSrc f hf hdf hsf hin)
  · rw [m1]; intro f hf i hi hdi him
    rw [mem_put, not_or] at him
    rcases mem_put.1 hf with rfl | hf
    · exact h5 i hi hdi him.2
    · exact h.markMin f hf i hi hdi him.2
  · rw [m3]; exact fun ix n ha ht hin => hgrow _ (h.termFed ix n ha ht hin)
  · rw [m1, m2, m3]
    intro x hxt hn ix
    rw [hfeed, h.exact x hxt (h8 x hn) ix, htarget x hn, hx ix]
    constructor
    · rintro (⟨ha, n, ht, hp⟩ | ⟨hp, ha, n, ht, hq⟩)
      · exact ⟨ha, n, ht, path_put.2 (Or.inl hp)⟩
      · exact ⟨ha, n, ht, path_put.2 (Or.inr ⟨hp, hq⟩)⟩
    · rintro ⟨ha, n, ht, hp⟩
      rcases path_put.1 hp with hp | ⟨hp, hq⟩
      · exact Or.inl ⟨ha, n, ht, hp⟩
      · exact Or.inr ⟨hp, ha, n, ht, hq⟩
  · rw [m1, m2]
    intro x hxt hn a ha b hb hpa hpb hab
    have hexx := h.exact x hxt (h8 x hn)
    have harx := h.arb x hxt (h8 x hn)
    -- nothing is reached both from `x` and from `v`
    have hsep : Path g s.saturated x (g.src e) → ∀ z, Path g s.saturated x z → Path g s.saturated (g.dst e) z →
        (z = g.dst e ∨ ∃ f ∈ s.saturated, g.dst f = z) → False := by
      intro hxu z hz1 hz2 hz3
      have : ∃ ix n, A ix ∧ T[ix]? = some n ∧ Path g s.saturated z n := by
        rcases hz3 with rfl | ⟨f, hf, rfl⟩
        · exact ⟨ix0, n0, hA0, hT0, hP0⟩
        · exact h.satTerm f hf
      obtain ⟨ix, n, hA, hT, hP⟩ := this
      exact d1 x hxu ix ((hx ix).2 ⟨hA, n, hT, hz2.trans hP⟩) ((hexx ix).2 ⟨hA, n, hT, hz1.trans hP⟩)
    have key : ∀ a b, a ∈ put e s.saturated → b ∈ put e s.saturated → Path g (put e s.saturated) x (g.src a) →
        Path g (put e s.saturated) x (g.src b) → g.dst a = g.dst b → b ∈ s.saturated → a = b := by
      intro a b ha hb hpa hpb hab hbs
      rw [path_put] at hpa hpb
      rcases mem_put.1 ha with rfl | has
      · exfalso
        have hxu : Path g s.saturated x (g.src a) := hpa.elim id And.left
        rcases hpb with hpb | ⟨-, hpb⟩
        · exact hsep hxu _ (hpb.trans (.edge hbs)) (hab ▸ .refl _) (Or.inl hab.symm)
        · exact h.acyc b hbs (by rw [← hab]; exact hpb)
      · rcases hpa with hpa | ⟨hxu, hpa⟩ <;> rcases hpb with hpb | ⟨hxu', hpb⟩
        · exact harx a has b hbs hpa hpb hab
        · exact absurd (hsep hxu' _ (hpa.trans (.edge has)) (by rw [hab]; exact hpb.trans (.edge hbs)) (Or.inr ⟨a, has, rfl⟩)) id
        · exact absurd (hsep hxu _ (hpb.trans (.edge hbs)) (by rw [← hab]; exact hpa.trans (.edge has)) (Or.inr ⟨b, hbs, rfl⟩)) id
        · exact harb a has b hbs hpa hpb hab
    rcases mem_put.1 hb with rfl | hbs
    · rcases mem_put.1 ha with rfl | has
      · rfl
      · exact (key b a hb ha hpb hpa hab.symm has).symm
    · exact key a b ha hb hpa hpb hab hbs
  · rw [m2]; exact acyc_put h.acyc hvu
  · rw [m2]; intro f hf
    rcases mem_put.1 hf with rfl | hf
    · exact ⟨ix0, n0, hA0, hT0, path_put.2 (Or.inl hP0)⟩
    · obtain ⟨ix, n, a1, a2, a3⟩ := h.satTerm f hf
      exact ⟨ix, n, a1, a2, path_put.2 (Or.inl a3)⟩
  · rw [m2]; intro f hf hsf
    rcases mem_put.1 hf with rfl | hf
    · exact absurd hsf hu
    · exact h.closed f hf hsf
  · rw [m2, m5]; intro f hf hdf ix n ha ht hp
    rcases mem_put.1 hf with rfl | hf
    · exact absurd hdf hv
    · rcases path_put.1 hp with hp | ⟨hp, -⟩
      · exact h.treeSat f hf hdf ix n ha ht hp
      · exact absurd (closed_path h hp hdf) hu

end

end Verif.Flac
