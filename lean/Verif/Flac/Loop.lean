import Verif.Flac.Run
/-!
# The loop of a run
-/
namespace Verif.Flac

section
variable {g : Graph}

/-- While `t0` with the fed terminals of `s0` has grown to `t` with those of `s`. -/
structure Grown (g : Graph) (t0 : Tree) (s0 : State) (t : Tree) (s : State) : Prop where
  ext : Ext g t0 t
  ends : Ends g t
  keep : ∀ ix ∈ s0.rootFeeding, ix ∈ s.rootFeeding
  fed : ∀ ix ∈ s.rootFeeding, ix ∉ s0.rootFeeding → ∃ n, t0.terminals[ix]? = some n ∧ n ∈ t.nodes ∧ n ∉ t0.nodes
  out : ∀ ix n, t0.terminals[ix]? = some n → ix ∉ s.rootFeeding → n ∈ t.nodes → n ∈ t0.nodes
  sat0 : ∀ e ∈ s.saturated, g.dst e ∉ t0.nodes

/-- Nothing was found so far. -/
def Idle (g : Graph) (t0 : Tree) (s0 : State) (t : Tree) (s : State) : Prop :=
  t = t0 ∧ s.rootFeeding = s0.rootFeeding ∧ ∀ e ∈ s.marked, g.dst e ∉ t.nodes → g.src e ∉ t.nodes

/-- A terminal was reached. -/
def Fed (s0 s : State) : Prop := ∃ ix ∈ s.rootFeeding, ix ∉ s0.rootFeeding

theorem upd_iff {inner : Nat} {t : Tree} {s : State} {e : Nat} {c : Ctl} {s' : State} :
    update g inner t { s with heap := s.heap.erase e } e = some (c, s') ↔
      (g.dst e ∈ t.nodes ∧ c = .continue ∧ s' = popped s e) ∨
      (g.dst e ∉ t.nodes ∧ g.src e ∈ t.nodes ∧ disjoint s.rootFeeding (s.feeding (g.dst e)) = true ∧ c = .found (g.dst e) ∧
        s' = { popped s e with rootFeeding := union s.rootFeeding (s.feeding (g.dst e)) }) ∨
      (g.dst e ∉ t.nodes ∧ g.src e ∈ t.nodes ∧ disjoint s.rootFeeding (s.feeding (g.dst e)) = false ∧ c = .break ∧ s' = popped s e) ∨
      (g.dst e ∉ t.nodes ∧ g.src e ∉ t.nodes ∧ detect g (popped s e) ((popped s e).feeding (g.dst e)) inner [g.src e] [] = some none ∧
        c = .continue ∧ s' = pushNext g (g.dst e) (popped s e)) ∨
      ∃ l, g.dst e ∉ t.nodes ∧ g.src e ∉ t.nodes ∧ detect g (popped s e) ((popped s e).feeding (g.dst e)) inner [g.src e] [] = some (some l) ∧
        c = .continue ∧ s' = pushNext g (g.dst e) (saturate e (g.dst e) l (popped s e)) := by
  have hu : update g inner t { s with heap := s.heap.erase e } e =
      (if t.nodes.contains (g.dst e) then some (.continue, popped s e)
       else if t.nodes.contains (g.src e) then
         if disjoint s.rootFeeding (s.feeding (g.dst e)) then
           some (.found (g.dst e), { popped s e with rootFeeding := union s.rootFeeding (s.feeding (g.dst e)) })
         else some (.break, popped s e)
       else
         match detect g (popped s e) ((popped s e).feeding (g.dst e)) inner [g.src e] [] with
         | none => none
         | some none => some (.continue, pushNext g (g.dst e) (popped s e))
         | some (some l) => some (.continue, pushNext g (g.dst e) (saturate e (g.dst e) l (popped s e)))) := rfl
  rw [hu]
  generalize popped s e = p
  generalize ({ p with rootFeeding := union s.rootFeeding (s.feeding (g.dst e)) } : State) = q
  have sw : ∀ {a : Ctl} {b : State}, some (a, b) = some (c, s') ↔ c = a ∧ s' = b := by
    intro a b
    rw [Option.some.injEq, Prod.mk.injEq, eq_comm, @eq_comm _ b]
  by_cases hv : g.dst e ∈ t.nodes
  · rw [if_pos (by simpa using hv), sw]
    simp [hv]
  · rw [if_neg (by simpa using hv)]
    by_cases hu : g.src e ∈ t.nodes
    · rw [if_pos (by simpa using hu)]
      cases hd : disjoint s.rootFeeding (s.feeding (g.dst e))
      · rw [if_neg (by simp), sw]; simp [hv, hu]
      · rw [if_pos rfl, sw]; simp [hv, hu]
    · rw [if_neg (by simpa using hu)]
      cases hd : detect g p (p.feeding (g.dst e)) inner [g.src e] [] with
      | none => simp [hv, hu]
      | some r =>
        cases r with
        | none => simp only [sw]; simp [hv, hu]
        | some l => simp only [sw]; simp [hv, hu]

variable {t0 t t' : Tree} {s0 s s' : State} {e inner : Nat}

theorem Grown.found (h : Grown g t0 s0 t s) (hi : Inv g t0.terminals (Act s0) t s) (he : e ∈ s.heap) (hv : g.dst e ∉ t.nodes)
    (hu : g.src e ∈ t.nodes) (hd : disjoint s.rootFeeding (s.feeding (g.dst e)) = true)
    (hs : subtree g s.saturated inner [g.dst e] (addEdge g t e) = some t') :
    let s' := { popped s e with rootFeeding := union s.rootFeeding (s.feeding (g.dst e)) }
    Grown g t0 s0 t' s' ∧ Inv g t0.terminals (Act s0) t' s' ∧ Fed s0 s' := by
  have hT := h.ext.terminals.1
  obtain ⟨h1, h2, h3⟩ := found_ext (A := Act s0) (hT.symm ▸ hi) he hv hu hd h.ends hs
  have hx := (hi.head he hv).1
  refine ⟨⟨h.ext.trans h1, h2, fun ix hix => mem_union.2 (Or.inl (h.keep ix hix)), ?_, ?_, h.sat0⟩, hi.found he hv h3, ?_⟩
  · intro ix hix hn
    rcases mem_union.1 hix with hix | hix
    · obtain ⟨n, a, b, c⟩ := h.fed ix hix hn
      exact ⟨n, a, (h3 n).2 (Or.inl b), c⟩
    · obtain ⟨-, n, a, b⟩ := (hx ix).1 hix
      refine ⟨n, a, (h3 n).2 (Or.inr b), fun hn0 => ?_⟩
      rcases b.last with rfl | ⟨f, hf, rfl, -⟩
      · exact hv (h.ext.nodes _ hn0)
      · exact h.sat0 f hf hn0
  · intro ix n hn hix hm
    have hix' : ¬ (ix ∈ s.rootFeeding ∨ ix ∈ s.feeding (g.dst e)) := fun h => hix (mem_union.2 h)
    rw [not_or] at hix'
    rcases (h3 n).1 hm with hm | hm
    · exact h.out ix n hn hix'.1 hm
    · exact absurd ((hx ix).2 ⟨fun hk => hix'.1 (h.keep ix hk), n, hn, hm⟩) hix'.2
  · obtain ⟨-, -, ix, n, a, b, -⟩ := hi.head he hv
    exact ⟨ix, mem_union.2 (Or.inr a), b⟩

theorem Inv.degenerate (hi : Inv g t0.terminals (Act s0) t s) (he : e ∈ s.heap)
    (hd : detect g (popped s e) ((popped s e).feeding (g.dst e)) inner [g.src e] [] = some none) : s.feeding (g.src e) ≠ [] := by
  obtain ⟨x, hx, y, hp, hdj⟩ := detect_none (s := popped s e) hi.satLen hd
  simp only [List.mem_singleton] at hx
  subst hx
  have hp : Path g s.saturated y (g.src e) := hp
  rcases hp.last with rfl | ⟨f, hf, hfd, -⟩
  · intro h0
    have h0' : (popped s e).feeding (g.src e) = [] := h0
    rw [h0'] at hdj
    simp [disjoint] at hdj
  · rw [← hfd]; exact hi.markFed f (hi.satMark f hf)

/-- A step that goes on, without a subtree. -/
theorem step_continue (h : Grown g t0 s0 t s) (hi : Inv g t0.terminals (Act s0) t s) (he : e ∈ s.heap)
    (hpr : Idle g t0 s0 t s ∨ Fed s0 s)
    (hu : update g inner t { s with heap := s.heap.erase e } e = some (.continue, s')) :
    Grown g t0 s0 t s' ∧ Inv g t0.terminals (Act s0) t s' ∧ (Idle g t0 s0 t s' ∨ Fed s0 s') ∧ s'.rootLen = s.rootLen ∧
      s'.marked = put e s.marked := by
  have hpush : ∀ v (s : State), (pushNext g v s).rootFeeding = s.rootFeeding ∧ (pushNext g v s).rootLen = s.rootLen ∧ (pushNext g v s).marked = s.marked ∧ (pushNext g v s).saturated = s.saturated := by
    intro v s; unfold pushNext; split <;> exact ⟨rfl, rfl, rfl, rfl⟩
  have hfeed : ∀ vF ex (l : List (Nat × Nat)) (s : State), (l.foldl (feed vF ex) s).rootFeeding = s.rootFeeding ∧ (l.foldl (feed vF ex) s).rootLen = s.rootLen ∧
      (l.foldl (feed vF ex) s).marked = s.marked ∧ (l.foldl (feed vF ex) s).saturated = s.saturated := by
    intro vF ex l
    induction l with
    | nil => intro s; exact ⟨rfl, rfl, rfl, rfl⟩
    | cons p l ih => intro s; simpa [feed] using ih (feed vF ex s p)
  have fin : Inv g t0.terminals (Act s0) t s' → s'.rootFeeding = s.rootFeeding → s'.marked = put e s.marked → s'.rootLen = s.rootLen →
      (∀ f ∈ s'.saturated, f ∈ s.saturated ∨ g.dst f ∉ t.nodes) → (g.dst e ∈ t.nodes ∨ g.src e ∉ t.nodes) →
      Grown g t0 s0 t s' ∧ Inv g t0.terminals (Act s0) t s' ∧ (Idle g t0 s0 t s' ∨ Fed s0 s') ∧ s'.rootLen = s.rootLen ∧
      s'.marked = put e s.marked := by
    intro a1 a2 a3 a4 a6 a5
    refine ⟨⟨h.ext, h.ends, a2 ▸ h.keep, a2 ▸ h.fed, a2 ▸ h.out, fun f hf hd =>
      (a6 f hf).elim (fun h' => h.sat0 f h' hd) fun h' => h' (h.ext.nodes _ hd)⟩, a1, ?_, a4, a3⟩
    rcases hpr with ⟨b1, b2, b3⟩ | hf
    · left
      refine ⟨b1, a2.trans b2, ?_⟩
      rw [a3]
      intro f hf hd
      rcases mem_put.1 hf with rfl | hf
      · exact a5.resolve_left hd
      · exact b3 f hf hd
    · right; unfold Fed; rw [a2]; exact hf
  rcases upd_iff.1 hu with ⟨a, -, rfl⟩ | ⟨-, -, -, c, -⟩ | ⟨-, -, -, c, -⟩ | ⟨a, b, c, -, rfl⟩ | ⟨l, a, b, c, -, rfl⟩
  · exact fin (hi.pop he (fun hn => absurd a hn) (Or.inl ⟨rfl, a⟩)) rfl rfl rfl (fun _ => Or.inl) (Or.inl a)
  · cases c
  · cases c
  · obtain ⟨p1, p2, p3, p4⟩ := hpush (g.dst e) (popped s e)
    exact fin (hi.pop he (fun _ _ _ => hi.degenerate he c) (Or.inr rfl)) p1 p3 p2 (fun f hf => Or.inl (p4 ▸ hf)) (Or.inr b)
  · obtain ⟨p1, p2, p3, p4⟩ := hpush (g.dst e) (saturate e (g.dst e) l (popped s e))
    obtain ⟨q1, q2, q3, q4⟩ := hfeed ((popped s e).feeding (g.dst e)) ((popped s e).rate (g.dst e)) l
      { popped s e with saturated := put e (popped s e).saturated, feeding := upd (popped s e).feeding (g.dst e) [] }
    exact fin (hi.saturate he a b c) (p1.trans q1) (p3.trans q3) (p2.trans q2)
      (fun f hf => by
        have hq : (pushNext g (g.dst e) (saturate e (g.dst e) l (popped s e))).saturated = put e s.saturated := p4.trans q4
        have hf' : f ∈ put e s.saturated := by rw [← hq]; exact hf
        rcases mem_put.1 hf' with rfl | h'
        · exact Or.inr a
        · exact Or.inl h') (Or.inr b)

/-- The loop stopped with nothing left. -/
theorem idle_end (hi : Inv g t0.terminals (Act s0) t s) (h0 : Idle g t0 s0 t s) (hh : s.heap = []) {ix n a : Nat} (hn : t0.terminals[ix]? = some n)
    (hix : ix ∉ s0.rootFeeding) (hnt : n ∉ t0.nodes) (ha : a ∈ t0.nodes) (hp : Path g g.usable a n) : False := by
  obtain ⟨rfl, hr, hc⟩ := h0
  have husable : ∀ i, i ∈ g.usable ↔ i < g.edges.length ∧ g.weight i < 65535 := by intro i; simp [Graph.usable]
  have hin : ∀ {x}, Path g g.usable a x → x ∉ t.nodes → HasIn g x := by
    intro x hx hxt
    rcases hx.last with rfl | ⟨i, hi', hd, -⟩
    · exact absurd ha hxt
    · exact ⟨i, ((husable i).1 hi').1, hd, ((husable i).1 hi').2⟩
  have key : n ∉ t.nodes → s.feeding n = [] := by
    refine hp.snocInd (P := fun x => x ∉ t.nodes → s.feeding x = []) (fun h => absurd ha h) ?_
    intro i hiu hpi ih hx
    apply Classical.byContradiction
    intro hf
    have him : i ∈ s.marked := by
      apply Classical.byContradiction
      intro him
      obtain ⟨k, hk⟩ := findNext_usable ((husable i).1 hiu).1 rfl him ((husable i).1 hiu).2
      have := hi.fedHeap _ k hx hf hk
      rw [hh] at this; simp at this
    have hs := hc i him hx
    exact hi.markSrc i him hx hs (hin hpi hs) (ih hs)
  exact hi.termFed ix n hix hn (hin hp hnt) (key hnt)

/-- What a run that ended has done. -/
theorem loop_grown {pick : Nat → Nat} : ∀ {n : Nat} {t : Tree} {s : State}, Grown g t0 s0 t s → Inv g t0.terminals (Act s0) t s →
    (Idle g t0 s0 t s ∨ Fed s0 s) → loop g inner pick n t s = some (t', s') →
    Grown g t0 s0 t' s' ∧ s'.rootLen = s.rootLen ∧
      (Fed s0 s' ∨ t' = t0 ∧ s'.rootFeeding = s0.rootFeeding ∧ ∀ ix n, t0.terminals[ix]? = some n → ix ∉ s0.rootFeeding → n ∉ t0.nodes →
        ¬ ∃ a ∈ t0.nodes, Path g g.usable a n) := by
  intro n
  have fin : ∀ {t s}, Grown g t0 s0 t s → Inv g t0.terminals (Act s0) t s → (Idle g t0 s0 t s ∨ Fed s0 s) → s.heap = [] →
      (Fed s0 s ∨ t = t0 ∧ s.rootFeeding = s0.rootFeeding ∧ ∀ ix n, t0.terminals[ix]? = some n → ix ∉ s0.rootFeeding → n ∉ t0.nodes →
        ¬ ∃ a ∈ t0.nodes, Path g g.usable a n) := by
    intro t s _ h2 h3 h4
    rcases h3 with h3 | h3
    · refine Or.inr ⟨h3.1, h3.2.1, ?_⟩
      rintro ix n a b c ⟨d, e, f⟩
      exact idle_end h2 h3 h4 a b c e f
    · exact Or.inl h3
  induction n with
  | zero =>
    intro t s h1 h2 h3 h
    unfold loop at h
    split at h
    · next hh => cases h; exact ⟨h1, rfl, fin h1 h2 h3 hh⟩
    · cases h
  | succ n ih =>
    intro t s h1 h2 h3 h
    rw [loop.eq_def] at h
    simp only at h
    split at h
    · next hn =>
      cases h
      refine ⟨h1, rfl, fin h1 h2 h3 ?_⟩
      apply Classical.byContradiction
      intro hne
      have := Nat.mod_lt (pick n) (List.length_pos_iff.2 hne)
      rw [List.getElem?_eq_none_iff] at hn
      omega
    · next e he =>
      rw [eraseIdx_eq_erase h2.heapNodup he] at h
      have hem := List.mem_of_getElem? he
      split at h
      · cases h
      · next s2 hu =>
        cases h
        rcases upd_iff.1 hu with ⟨_, c, _⟩ | ⟨-, -, -, c, -⟩ | ⟨a, b, c, -, rfl⟩ | ⟨_, _, _, c, _⟩ | ⟨l, _, _, _, c, _⟩
        · cases c
        · cases c
        · refine ⟨⟨h1.ext, h1.ends, h1.keep, h1.fed, h1.out, h1.sat0⟩, rfl, Or.inl ?_⟩
          have : ¬ ∀ x ∈ s.rootFeeding, x ∉ s.feeding (g.dst e) := by rw [← disjoint_iff, c]; simp
          apply Classical.byContradiction
          intro hf
          apply this
          intro x hx hx'
          exact hf ⟨x, hx, (((h2.head hem a).1 x).1 hx').1⟩
        · cases c
        · cases c
      · next s2 hu =>
        obtain ⟨b1, b2, b3, b4, -⟩ := step_continue h1 h2 hem h3 hu
        obtain ⟨c1, c2, c3⟩ := ih b1 b2 b3 h
        exact ⟨c1, c2.trans b4, c3⟩
      · next v s2 hu =>
        rcases upd_iff.1 hu with ⟨_, c, _⟩ | ⟨a1, a2, a3, c, rfl⟩ | ⟨a, b, _, c, _⟩ | ⟨_, _, _, c, _⟩ | ⟨l, _, _, _, c, _⟩
        · cases c
        · cases c
          split at h
          · cases h
          · next t2 ht2 =>
            obtain ⟨d1, d2, d3⟩ := h1.found h2 hem a1 a2 a3 ht2
            have r := ih d1 d2 (Or.inr d3) h
            exact ⟨r.1, r.2.1, r.2.2⟩
        · cases c
        · cases c
        · cases c

/-! ## The loop ends -/

/-- The edges not seen yet. -/
def rest (g : Graph) (m : List Nat) : Nat := ((List.range g.edges.length).filter fun e => !m.contains e).length

theorem filter_put_lt {m : List Nat} (l : List Nat) (e : Nat) (hl : l.Nodup) :
    (l.filter fun x => !(put e m).contains x).length ≤ (l.filter fun x => !m.contains x).length ∧
      (e ∈ l → e ∉ m → (l.filter fun x => !(put e m).contains x).length + 1 ≤ (l.filter fun x => !m.contains x).length) := by
  induction l with
  | nil => simp
  | cons x l ih =>
    rw [List.nodup_cons] at hl
    obtain ⟨h1, h2⟩ := ih hl.2
    have hc : (put e m).contains x = (decide (x = e) || m.contains x) := by
      rw [Bool.eq_iff_iff]; simp [mem_put]
    simp only [List.filter_cons, hc]
    by_cases hxe : x = e
    · subst hxe
      by_cases hm : x ∈ m
      · simpa [hm] using h1
      · have hm' : m.contains x = false := by simpa using hm
        simp only [decide_true, Bool.true_or, hm', Bool.not_false, Bool.not_true, if_true]
        simp only [Bool.false_eq_true, ↓reduceIte, List.length_cons]
        exact ⟨by omega, fun _ _ => by omega⟩
    · have hd : decide (x = e) = false := by simpa using hxe
      simp only [hd, Bool.false_or]
      have hne : e ≠ x := fun h => hxe h.symm
      cases m.contains x
      · simp only [Bool.not_false, if_true, List.length_cons, List.mem_cons, hne, false_or]
        exact ⟨by omega, fun a b => by have := h2 a b; omega⟩
      · simp only [Bool.not_true, Bool.false_eq_true, if_false, List.mem_cons, hne, false_or]
        exact ⟨h1, h2⟩

theorem rest_put {m : List Nat} (he : e < g.edges.length) (hm : e ∉ m) : rest g (put e m) + 1 ≤ rest g m :=
  (filter_put_lt _ e List.nodup_range).2 (by simpa using he) hm

theorem update_ends (hi : Inv g t0.terminals (Act s0) t s) (e : Nat) :
    ∃ N r, ∀ inner, N ≤ inner → update g inner t { s with heap := s.heap.erase e } e = some r := by
  by_cases hv : g.dst e ∈ t.nodes
  · exact ⟨0, _, fun i _ => upd_iff.2 (Or.inl ⟨hv, rfl, rfl⟩)⟩
  · by_cases hu : g.src e ∈ t.nodes
    · cases hd : disjoint s.rootFeeding (s.feeding (g.dst e))
      · exact ⟨0, _, fun i _ => upd_iff.2 (Or.inr (Or.inr (Or.inl ⟨hv, hu, hd, rfl, rfl⟩)))⟩
      · exact ⟨0, _, fun i _ => upd_iff.2 (Or.inr (Or.inl ⟨hv, hu, hd, rfl, rfl⟩))⟩
    · obtain ⟨N, r, hN⟩ := detect_ends (s := popped s e) hi.satLen hi.acyc ((popped s e).feeding (g.dst e)) (g.src e)
      cases r with
      | none => exact ⟨N, _, fun i h => upd_iff.2 (Or.inr (Or.inr (Or.inr (Or.inl ⟨hv, hu, hN i h, rfl, rfl⟩))))⟩
      | some l => exact ⟨N, _, fun i h => upd_iff.2 (Or.inr (Or.inr (Or.inr (Or.inr ⟨l, hv, hu, hN i h, rfl, rfl⟩))))⟩

theorem loop_ends {pick : Nat → Nat} : ∀ {n : Nat} {t : Tree} {s : State}, Grown g t0 s0 t s → Inv g t0.terminals (Act s0) t s →
    (Idle g t0 s0 t s ∨ Fed s0 s) → rest g s.marked ≤ n → ∃ N r, ∀ inner, N ≤ inner → loop g inner pick n t s = some r := by
  intro n
  induction n with
  | zero =>
    intro t s h1 h2 h3 h
    have : s.heap = [] := by
      apply Classical.byContradiction
      intro hne
      obtain ⟨e, he⟩ := List.exists_mem_of_ne_nil _ hne
      obtain ⟨a, b, -⟩ := h2.top he
      have := rest_put a b
      omega
    exact ⟨0, (t, s), fun i _ => by unfold loop; simp [this]⟩
  | succ n ih =>
    intro t s h1 h2 h3 h
    cases he : s.heap[pick n % s.heap.length]? with
    | none => exact ⟨0, (t, s), fun i _ => by rw [loop.eq_def]; simp [he]⟩
    | some e =>
      have hem := List.mem_of_getElem? he
      obtain ⟨a, b, -⟩ := h2.top hem
      have hrest := rest_put a b
      obtain ⟨N, ⟨c, s2⟩, hN⟩ := update_ends h2 e
      have hstep : ∀ inner, N ≤ inner → loop g inner pick (n + 1) t s =
          match c, s2 with
          | .break, s => some (t, s)
          | .continue, s => loop g inner pick n t s
          | .found v, s =>
            match subtree g s.saturated inner [v] (addEdge g t e) with
            | none => none
            | some t => loop g inner pick n t s := by
        intro inner hin
        rw [loop.eq_def]
        simp only [he, eraseIdx_eq_erase h2.heapNodup he, hN inner hin]
        cases c <;> rfl
      cases c with
      | «break» => exact ⟨N, (t, s2), fun i hi => by rw [hstep i hi]⟩
      | «continue» =>
        obtain ⟨b1, b2, b3, -, b5⟩ := step_continue h1 h2 hem h3 (hN N (Nat.le_refl _))
        obtain ⟨M, r, hM⟩ := ih b1 b2 b3 (by rw [b5]; omega)
        exact ⟨max N M, r, fun i hi => by rw [hstep i (by omega)]; exact hM i (by omega)⟩
      | found v =>
        rcases upd_iff.1 (hN N (Nat.le_refl _)) with ⟨_, c, _⟩ | ⟨a1, a2, a3, c, rfl⟩ | ⟨a, b, _, c, _⟩ | ⟨_, _, _, c, _⟩ | ⟨l, _, _, _, c, _⟩
        · cases c
        · cases c
          obtain ⟨M, t2, hM⟩ := subtree_ends (g := g) (sat := s.saturated) h2.satLen h2.acyc (g.dst e) (addEdge g t e)
          obtain ⟨d1, d2, d3⟩ := h1.found h2 hem a1 a2 a3 (hM M (Nat.le_refl _))
          obtain ⟨K, r, hK⟩ := ih d1 d2 (Or.inr d3) (by show rest g (put e s.marked) ≤ n; omega)
          refine ⟨max N (max M K), r, fun i hi => ?_⟩
          rw [hstep i (by omega)]
          have : subtree g { popped s e with rootFeeding := union s.rootFeeding (s.feeding (g.dst e)) }.saturated i [g.dst e] (addEdge g t e) = some t2 :=
            hM i (by omega)
          simp only [this]
          exact hK i (by omega)
        · cases c
        · cases c
        · cases c

end

end Verif.Flac
