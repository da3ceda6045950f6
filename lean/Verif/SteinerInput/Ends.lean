import Verif.SteinerInput.Plan
/-!
# Building the input ends
-/
namespace Verif.SteinerInput

open Verif.Flac Verif.Updater Verif.OpChecks

/-- Sum over the nodes. -/
def total (M : Nat) (f : Nat → Nat) : Nat := ((List.range M).map f).sum

theorem sum_le {l : List Nat} {f g : Nat → Nat} (h : ∀ n, f n ≤ g n) : (l.map f).sum ≤ (l.map g).sum := by
  induction l with
  | nil => simp
  | cons a l ih => simp only [List.map_cons, List.sum_cons]; have := h a; omega

theorem sum_drop {l : List Nat} {f g : Nat → Nat} {x c : Nat} (h : ∀ n, f n ≤ g n) (hx : x ∈ l) (hc : f x + c ≤ g x) :
    (l.map f).sum + c ≤ (l.map g).sum := by
  induction l with
  | nil => simp at hx
  | cons a l ih =>
    simp only [List.map_cons, List.sum_cons]
    rcases List.mem_cons.1 hx with rfl | hx
    · have := sum_le (l := l) h; omega
    · have := ih hx; have := h a; omega

theorem total_le {M : Nat} {f g : Nat → Nat} (h : ∀ n, f n ≤ g n) : total M f ≤ total M g := sum_le h

theorem total_drop {M : Nat} {f g : Nat → Nat} {x c : Nat} (h : ∀ n, f n ≤ g n) (hx : x < M) (hc : f x + c ≤ g x) : total M f + c ≤ total M g :=
  sum_drop h (List.mem_range.2 hx) hc

theorem sum_sublist {l l' : List Nat} {f : Nat → Nat} (h : l.Sublist l') : (l.map f).sum ≤ (l'.map f).sum := by
  induction h with
  | slnil => simp
  | cons a _ ih => simp only [List.map_cons, List.sum_cons]; omega
  | cons_cons a _ ih => simp only [List.map_cons, List.sum_cons]; omega

/-- Reached in so many steps. -/
inductive ReachIn (sp : Space) : Nat → Nat → Prop
  | root : ReachIn sp 0 sp.root
  | step {e k : Nat} : e ∈ sp.steps → ReachIn sp k (sp.src e) → ReachIn sp (k + 1) (sp.dst e)

theorem reachIn {sp : Space} {n : Nat} (h : Reach sp sp.steps n) : ∃ k, ReachIn sp k n := by
  induction h with
  | root => exact ⟨0, .root⟩
  | step he _ ih => obtain ⟨k, hk⟩ := ih; exact ⟨k + 1, .step he hk⟩

theorem least {P : Nat → Prop} (h : ∃ k, P k) : ∃ k, P k ∧ ∀ j, P j → k ≤ j := by
  obtain ⟨k, hk⟩ := h
  induction k using Nat.strongRecOn with
  | ind k ih =>
    by_cases hc : ∃ j < k, P j
    · obtain ⟨j, h1, h2⟩ := hc; exact ih j h1 h2
    · exact ⟨k, hk, fun j hj => Nat.le_of_not_lt fun hl => hc ⟨j, hl, hj⟩⟩

open Classical in
/-- The distance from the root. -/
noncomputable def dist (sp : Space) (n : Nat) : Nat := if h : ∃ k, ReachIn sp k n then Classical.choose (least h) else 0

theorem dist_lt {sp : Space} {n e : Nat} (h : Reach sp sp.steps n) (hr : n ≠ sp.root) (he : sp.incoming n = [e]) : dist sp (sp.src e) < dist sp n := by
  have h1 := reachIn h
  have h2 := (Classical.choose_spec (least h1)).1
  have e1 : dist sp n = Classical.choose (least h1) := by unfold dist; rw [dif_pos h1]
  rw [← e1] at h2
  generalize dist sp n = d at h2
  cases h2 with
  | root => exact absurd rfl hr
  | @step e' k hs hk =>
    have hin : e' ∈ sp.incoming (sp.dst e') := by
      simp only [Space.steps, List.mem_filter, List.mem_range] at hs
      exact mem_incoming.2 ⟨hs.1, rfl, hs.2⟩
    rw [he] at hin
    simp only [List.mem_singleton] at hin
    subst hin
    have h3 : ∃ k, ReachIn sp k (sp.src e') := ⟨k, hk⟩
    have e2 : dist sp (sp.src e') = Classical.choose (least h3) := by unfold dist; rw [dif_pos h3]
    have := (Classical.choose_spec (least h3)).2 k hk
    omega

variable {sp : Space} {x M : Nat} {ind : Bool} {b b' : B} {st : List Item} {term : Option Nat} {S P T : List Nat}

/-- The nodes that are looked at. -/
def Rel (sp : Space) (M n : Nat) : Prop := Reach sp sp.steps n ∧ n < M

/-- How many nodes are left. -/
def left (M : Nat) (b : B) : Nat := total M fun n => if b.map n = none then 1 else 0

/-- Cost of a node. -/
noncomputable def cost (sp : Space) : Nat := ((List.range sp.edges.length).map fun e => dist sp (sp.src e) + 1).sum + 1

noncomputable def load (sp : Space) (st : List Item) : Nat := (st.map fun it => dist sp it.node + 1).sum

/-- What can still be required, of the indispensable. -/
def phi (sp : Space) (M : Nat) (b : B) : Nat :=
  b.indisp.length + total M fun n => if b.map n = none ∧ n ∉ b.path.map Prod.fst then (sp.requires n).length else 0

/-- What can still be required, of the dispensable. -/
def psi (sp : Space) (M : Nat) (b : B) : Nat := b.disp.length + total M fun n => if b.map n = none then (sp.requires n).length else 0

theorem register_disp (m n : Nat) (l : List Nat) : (b.register sp m n l).disp.length = b.disp.length + l.length := by
  unfold B.register
  split
  · next h => simp [h]
  · dsimp only
    split <;> (simp only [List.length_append, List.length_reverse, (sortBy_perm _ _).length_eq]; omega)

theorem handle_left (m : Nat) (it : Item) : left M (b.handle m it) ≤ left M b ∧ phi sp M (b.handle m it) ≤ phi sp M b ∧ psi sp M (b.handle m it) ≤ psi sp M b := by
  obtain ⟨dep, es, em, he⟩ := handle_eq b m it
  rw [he]
  refine ⟨total_le fun n => ?_, ?_, ?_⟩
  · simp only
    by_cases h : n ∈ b.path.map Prod.fst <;> simp [h]
  · refine Nat.add_le_add_left (total_le fun n => ?_) _
    simp only [List.map_nil, List.not_mem_nil, not_false_eq_true, and_true]
    by_cases h : n ∈ b.path.map Prod.fst <;> simp [h]
  · refine Nat.add_le_add_left (total_le fun n => ?_) _
    simp only
    by_cases h : n ∈ b.path.map Prod.fst <;> simp [h]

/-- A node is added. -/
theorem add_left {it : Item} (hm : b.map it.node = none) (hM : it.node < M) (hp : it.node ∉ b.path.map Prod.fst) :
    left M (b.add it) + 1 ≤ left M b ∧ phi sp M (b.add it) + (sp.requires it.node).length ≤ phi sp M b ∧
      psi sp M (b.add it) + (sp.requires it.node).length ≤ psi sp M b := by
  have hh := handle_left (sp := sp) (M := M) (b := b.addNode it.node) b.rep.length it
  have h1 : left M (b.addNode it.node) + 1 ≤ left M b := total_drop (fun n => by
      simp only [B.addNode, upd]
      by_cases h : n = it.node <;> simp [h]) hM (by simp [B.addNode, upd, hm])
  have h2 : phi sp M (b.addNode it.node) + (sp.requires it.node).length ≤ phi sp M b := by
    unfold phi
    rw [Nat.add_assoc]
    refine Nat.add_le_add_left (total_drop (fun n => ?_) hM ?_) _
    · simp only [B.addNode, upd]
      by_cases h : n = it.node
      · simp [h]
      · simp only [if_neg h]; exact Nat.le_refl _
    · simp [B.addNode, upd, hm, hp]
  have h3 : psi sp M (b.addNode it.node) + (sp.requires it.node).length ≤ psi sp M b := by
    unfold psi
    rw [Nat.add_assoc]
    refine Nat.add_le_add_left (total_drop (fun n => ?_) hM ?_) _
    · simp only [B.addNode, upd]
      by_cases h : n = it.node <;> simp [h]
    · simp [B.addNode, upd, hm]
  unfold B.add
  omega

theorem register_phi (m n : Nat) (l : List Nat) : left M (b.register sp m n l) = left M b ∧ phi sp M (b.register sp m n l) = phi sp M b ∧
    psi sp M (b.register sp m n l) = psi sp M b + l.length := by
  obtain ⟨-, -, h3, -, h5, h6⟩ := register_edges (sp := sp) (b := b) m n l
  refine ⟨by unfold left; rw [h3], by unfold phi; rw [h3, h5, h6], ?_⟩
  unfold psi
  rw [h3, register_disp]; omega

theorem load_items (m n : Nat) {es : List Nat} (hes : es.Perm (sp.incoming n)) : load sp (items sp m es) + 1 ≤ cost sp := by
  unfold load items cost
  rw [List.map_map]
  have : (es.map ((fun it : Item => dist sp it.node + 1) ∘ fun e => ⟨sp.src e, some (m, e, (sp.kind e).weight)⟩)).sum =
      ((sp.incoming n).map fun e => dist sp (sp.src e) + 1).sum := (hes.map _).sum_nat
  rw [this]
  refine Nat.add_le_add_right ?_ 1
  have h2 : (((List.range sp.edges.length).reverse).map fun e => dist sp (sp.src e) + 1).sum = ((List.range sp.edges.length).map fun e => dist sp (sp.src e) + 1).sum :=
    ((List.reverse_perm _).map _).sum_nat
  rw [← h2]
  exact sum_sublist List.filter_sublist

theorem load_append (s s' : List Item) : load sp (s ++ s') = load sp s + load sp s' := by simp [load]

/-- The nodes from a terminal are added in finitely many steps. -/
theorem ingest_ends (hsrc : ∀ n, ∀ e ∈ sp.incoming n, Rel sp M (sp.src e)) (hin : ∀ n, Rel sp M n → n ≠ sp.root → sp.incoming n ≠ [])
    {n : Nat} (h : Run sp x ind b st term) (hst : ∀ it ∈ st, Rel sp M it.node)
    (hpath : ∀ it ∈ st.head?, ∀ p ∈ b.path.map Prod.fst, dist sp it.node < dist sp p) (hn : cost sp * left M b + load sp st < n) :
    ∃ b' term', ingest sp n b st term = .ok (b', term') ∧ phi sp M b' ≤ phi sp M b ∧ psi sp M b' ≤ psi sp M b ∧ left M b' ≤ left M b := by
  induction n generalizing b st term with
  | zero => omega
  | succ n ih =>
    cases st with
    | nil => exact ⟨b, term, by simp [ingest], Nat.le_refl _, Nat.le_refl _, Nat.le_refl _⟩
    | cons it st =>
      obtain ⟨hrel, hM⟩ := hst it (by simp)
      have hload : load sp (it :: st) = dist sp it.node + 1 + load sp st := by simp [load]
      unfold ingest
      dsimp only
      cases hm : b.map it.node with
      | some m =>
        dsimp only
        obtain ⟨g1, g2, g3⟩ := handle_left (sp := sp) (M := M) (b := b) m it
        have hk := h.handle hm
        have := Nat.mul_le_mul_left (cost sp) g1
        obtain ⟨b', t', k1, k2, k3, k4⟩ := ih hk (fun i hi => hst i (by simp [hi])) (fun i _ p hp => by
          obtain ⟨dep, es, em, he⟩ := handle_eq b m it
          rw [he] at hp; simp at hp) (by omega)
        exact ⟨b', t', k1, by omega, by omega, by omega⟩
      | none =>
        dsimp only
        have hroot : it.node ≠ sp.root := fun hr => by
          have := h.good.rep 0 _ h.good.root
          rw [← hr, hm] at this; cases this
        have hnp : it.node ∉ b.path.map Prod.fst := fun hp => by
          have := hpath it (by simp) _ hp; omega
        have hadd : ∀ es : List Nat, es.Perm (sp.incoming it.node) →
            Run sp x ind (b.add it) (items sp b.rep.length es ++ st) (some (term.getD b.rep.length)) ∧ (b.add it).path = [] ∧
              (∀ i ∈ items sp b.rep.length es ++ st, Rel sp M i.node) ∧ ∀ b2 : B, left M b2 = left M (b.add it) →
              cost sp * left M b2 + load sp (items sp b.rep.length es ++ st) < n := by
          intro es hes
          have g1 := h.addNode hm hnp hes
          have g2 := g1.handle (m := b.rep.length) (by simp [B.addNode, upd])
          refine ⟨g2, ?_, fun i hi => ?_, fun b2 hb2 => ?_⟩
          · obtain ⟨dep, es', em, he⟩ := handle_eq (b.addNode it.node) b.rep.length it
            unfold B.add; rw [he]
          · rcases List.mem_append.1 hi with hi | hi
            · simp only [items, List.mem_map] at hi
              obtain ⟨e, he, rfl⟩ := hi
              exact hsrc it.node e (hes.mem_iff.1 he)
            · exact hst i (by simp [hi])
          · have k1 := load_items (sp := sp) b.rep.length it.node hes
            have k2 := Nat.mul_le_mul_left (cost sp) (add_left (sp := sp) hm hM hnp).1
            rw [Nat.mul_add, Nat.mul_one] at k2
            rw [load_append, hb2]
            omega
        obtain ⟨a1, a2, a3⟩ := add_left (sp := sp) (b := b) (it := it) hm hM hnp
        obtain ⟨r1, r2, r3⟩ := register_phi (sp := sp) (M := M) (b := b.add it) b.rep.length it.node (sp.requires it.node)
        have hfr := register_edges (sp := sp) (b := b.add it) b.rep.length it.node (sp.requires it.node)
        cases hc : sp.incoming it.node with
        | nil => exact absurd hc (hin _ ⟨hrel, hM⟩ hroot)
        | cons e es =>
          cases es with
          | nil =>
            dsimp only
            have hd := dist_lt hrel hroot hc
            have hpush : ∀ (l : List Nat) (w : Nat), (term ≠ none → sp.requires it.node = [] ∧ (sp.kind e).weight = 0) → l.length = b.indisp.length + (sp.requires it.node).length →
                ∃ b' term', ingest sp n { b with indisp := l, path := (it.node, w) :: b.path } (⟨sp.src e, it.child⟩ :: st) term = .ok (b', term') ∧
                  phi sp M b' ≤ phi sp M b ∧ psi sp M b' ≤ psi sp M b ∧ left M b' ≤ left M b := by
              intro l w ht hl
              obtain ⟨b', t', k1, k2, k3, k4⟩ := ih (h.push (w := w) (ids := l) hm hc ht) (fun i hi => by
                rcases List.mem_cons.1 hi with rfl | hi
                · exact hsrc it.node e (by rw [hc]; simp)
                · exact hst i (by simp [hi])) (fun i hi p hp => by
                simp only [List.head?_cons, Option.mem_some_iff] at hi
                subst hi
                simp only [List.map_cons, List.mem_cons] at hp
                rcases hp with rfl | hp
                · exact hd
                · exact Nat.lt_trans hd (hpath it (by simp) p hp)) (by
                show cost sp * left M b + (load sp (⟨sp.src e, it.child⟩ :: st)) < n
                have : load sp (⟨sp.src e, it.child⟩ :: st) = dist sp (sp.src e) + 1 + load sp st := by simp [load]
                omega)
              refine ⟨b', t', k1, Nat.le_trans k2 ?_, k3, k4⟩
              unfold phi
              simp only
              rw [hl, Nat.add_assoc]
              refine Nat.add_le_add_left ?_ _
              rw [Nat.add_comm]
              refine total_drop (fun n => ?_) hM ?_
              · split
                · next hc => rw [if_pos ⟨hc.1, fun hp => hc.2 (List.mem_cons_of_mem _ hp)⟩]; exact Nat.le_refl _
                · exact Nat.zero_le _
              · simp [hm, hnp]
            by_cases ht : term = none
            · rw [if_pos ht]
              exact hpush _ _ (fun hc => absurd ht hc) (by simp; omega)
            · rw [if_neg ht]
              by_cases hw : sp.requires it.node ≠ [] ∨ (sp.kind e).weight > 0
              · rw [if_pos hw]
                obtain ⟨g1, g2, g3, g4⟩ := hadd [e] (by rw [hc])
                have ht' : some (term.getD b.rep.length) = term := by
                  obtain ⟨k, hk⟩ := Option.ne_none_iff_exists'.1 ht
                  rw [hk]; rfl
                rw [ht'] at g1
                obtain ⟨b', t', k1, k2, k3, k4⟩ := ih (g1.frame hfr.1 hfr.2.1 hfr.2.2.1 hfr.2.2.2.1 hfr.2.2.2.2.1) g3
                  (fun i _ p hp => by rw [hfr.2.2.2.2.1, g2] at hp; simp at hp) (g4 _ r1)
                exact ⟨b', t', k1, by omega, by omega, by omega⟩
              · rw [if_neg hw]
                have hw1 : sp.requires it.node = [] := Classical.byContradiction fun hc => hw (.inl hc)
                have hw2 : (sp.kind e).weight = 0 := by
                  have : ¬ (sp.kind e).weight > 0 := fun hc => hw (.inr hc)
                  omega
                exact hpush b.indisp _ (fun _ => ⟨hw1, hw2⟩) (by simp [hw1])
          | cons e' es =>
            dsimp only
            have hitems : ((e :: e' :: es).map fun e => (⟨sp.src e, some (b.rep.length, e, (sp.kind e).weight)⟩ : Item)).reverse =
                items sp b.rep.length (e :: e' :: es).reverse := by simp [items]
            rw [hitems]
            obtain ⟨g1, g2, g3, g4⟩ := hadd (e :: e' :: es).reverse (by rw [hc]; exact List.reverse_perm _)
            by_cases ht : term = none
            · rw [if_pos ht]
              obtain ⟨b', t', k1, k2, k3, k4⟩ := ih (g1.frame (b' := { b.add it with indisp := (sp.requires it.node).reverse ++ (b.add it).indisp }) rfl rfl rfl rfl rfl)
                g3 (fun i _ p hp => by rw [show ({ b.add it with indisp := (sp.requires it.node).reverse ++ (b.add it).indisp } : B).path = [] from g2] at hp; simp at hp) (g4 _ rfl)
              refine ⟨b', t', k1, Nat.le_trans k2 ?_, Nat.le_trans k3 ?_, Nat.le_trans k4 ?_⟩
              · refine Nat.le_trans ?_ a2
                unfold phi
                simp only [List.length_append, List.length_reverse]
                omega
              · show psi sp M (b.add it) ≤ _
                omega
              · show left M (b.add it) ≤ _
                omega
            · rw [if_neg ht]
              obtain ⟨b', t', k1, k2, k3, k4⟩ := ih (g1.frame hfr.1 hfr.2.1 hfr.2.2.1 hfr.2.2.2.1 hfr.2.2.2.2.1) g3
                (fun i _ p hp => by rw [hfr.2.2.2.2.1, g2] at hp; simp at hp) (g4 _ r1)
              exact ⟨b', t', k1, by omega, by omega, by omega⟩

theorem count_le {N l : List Nat} {f : Nat → Nat} {p : Nat → Bool} (hN : N.Nodup) :
    (N.map fun n => (l.filter fun e => decide (f e = n) && p e).length).sum ≤ (l.filter p).length := by
  induction N generalizing p with
  | nil => simp
  | cons n N ih =>
    obtain ⟨h1, h2⟩ := List.nodup_cons.1 hN
    simp only [List.map_cons, List.sum_cons]
    have := ih (p := fun e => p e && !decide (f e = n)) h2
    have h3 : (N.map fun n' => (l.filter fun e => decide (f e = n') && (p e && !decide (f e = n))).length) =
        N.map fun n' => (l.filter fun e => decide (f e = n') && p e).length := by
      refine List.map_congr_left fun n' hn' => congrArg List.length (List.filter_congr fun e _ => ?_)
      by_cases he : f e = n'
      · have : f e ≠ n := fun hc => h1 (by rw [← hc, he]; exact hn')
        simp [this]
      · simp [he]
    rw [h3] at this
    have h4 : (l.filter fun e => decide (f e = n) && p e).length + (l.filter fun e => p e && !decide (f e = n)).length ≤ (l.filter p).length := by
      clear this h3 ih hN h1 h2
      induction l with
      | nil => simp
      | cons a l ih =>
        simp only [List.filter_cons]
        by_cases h1 : f a = n <;> by_cases h2 : p a = true <;> simp [h1, h2] <;> omega
    omega

theorem count_two {l : List Nat} {p q r : Nat → Bool} (h : ∀ e, p e = true → q e = true → False) (hp : ∀ e, p e = true → r e = true)
    (hq : ∀ e, q e = true → r e = true) : (l.filter p).length + (l.filter q).length ≤ (l.filter r).length := by
  induction l with
  | nil => simp
  | cons a l ih =>
    simp only [List.filter_cons]
    have := h a
    have := hp a
    have := hq a
    by_cases h1 : p a = true <;> by_cases h2 : q a = true <;> by_cases h3 : r a = true <;> simp_all <;> omega

theorem count_index {α : Type} (l : List α) (p : Option α → Bool) :
    ((List.range l.length).filter fun i => p l[i]?).length = (l.filter fun a => p (some a)).length := by
  induction l with
  | nil => simp
  | cons a l ih =>
    rw [List.length_cons, List.range_succ_eq_map, List.filter_cons, List.filter_cons, List.filter_map]
    have : ((List.range l.length).filter ((fun i => p (a :: l)[i]?) ∘ Nat.succ)).length = (l.filter fun a => p (some a)).length := by
      rw [← ih]; rfl
    simp only [List.getElem?_cons_zero]
    split <;> simp [this]

theorem filter_le {l : List Nat} {p q : Nat → Bool} (h : ∀ e, p e = true → q e = true) : (l.filter p).length ≤ (l.filter q).length := by
  induction l with
  | nil => simp
  | cons a l ih =>
    simp only [List.filter_cons]
    have := h a
    by_cases h1 : p a = true <;> by_cases h2 : q a = true <;> simp_all <;> omega

theorem requires_le (sp : Space) (M : Nat) : total M (fun n => (sp.requires n).length) ≤
    ((List.range sp.edges.length).filter fun e => decide (sp.kind e = .requires)).length := by
  refine Nat.le_trans (sum_le (g := fun n => ((List.range sp.edges.length).filter fun e => decide (sp.src e = n) && decide (sp.kind e = .requires)).length) fun n => ?_)
    (count_le List.nodup_range)
  simp only [Space.requires, Space.outgoing, List.length_map, List.filter_filter]
  rw [List.filter_reverse, List.length_reverse]
  refine filter_le fun e he => ?_
  simp only [Bool.and_eq_true, decide_eq_true_eq] at he ⊢
  exact ⟨he.2.1, he.1.1⟩

theorem edgeCount_eq (sp : Space) : sp.edgeCount = ((List.range sp.edges.length).filter fun e => sp.kind e != .gone).length :=
  (count_index sp.edges fun e => (e.map (·.kind)).getD .gone != .gone).symm

/-- There are fewer terminals than edges. -/
theorem phi_init (hv : sp.Valid) (hl : ∀ p ∈ sp.leaf, sp.incoming p.1 ≠ []) (M : Nat) : phi sp M (.init sp) ≤ sp.edgeCount := by
  have h1 : total M (fun n => if (B.init sp).map n = none ∧ n ∉ (B.init sp).path.map Prod.fst then (sp.requires n).length else 0) ≤
      ((List.range sp.edges.length).filter fun e => decide (sp.kind e = .requires)).length := by
    refine Nat.le_trans (total_le fun n => ?_) (requires_le sp M)
    split <;> omega
  have h2 : (B.init sp).indisp.length ≤ ((List.range sp.edges.length).filter fun e => (sp.kind e).isParent).length := by
    have hnd : ((sp.leaf.filter (·.2)).map (·.1)).Nodup := (List.filter_sublist.map _).nodup hv.once
    refine Nat.le_trans ?_ (count_le (f := sp.dst) (N := (sp.leaf.filter (·.2)).map (·.1)) hnd)
    simp only [B.init, List.length_reverse]
    have : ∀ l : List Nat, (∀ r ∈ l, sp.incoming r ≠ []) → l.length ≤
        (l.map fun n => ((List.range sp.edges.length).filter fun e => decide (sp.dst e = n) && (sp.kind e).isParent).length).sum := by
      intro l hl
      induction l with
      | nil => simp
      | cons r l ih =>
        simp only [List.length_cons, List.map_cons, List.sum_cons]
        have := ih fun r hr => hl r (by simp [hr])
        have h3 := hl r (by simp)
        unfold Space.incoming at h3
        rw [List.filter_reverse, ne_eq, List.reverse_eq_nil_iff] at h3
        have := List.length_pos_iff.2 h3
        omega
    refine this _ fun r hr => ?_
    simp only [List.mem_map, List.mem_filter] at hr
    obtain ⟨p, ⟨hp, -⟩, rfl⟩ := hr
    exact hl p hp
  rw [edgeCount_eq]
  unfold phi
  have := count_two (l := List.range sp.edges.length) (p := fun e => (sp.kind e).isParent) (q := fun e => decide (sp.kind e = .requires)) (r := fun e => sp.kind e != .gone)
    (fun e h1 h2 => by
      simp only [decide_eq_true_eq] at h2
      rw [h2] at h1; cases h1)
    (fun e h => by cases hk : sp.kind e <;> simp_all [Kind.isParent]) (fun e h => by simp only [decide_eq_true_eq] at h; rw [h]; rfl)
  omega

theorem left_le : left M b ≤ M := by
  have : left M b ≤ total M fun _ => 1 := total_le fun n => by split <;> omega
  have one : ∀ M, total M (fun _ => 1) = M := fun M => by
    induction M with
    | zero => rfl
    | succ M ih =>
      unfold total at ih ⊢
      rw [List.range_succ, List.map_append, List.sum_append, ih]
      rfl
  rw [one] at this; exact this

theorem add_disp (it : Item) : (b.add it).disp = b.disp := by
  unfold B.add
  obtain ⟨dep, es, em, he⟩ := handle_eq (b.addNode it.node) b.rep.length it
  rw [he]; rfl

theorem register_mem {m n r : Nat} {l : List Nat} (h : r ∈ (b.register sp m n l).disp) : r ∈ b.disp ∨ r ∈ l := by
  unfold B.register at h
  split at h
  · exact .inl h
  · have h' : r ∈ (sortBy (fun x y => decide (x ≤ y)) l).reverse ++ b.disp := by
      dsimp only at h
      split at h <;> exact h
    rcases List.mem_append.1 h' with h' | h'
    · exact .inr (mem_sort.1 (List.mem_reverse.1 h'))
    · exact .inl h'

/-- Only required nodes are added. -/
theorem disp_from (n : Nat) {term' : Option Nat} (hi : ingest sp n b st term = .ok (b', term')) : ∀ r ∈ b'.disp, r ∈ b.disp ∨ ∃ k, r ∈ sp.requires k := by
  induction n generalizing b st term with
  | zero => simp [ingest] at hi
  | succ n ih =>
    cases st with
    | nil =>
      simp only [ingest, Out.ok.injEq, Prod.mk.injEq] at hi
      obtain ⟨rfl, rfl⟩ := hi
      exact fun r hr => .inl hr
    | cons it st =>
      have reg : ∀ m l, (∃ k, l = sp.requires k) → ∀ r ∈ ((b.add it).register sp m it.node l).disp, r ∈ b.disp ∨ ∃ k, r ∈ sp.requires k := by
        rintro m l ⟨k, rfl⟩ r hr
        rcases register_mem hr with h | h
        · rw [add_disp] at h; exact .inl h
        · exact .inr ⟨k, h⟩
      unfold ingest at hi
      dsimp only at hi
      intro r hr
      split at hi
      · next m _ =>
        obtain ⟨dep, es, em, he⟩ := handle_eq b m it
        rcases ih hi r hr with h | h
        · rw [he] at h; exact .inl h
        · exact .inr h
      · split at hi
        · cases hi
        · split at hi
          · exact ih hi r hr
          · split at hi
            · rcases ih hi r hr with h | h
              · exact reg _ _ ⟨_, rfl⟩ r h
              · exact .inr h
            · exact ih hi r hr
        · split at hi
          · rcases ih hi r hr with h | h
            · exact .inl (by rw [← add_disp it]; exact h)
            · exact .inr h
          · rcases ih hi r hr with h | h
            · exact reg _ _ ⟨_, rfl⟩ r h
            · exact .inr h

/-- Fuel for the nodes of a terminal. -/
noncomputable def enough (sp : Space) (M : Nat) : Nat := cost sp * M + (sp.leaf.map fun p => dist sp p.1 + 1).sum + 1

theorem enough_le {r : Nat} {i : Bool} (h : (r, i) ∈ sp.leaf) : cost sp * left M b + load sp [⟨r, none⟩] < enough sp M := by
  have h1 := Nat.mul_le_mul_left (cost sp) (left_le (M := M) (b := b))
  have h2 : dist sp r + 1 ≤ (sp.leaf.map fun p => dist sp p.1 + 1).sum := by
    have : ∀ l : List (Nat × Bool), (r, i) ∈ l → dist sp r + 1 ≤ (l.map fun p => dist sp p.1 + 1).sum := by
      intro l hl
      induction l with
      | nil => simp at hl
      | cons p l ih =>
        simp only [List.map_cons, List.sum_cons]
        rcases List.mem_cons.1 hl with rfl | hl
        · simp only; omega
        · have := ih hl; omega
    exact this _ h
  have h3 : load sp [⟨r, none⟩] = dist sp r + 1 := by simp [load]
  unfold enough
  omega

/-- What holds of a connected space. -/
structure Fine (sp : Space) (M : Nat) : Prop where
  src : ∀ n, ∀ e ∈ sp.incoming n, Rel sp M (sp.src e)
  has : ∀ n, Rel sp M n → n ≠ sp.root → sp.incoming n ≠ []
  leaf : ∀ p ∈ sp.leaf, Rel sp M p.1

theorem fine (hc : sp.Connected) : ∃ M, Fine sp M := by
  have bound : ∀ l : List Nat, ∃ M, ∀ n ∈ l, n < M := by
    intro l
    induction l with
    | nil => exact ⟨0, by simp⟩
    | cons a l ih =>
      obtain ⟨M, h⟩ := ih
      refine ⟨M + a + 1, fun n hn => ?_⟩
      rcases List.mem_cons.1 hn with rfl | hn
      · omega
      · have := h n hn; omega
  obtain ⟨M, hM⟩ := bound (sp.leaf.map (·.1) ++ sp.edges.map (·.src))
  refine ⟨M, fun n e he => ?_, fun n hn hr hi => ?_, fun p hp => ⟨(hc.leaf p hp).1, hM _ (List.mem_append.2 (.inl (List.mem_map.2 ⟨p, hp, rfl⟩)))⟩⟩
  · obtain ⟨d, d1, d2, -, -, d5⟩ := mem_incoming' he
    rw [← d2]
    exact ⟨hc.parent d d1 d5, hM _ (List.mem_append.2 (.inr (List.mem_map.2 ⟨d, d1, rfl⟩)))⟩
  · cases hn.1 with
    | root => exact hr rfl
    | @step e he _ =>
      simp only [Space.steps, List.mem_filter, List.mem_range] at he
      have : e ∈ sp.incoming (sp.dst e) := mem_incoming.2 ⟨he.1, rfl, he.2⟩
      rw [hi] at this; simp at this

theorem orig_leaf {r : Nat} (h : (r, true) ∈ sp.leaf ∨ ∃ y ∈ S, ∃ n, Back sp y n ∧ r ∈ sp.requires n) : ∃ i, (r, i) ∈ sp.leaf := by
  rcases h with h | ⟨-, -, n, -, h⟩
  · exact ⟨_, h⟩
  · exact ⟨_, (mem_requires.1 h).2⟩

theorem indispensable_ends (hf : Fine sp M) {fuel n i : Nat} (h : Outer sp S [] b) (ht : Terms sp b T S) (hfuel : enough sp M ≤ fuel)
    (hn : phi sp M b < n) (hi : i + phi sp M b ≤ sp.edgeCount) (hd : ∀ r ∈ b.disp, ∃ i, (r, i) ∈ sp.leaf) :
    ∃ b' T' S', indispensable sp fuel n i b T S = .ok (b', T', S') ∧ psi sp M b' ≤ psi sp M b ∧ ∀ r ∈ b'.disp, ∃ i, (r, i) ∈ sp.leaf := by
  induction n generalizing i b T S with
  | zero => omega
  | succ n ih =>
    unfold indispensable
    cases hx : b.indisp with
    | nil => exact ⟨b, T, S, rfl, Nat.le_refl _, hd⟩
    | cons x xs =>
      dsimp only
      have hphi : phi sp M { b with indisp := xs } + 1 = phi sp M b := by
        unfold phi
        rw [hx]
        simp only [List.length_cons]
        omega
      rw [if_neg (by omega)]
      obtain ⟨j, hj⟩ := orig_leaf (h.reqs.orig x (by rw [hx]; simp))
      have ho : Outer sp (x :: S) [] { b with indisp := xs } := ⟨h.good.frame rfl rfl rfl rfl, h.path, h.all, h.reqs.pop hx⟩
      have hrun := ho.begin (x := x) (ind := true) (term := none) (by simp) (fun _ => rfl)
      obtain ⟨b1, term, k1, k2, k3, -⟩ := ingest_ends (M := M) hf.src hf.has (n := fuel) hrun
        (fun it hit => by simp only [List.mem_singleton] at hit; subst hit; exact hf.leaf _ hj)
        (fun it _ p hp => by rw [ho.path] at hp; simp at hp) (Nat.lt_of_lt_of_le (enough_le hj) hfuel)
      obtain ⟨i1, i2, i3, -⟩ := ingest_spec (x := x) (ind := true) (S := x :: S) fuel hrun ho.reqs (fun _ => by simp) k1
      obtain ⟨m, g1, g2⟩ := i1.found (by simp)
      rw [k1]
      simp only [Out.bind, g2 rfl]
      have hterms : Terms sp b1 (if m ≠ 0 ∧ m ∉ T then T ++ [m] else T) (x :: S) := by
        have := terms_step (fuel := fuel) h ht hx k1 i1 i3 g1
        exact this
      obtain ⟨b', T', S', e1, e2, e3⟩ := ih (i := i + 1) (i1.ends i2) hterms (by omega) (by omega) (fun r hr => by
        rcases disp_from fuel k1 r hr with h | ⟨k, h⟩
        · exact hd r h
        · exact ⟨_, (mem_requires.1 h).2⟩)
      refine ⟨b', T', S', e1, Nat.le_trans e2 k3, e3⟩

theorem dispensable_ends (hf : Fine sp M) {fuel n : Nat} (h : Outer sp S [] b) (hfuel : enough sp M ≤ fuel) (hn : psi sp M b < n)
    (hd : ∀ r ∈ b.disp, ∃ i, (r, i) ∈ sp.leaf) : ∃ b', dispensable sp fuel n b = .ok b' := by
  induction n generalizing b with
  | zero => omega
  | succ n ih =>
    unfold dispensable
    cases hx : b.disp with
    | nil => exact ⟨b, rfl⟩
    | cons x xs =>
      dsimp only
      have hpsi : psi sp M { b with disp := xs } + 1 = psi sp M b := by
        unfold psi
        rw [hx]
        simp only [List.length_cons]
        omega
      obtain ⟨j, hj⟩ := hd x (by rw [hx]; simp)
      have ho : Outer sp S [x] { b with disp := xs } := ⟨h.good.frame rfl rfl rfl rfl, h.path, h.all, h.reqs.disp (fun r hr => by
        rw [hx] at hr
        simp only [List.not_mem_nil, List.mem_cons, false_or, or_assoc] at hr ⊢
        exact hr)⟩
      have hrun := ho.begin (x := x) (ind := false) (term := some 0) (by simp) (by simp)
      obtain ⟨b1, term, k1, k2, k3, -⟩ := ingest_ends (M := M) hf.src hf.has (n := fuel) hrun
        (fun it hit => by simp only [List.mem_singleton] at hit; subst hit; exact hf.leaf _ hj)
        (fun it _ p hp => by rw [ho.path] at hp; simp at hp) (Nat.lt_of_lt_of_le (enough_le hj) hfuel)
      obtain ⟨i1, i2, i3, -⟩ := ingest_spec (x := x) (ind := false) (S := S) fuel hrun ho.reqs (by simp) k1
      obtain ⟨m, g1, -⟩ := i1.found (by simp)
      have hr1 : Reqs sp S [] b1 := i2.disp (d := b1.disp) (fun r hr => by
        rcases hr with hr | hr
        · simp only [List.mem_singleton] at hr
          subst hr; exact .inr (.inr (by rw [g1]; simp))
        · exact .inr hr)
      rw [k1]
      simp only [Out.bind]
      refine ih (i1.ends hr1) (by omega) (fun r hr => ?_)
      rcases disp_from fuel k1 r hr with h | ⟨k, h⟩
      · exact hd r (by rw [hx]; exact List.mem_cons_of_mem _ h)
      · exact ⟨_, (mem_requires.1 h).2⟩

theorem build_ends (hv : sp.Valid) (hc : sp.Connected) : ∃ N, ∀ fuel, N ≤ fuel → ∃ b inp T, build sp fuel = .ok (b, inp, T) := by
  obtain ⟨M, hf⟩ := fine hc
  refine ⟨enough sp M + sp.edgeCount + psi sp M (.init sp) + 1, fun fuel hfuel => ?_⟩
  have hphi := phi_init hv (fun p hp => hf.has _ (hf.leaf p hp) (hc.leaf p hp).2) M
  obtain ⟨b1, T, S, h1, h2, h3⟩ := indispensable_ends hf (n := fuel) (i := 0) (fuel := fuel) outer_init.1 outer_init.2 (by omega) (by omega) (by omega)
    (by simp [B.init])
  obtain ⟨k1, k2, k3⟩ := indispensable_spec outer_init.1 outer_init.2 h1
  obtain ⟨b2, h4⟩ := dispensable_ends hf (n := fuel) (fuel := fuel) k1 (by omega) (by omega) h3
  obtain ⟨j1, j2, j3, j4⟩ := dispensable_spec k1 h4
  have hb : Built sp b2 T S := ⟨j1.good, j1.all, j1.reqs, j2, j3.trans k3, ⟨fun y hy => by
      obtain ⟨m, g1, g2⟩ := k2.node y hy
      exact ⟨m, j4 y m g1, g2⟩, fun m hm => by
      obtain ⟨g1, y, g2, g3⟩ := k2.used m hm
      exact ⟨g1, y, g2, j4 y m g3⟩, k2.nodup, fun r hr => by rw [j3]; exact k2.leaves r hr, k2.orig⟩⟩
  obtain ⟨inp, hinp⟩ := hb.finish
  refine ⟨b2, inp, T, ?_⟩
  unfold build
  simp only [h1, Out.bind, h4, hinp]

end Verif.SteinerInput
