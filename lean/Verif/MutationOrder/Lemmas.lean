import Verif.MutationOrder.Model
import Mathlib.Data.List.Basic
import Mathlib.Data.List.Nodup

namespace Verif.MutationOrder

/-- Fields of `fs` under partition `p`. -/
def under (s : State) (fs : List Field) (p : Nat) : List Field :=
  fs.filter fun f => decide ((p, f.id) ∈ s.edges)

/-- `r` occurs in `l`, and some other resolver later. -/
def Left (l : List Field) (r : Nat) : Prop :=
  ∃ a w, [a, w].Sublist l ∧ a.res = r ∧ w.res ≠ r

theorem Left.mono {l l' : List Field} {r} (h : Left l r) (hs : l.Sublist l') : Left l' r := by
  obtain ⟨a, w, h1, h2⟩ := h
  exact ⟨a, w, h1.trans hs, h2⟩

theorem left_snoc_same {l : List Field} {x : Field} (h : Left (l ++ [x]) x.res) : Left l x.res := by
  obtain ⟨a, w, h1, h2, h3⟩ := h
  rw [List.sublist_append_iff] at h1
  obtain ⟨l1, l2, e, s1, s2⟩ := h1
  cases l2 with
  | nil => simp at e; subst e; exact ⟨a, w, s1, h2, h3⟩
  | cons b l2 =>
    have hb : l2 = [] := by
      have := s2.length_le
      simp at this
      exact this
    subst hb
    have hbx : b = x := by simpa using s2.subset (List.mem_cons_self ..)
    subst hbx
    have : w = b := by
      have h1 := congrArg List.getLast? e
      simpa using h1
    exact (h3 (by rw [this])).elim

theorem left_of_mem {l : List Field} {x a : Field} (ha : a ∈ l ++ [x]) (hne : x.res ≠ a.res) :
    Left (l ++ [x]) a.res := by
  have : a ∈ l := by
    simp at ha
    rcases ha with h | rfl
    · exact h
    · exact (hne rfl).elim
  refine ⟨a, x, ?_, rfl, hne⟩
  have h := (List.singleton_sublist.2 this).append (List.Sublist.refl [x])
  simpa using h

/-- The next field `z` continues a run of a resolver that was left before. -/
def BadAt (xs : List Field) (z : Field) : Prop :=
  ∃ pre y, xs = pre ++ [y] ∧ y.res = z.res ∧ Left pre y.res

/-- Standing assumptions on the input. -/
structure Wf (fields : List Field) (next : Nat) : Prop where
  ids : (fields.map (·.id)).Nodup
  parts : ∀ f ∈ fields, ∀ g ∈ fields, f.part = g.part ↔ f.res = g.res
  fresh : ∀ f ∈ fields, f.part < next

structure Inv (next0 : Nat) (xs ys : List Field) (s : State) : Prop where
  trace : s.order.flatMap (under s xs) = xs
  nodup : s.order.Nodup
  closed : ∀ x ∈ xs, ∀ p, (p, x.id) ∈ s.edges → p ∈ s.order
  todo : ∀ y ∈ ys, ∀ p, (p, y.id) ∈ s.edges ↔ p = y.part
  enodup : s.edges.Nodup
  next : next0 ≤ s.next
  parts : ∀ q ∈ s.partitions, q.1 < s.next ∧ (q.1 ≥ next0 ∨ ∃ x ∈ xs, x.part = q.1 ∧ x.res = q.2)
  used : ∀ x ∈ xs, x.part ∈ s.order
  empty : s.partitions = [] → xs = []
  last : ∀ lp lr ps, s.partitions = (lp, lr) :: ps → ∃ pre x, xs = pre ++ [x] ∧ x.res = lr ∧
    ((lp = x.part ∧ ¬ Left pre lr) ∨ (lp ≥ next0 ∧ Left pre lr))

theorem mem_order {s : State} {p : Nat} : p ∈ s.order ↔ ∃ r, (p, r) ∈ s.partitions := by
  simp [State.order]

theorem any_iff {s : State} {p : Nat} : (s.partitions.any (fun q => q.1 == p)) = true ↔ p ∈ s.order := by
  simp [mem_order]

/-- Some field hangs under two partitions. -/
def Dup (fields : List Field) (s : State) : Prop :=
  ∃ z ∈ fields, ∃ p q, p ≠ q ∧ p ∈ s.order ∧ q ∈ s.order ∧ (p, z.id) ∈ s.edges ∧ (q, z.id) ∈ s.edges

theorem place_order (s : State) (f : Field) (p : Nat) (h : p ∈ s.order) : p ∈ (place s f).order := by
  unfold place
  split <;> simp [State.order] at h ⊢ <;> simp [h]

theorem process_order (s : State) (f : Field) (p : Nat) (h : p ∈ s.order) : p ∈ (processField s f).order := by
  unfold processField
  split
  · split
    · split
      · exact h
      · exact place_order _ _ _ h
    · exact place_order _ _ _ h
  · exact place_order _ _ _ h

theorem erase_mem {l : List (Nat × Nat)} {a b : Nat × Nat} (h : a ∈ l) (hne : a ≠ b) : a ∈ l.erase b :=
  (List.mem_erase_of_ne hne).2 h

theorem place_edges (s : State) (f : Field) (p i : Nat) (hi : i ≠ f.id) (h : (p, i) ∈ s.edges) :
    (p, i) ∈ (place s f).edges := by
  unfold place
  have : (p, i) ≠ (f.part, f.id) := fun e => hi (by simpa using congrArg Prod.snd e)
  split
  · exact List.mem_cons_of_mem _ (erase_mem h this)
  · exact h

theorem process_edges (s : State) (f : Field) (p i : Nat) (hi : i ≠ f.id) (h : (p, i) ∈ s.edges) :
    (p, i) ∈ (processField s f).edges := by
  have hne : (p, i) ≠ (f.part, f.id) := fun e => hi (by simpa using congrArg Prod.snd e)
  unfold processField
  split
  · split
    · split
      · exact h
      · exact place_edges _ _ _ _ hi (List.mem_cons_of_mem _ (erase_mem h hne))
    · exact place_edges _ _ _ _ hi h
  · exact place_edges _ _ _ _ hi h

theorem dup_foldl (z : Field) (p q : Nat) (ys : List Field) (hz : ∀ y ∈ ys, z.id ≠ y.id) (s : State)
    (hp : p ∈ s.order) (hq : q ∈ s.order) (ep : (p, z.id) ∈ s.edges) (eq : (q, z.id) ∈ s.edges) :
    p ∈ (ys.foldl processField s).order ∧ q ∈ (ys.foldl processField s).order ∧
      (p, z.id) ∈ (ys.foldl processField s).edges ∧ (q, z.id) ∈ (ys.foldl processField s).edges := by
  induction ys generalizing s with
  | nil => exact ⟨hp, hq, ep, eq⟩
  | cons y ys ih =>
    have hy := hz y (by simp)
    exact ih (fun y' h' => hz y' (by simp [h'])) _ (process_order _ _ _ hp) (process_order _ _ _ hq)
      (process_edges _ _ _ _ hy ep) (process_edges _ _ _ _ hy eq)

theorem under_congr {s s' : State} {fs : List Field} {p : Nat}
    (h : ∀ f ∈ fs, (p, f.id) ∈ s.edges ↔ (p, f.id) ∈ s'.edges) : under s fs p = under s' fs p :=
  List.filter_congr fun f hf => by simp [h f hf]

theorem flatMap_congr' {α β} {l : List α} {f g : α → List β} (h : ∀ a ∈ l, f a = g a) :
    l.flatMap f = l.flatMap g := by
  induction l with
  | nil => rfl
  | cons a l ih => simp [h a (by simp), ih (fun b hb => h b (by simp [hb]))]

theorem under_snoc (s : State) (xs : List Field) (y : Field) (p : Nat) :
    under s (xs ++ [y]) p = under s xs p ++ if (p, y.id) ∈ s.edges then [y] else [] := by
  unfold under
  rw [List.filter_append]
  congr 1
  by_cases h : (p, y.id) ∈ s.edges <;> simp [h]

section
variable {next0 : Nat} {xs ys : List Field} {y : Field} {s : State}

theorem ne_of_ids (wf : Wf (xs ++ y :: ys) next0) : (∀ x ∈ xs, x.id ≠ y.id) ∧ ∀ z ∈ ys, z.id ≠ y.id := by
  have h := wf.ids
  rw [List.map_append, List.nodup_append] at h
  obtain ⟨-, h2, h3⟩ := h
  simp only [List.map_cons, List.nodup_cons] at h2
  refine ⟨fun x hx => h3 _ (List.mem_map_of_mem hx) _ (by simp), fun z hz e => h2.1 ?_⟩
  rw [← e]
  exact List.mem_map_of_mem hz

/-- Fields with the same partition as `y` among the earlier ones: same resolver. -/
theorem used_res (wf : Wf (xs ++ y :: ys) next0) (hi : Inv next0 xs (y :: ys) s) (h : y.part ∈ s.order) :
    ∃ x ∈ xs, x.res = y.res := by
  obtain ⟨r, hr⟩ := mem_order.1 h
  obtain ⟨-, h2 | ⟨x, hx, e, -⟩⟩ := hi.parts _ hr
  · have := wf.fresh y (by simp)
    simp at h2
    omega
  · exact ⟨x, hx, (wf.parts x (by simp [hx]) y (by simp)).1 e⟩

/-- `continue`: the field stays in the last partition. -/
theorem step_continue (wf : Wf (xs ++ y :: ys) next0) (hi : Inv next0 xs (y :: ys) s) {lr ps}
    (hp : s.partitions = (y.part, lr) :: ps) (hr : lr = y.res) :
    Inv next0 (xs ++ [y]) ys s := by
  obtain ⟨hx, hy⟩ := ne_of_ids wf
  have hy0 := hi.todo y (by simp)
  have horder : s.order = (ps.map (·.1)).reverse ++ [y.part] := by simp [State.order, hp]
  have hnd := hi.nodup
  rw [horder, List.nodup_append] at hnd
  refine ⟨?_, hi.nodup, ?_, fun z hz => hi.todo z (by simp [hz]), hi.enodup, hi.next, ?_, ?_, ?_, ?_⟩
  · have h1 := hi.trace
    rw [horder] at h1 ⊢
    rw [List.flatMap_append] at h1 ⊢
    have h2 : (ps.map (·.1)).reverse.flatMap (under s (xs ++ [y])) =
        (ps.map (·.1)).reverse.flatMap (under s xs) := by
      apply flatMap_congr'
      intro p hpm
      have hne : p ≠ y.part := hnd.2.2 p hpm y.part (by simp)
      rw [under_snoc, if_neg (fun h => hne ((hy0 p).1 h)), List.append_nil]
    have h3 : [y.part].flatMap (under s (xs ++ [y])) = [y.part].flatMap (under s xs) ++ [y] := by
      simp only [List.flatMap_cons, List.flatMap_nil, List.append_nil]
      rw [under_snoc, if_pos ((hy0 _).2 rfl)]
    rw [h2, h3, ← List.append_assoc, h1]
  · intro x hxm p hpm
    simp at hxm
    rcases hxm with hxm | rfl
    · exact hi.closed x hxm p hpm
    · rw [(hy0 p).1 hpm, horder]; simp
  · intro q hq
    obtain ⟨h1, h2 | ⟨x, hx, e⟩⟩ := hi.parts q hq
    · exact ⟨h1, Or.inl h2⟩
    · exact ⟨h1, Or.inr ⟨x, by simp [hx], e⟩⟩
  · intro x hxm
    simp at hxm
    rcases hxm with hxm | rfl
    · exact hi.used x hxm
    · rw [horder]; simp
  · intro h; rw [hp] at h; simp at h
  · intro lp' lr' ps' h
    rw [hp] at h
    simp at h
    obtain ⟨⟨rfl, rfl⟩, rfl⟩ := h
    obtain ⟨pre, x, e, hxr, h⟩ := hi.last _ _ _ hp
    refine ⟨xs, y, rfl, hr.symm, ?_⟩
    rcases h with ⟨h1, h2⟩ | ⟨h1, h2⟩
    · refine Or.inl ⟨rfl, fun h => h2 ?_⟩
      rw [e, ← hxr] at h
      rw [← hxr]
      exact left_snoc_same h
    · have := wf.fresh y (by simp)
      omega

theorem step_new (wf : Wf (xs ++ y :: ys) next0) (hi : Inv next0 xs (y :: ys) s)
    (hlast : ∀ lp lr ps, s.partitions = (lp, lr) :: ps → lr ≠ y.res) :
    Inv next0 (xs ++ [y]) ys (place s y) := by
  obtain ⟨hx, hy⟩ := ne_of_ids wf
  have hy0 := hi.todo y (by simp)
  have hmemE : (y.part, y.id) ∈ s.edges := (hy0 _).2 rfl
  by_cases hu : s.partitions.any (fun p => p.1 == y.part) = true
  · -- new partition
    have huo := any_iff.1 hu
    have hlt : ∀ p ∈ s.order, p < s.next := by
      intro p hp
      obtain ⟨r, hr⟩ := mem_order.1 hp
      exact (hi.parts _ hr).1
    have hplace : place s y = ⟨(s.next, y.id) :: s.edges.erase (y.part, y.id), (s.next, y.res) :: s.partitions,
        s.next + 1, y.id :: s.rootFields⟩ := by
      unfold place; rw [if_pos hu]
    rw [hplace]
    have horder : State.order ⟨(s.next, y.id) :: s.edges.erase (y.part, y.id), (s.next, y.res) :: s.partitions,
        s.next + 1, y.id :: s.rootFields⟩ = s.order ++ [s.next] := by simp [State.order]
    have hyedge : ∀ p, (p, y.id) ∈ (s.next, y.id) :: s.edges.erase (y.part, y.id) ↔ p = s.next := by
      intro p
      rw [List.mem_cons]
      constructor
      · rintro (h | h)
        · simpa using h
        · have h1 := (hy0 p).1 (List.mem_of_mem_erase h)
          subst h1
          exact absurd h hi.enodup.not_mem_erase
      · rintro rfl; simp
    have hother : ∀ f : Field, f.id ≠ y.id → ∀ p,
        (p, f.id) ∈ (s.next, y.id) :: s.edges.erase (y.part, y.id) ↔ (p, f.id) ∈ s.edges := by
      intro f hf p
      rw [List.mem_cons]
      have hne : (p, f.id) ≠ (y.part, y.id) := fun e => hf (by simpa using congrArg Prod.snd e)
      constructor
      · rintro (h | h)
        · exact absurd (by simpa using congrArg Prod.snd h) hf
        · exact List.mem_of_mem_erase h
      · intro h; exact Or.inr (erase_mem h hne)
    have hnotin : s.next ∉ s.order := fun h => Nat.lt_irrefl _ (hlt _ h)
    refine ⟨?_, ?_, ?_, ?_, ?_, Nat.le_succ_of_le hi.next, ?_, ?_, ?_, ?_⟩
    · rw [horder, List.flatMap_append]
      have h2 : s.order.flatMap (under ⟨(s.next, y.id) :: s.edges.erase (y.part, y.id),
          (s.next, y.res) :: s.partitions, s.next + 1, y.id :: s.rootFields⟩ (xs ++ [y])) =
          s.order.flatMap (under s xs) := by
        apply flatMap_congr'
        intro p hpm
        rw [under_snoc, if_neg (fun h => Nat.lt_irrefl p (by have := hlt p hpm; rw [(hyedge p).1 h] at this ⊢; exact this)),
          List.append_nil]
        exact under_congr fun f hf => hother f (hx f hf) p
      have h3 : [s.next].flatMap (under ⟨(s.next, y.id) :: s.edges.erase (y.part, y.id),
          (s.next, y.res) :: s.partitions, s.next + 1, y.id :: s.rootFields⟩ (xs ++ [y])) = [y] := by
        simp only [List.flatMap_cons, List.flatMap_nil, List.append_nil]
        rw [under_snoc, if_pos ((hyedge _).2 rfl)]
        have : under ⟨(s.next, y.id) :: s.edges.erase (y.part, y.id),
          (s.next, y.res) :: s.partitions, s.next + 1, y.id :: s.rootFields⟩ xs s.next = [] := by
          unfold under
          rw [List.filter_eq_nil_iff]
          intro f hf h
          simp only [decide_eq_true_eq] at h
          exact hnotin (hi.closed f hf _ ((hother f (hx f hf) _).1 h))
        rw [this, List.nil_append]
      rw [h2, h3, hi.trace]
    · rw [horder, List.nodup_append]
      refine ⟨hi.nodup, by simp, ?_⟩
      intro a ha b hb
      simp at hb
      subst hb
      intro e
      exact hnotin (e ▸ ha)
    · intro x hxm p hpm
      rw [horder]
      simp at hxm
      rcases hxm with hxm | rfl
      · exact List.mem_append_left _ (hi.closed x hxm p ((hother x (hx x hxm) p).1 hpm))
      · rw [(hyedge p).1 hpm]; simp
    · intro z hz p
      simp only
      rw [hother z (hy z hz)]
      exact hi.todo z (by simp [hz]) p
    · simp only [List.nodup_cons]
      refine ⟨fun h => ?_, hi.enodup.erase _⟩
      have h1 := (hy0 _).1 (List.mem_of_mem_erase h)
      have h2 := wf.fresh y (by simp)
      have h3 := hi.next
      omega
    · intro q hq
      simp only [List.mem_cons] at hq
      rcases hq with rfl | hq
      · exact ⟨Nat.lt_succ_self _, Or.inl hi.next⟩
      · obtain ⟨h1, h2⟩ := hi.parts q hq
        refine ⟨Nat.lt_succ_of_lt h1, ?_⟩
        rcases h2 with h2 | ⟨x, hx, e⟩
        · exact Or.inl h2
        · exact Or.inr ⟨x, by simp [hx], e⟩
    · intro x hxm
      rw [horder]
      simp at hxm
      rcases hxm with hxm | rfl
      · exact List.mem_append_left _ (hi.used x hxm)
      · exact List.mem_append_left _ huo
    · intro h; simp at h
    · intro lp lr ps h
      simp at h
      obtain ⟨⟨rfl, rfl⟩, rfl⟩ := h
      refine ⟨xs, y, rfl, rfl, Or.inr ⟨hi.next, ?_⟩⟩
      obtain ⟨x, hxm, hxr⟩ := used_res wf hi huo
      cases hps : s.partitions with
      | nil => rw [hi.empty hps] at hxm; simp at hxm
      | cons q ps =>
        obtain ⟨lp, lr⟩ := q
        obtain ⟨pre, l, e, hl, -⟩ := hi.last _ _ _ hps
        have hne := hlast _ _ _ hps
        rw [e] at hxm ⊢
        rw [← hxr]
        exact left_of_mem hxm (by rw [hl, hxr]; exact hne)
  · -- the original partition
    have huo : y.part ∉ s.order := fun h => hu (any_iff.2 h)
    have hplace : place s y = (⟨s.edges, (y.part, y.res) :: s.partitions, s.next, y.id :: s.rootFields⟩ : State) := by
      unfold place; rw [if_neg hu]
    rw [hplace]
    have horder : State.order (⟨s.edges, (y.part, y.res) :: s.partitions, s.next, y.id :: s.rootFields⟩ : State) = s.order ++ [y.part] := by simp [State.order]
    have hunder : ∀ fs p, under (⟨s.edges, (y.part, y.res) :: s.partitions, s.next, y.id :: s.rootFields⟩ : State) fs p = under s fs p := fun _ _ => rfl
    have hnores : ∀ x ∈ xs, x.res ≠ y.res := by
      intro x hxm e
      exact huo ((wf.parts x (by simp [hxm]) y (by simp)).2 e ▸ hi.used x hxm)
    refine ⟨?_, ?_, ?_, fun z hz => hi.todo z (by simp [hz]), hi.enodup, hi.next, ?_, ?_, ?_, ?_⟩
    · rw [horder, List.flatMap_append]
      have h2 : s.order.flatMap (under (⟨s.edges, (y.part, y.res) :: s.partitions, s.next, y.id :: s.rootFields⟩ : State) (xs ++ [y])) = s.order.flatMap (under s xs) := by
        apply flatMap_congr'
        intro p hpm
        rw [hunder, under_snoc, if_neg (fun h => huo (by rw [← (hy0 p).1 h]; exact hpm)), List.append_nil]
      have h3 : [y.part].flatMap (under (⟨s.edges, (y.part, y.res) :: s.partitions, s.next, y.id :: s.rootFields⟩ : State) (xs ++ [y])) = [y] := by
        simp only [List.flatMap_cons, List.flatMap_nil, List.append_nil]
        rw [hunder, under_snoc, if_pos ((hy0 _).2 rfl)]
        have : under s xs y.part = [] := by
          unfold under
          rw [List.filter_eq_nil_iff]
          intro f hf h
          simp only [decide_eq_true_eq] at h
          exact huo (hi.closed f hf _ h)
        rw [this, List.nil_append]
      rw [h2, h3, hi.trace]
    · rw [horder, List.nodup_append]
      refine ⟨hi.nodup, by simp, ?_⟩
      intro a ha b hb
      simp at hb
      subst hb
      intro e
      exact huo (e ▸ ha)
    · intro x hxm p hpm
      rw [horder]
      simp at hxm
      rcases hxm with hxm | rfl
      · exact List.mem_append_left _ (hi.closed x hxm p hpm)
      · rw [(hy0 p).1 hpm]; simp
    · intro q hq
      simp only [List.mem_cons] at hq
      rcases hq with rfl | hq
      · have h2 := wf.fresh y (by simp)
        have h3 := hi.next
        exact ⟨by simp only; omega, Or.inr ⟨y, by simp, rfl, rfl⟩⟩
      · obtain ⟨h1, h2⟩ := hi.parts q hq
        refine ⟨h1, ?_⟩
        rcases h2 with h2 | ⟨x, hx, e⟩
        · exact Or.inl h2
        · exact Or.inr ⟨x, by simp [hx], e⟩
    · intro x hxm
      rw [horder]
      simp at hxm
      rcases hxm with hxm | rfl
      · exact List.mem_append_left _ (hi.used x hxm)
      · simp
    · intro h; simp at h
    · intro lp lr ps h
      simp at h
      obtain ⟨⟨rfl, rfl⟩, rfl⟩ := h
      refine ⟨xs, y, rfl, rfl, Or.inl ⟨rfl, ?_⟩⟩
      rintro ⟨a, w, h1, h2, -⟩
      exact hnores a (h1.subset (by simp)) h2

/-- One step: the invariant goes on and the field does not return to a run, or the field ends up in two
partitions. -/
theorem step_inv (wf : Wf (xs ++ y :: ys) next0) (hi : Inv next0 xs (y :: ys) s) :
    (Inv next0 (xs ++ [y]) ys (processField s y) ∧ ¬ BadAt xs y) ∨
      (BadAt xs y ∧ ∃ p q, p ≠ q ∧ p ∈ (processField s y).order ∧ q ∈ (processField s y).order ∧
        (p, y.id) ∈ (processField s y).edges ∧ (q, y.id) ∈ (processField s y).edges) := by
  unfold processField
  cases hp : s.partitions with
  | nil =>
    simp only [List.head?_nil]
    refine Or.inl ⟨step_new wf hi (fun _ _ _ h => by simp [hp] at h), ?_⟩
    rintro ⟨pre, x, e, -⟩
    have := hi.empty hp
    simp [this] at e
  | cons q ps =>
    obtain ⟨lp, lr⟩ := q
    simp only [List.head?_cons]
    obtain ⟨pre, x, e, hxr, hcase⟩ := hi.last _ _ _ hp
    by_cases hr : lr = y.res
    · rw [if_pos hr]
      have hpart : x.part = y.part := by
        refine (wf.parts x ?_ y (by simp)).2 (hxr.trans hr)
        rw [e]; simp
      by_cases hpp : y.part = lp
      · rw [if_pos hpp]
        refine Or.inl ⟨step_continue wf hi (hpp ▸ hp) hr, ?_⟩
        rintro ⟨pre', x', e', -, hl⟩
        rw [e] at e'
        obtain ⟨rfl, rfl⟩ : pre = pre' ∧ x = x' := by
          have := List.append_inj' e' rfl
          simpa using this
        rcases hcase with ⟨-, h⟩ | ⟨h, -⟩
        · exact h (hxr ▸ hl)
        · have := wf.fresh y (by simp)
          omega
      · rw [if_neg hpp]
        rcases hcase with ⟨h, -⟩ | ⟨hge, hl⟩
        · exact absurd (h.trans hpart).symm hpp
        · refine Or.inr ⟨⟨pre, x, e, hxr.trans hr, by rw [hxr]; exact hl⟩, lp, s.next, ?_, ?_, ?_, ?_, ?_⟩
          · have := (hi.parts (lp, lr) (by simp [hp])).1
            simp only at this
            omega
          all_goals
            have hused : y.part ∈ s.order := hpart ▸ hi.used x (by rw [e]; simp)
            have hu : ((lp, lr) :: ps).any (fun p => p.1 == y.part) = true := by
              rw [← hp]; exact any_iff.2 hused
            simp only [place, hu, if_true]
          · simp [State.order, hp]
          · simp [State.order]
          · simp only [List.mem_cons]
            refine Or.inr (erase_mem (List.mem_cons_self ..) ?_)
            intro h
            exact hpp (by simpa using (congrArg Prod.fst h).symm)
          · simp
    · rw [if_neg hr]
      refine Or.inl ⟨step_new wf hi ?_, ?_⟩
      · intro lp' lr' ps' h
        rw [hp] at h
        simp at h
        rw [← h.1.2]
        exact hr
      · rintro ⟨pre', x', e', h, -⟩
        rw [e] at e'
        obtain ⟨rfl, rfl⟩ : pre = pre' ∧ x = x' := by
          have := List.append_inj' e' rfl
          simpa using this
        exact hr (hxr.symm.trans h)

end

theorem run_inv {next0 : Nat} (ys : List Field) : ∀ (xs : List Field) (s : State),
    Wf (xs ++ ys) next0 → Inv next0 xs ys s →
    (Inv next0 (xs ++ ys) [] (ys.foldl processField s) ∧
        ∀ ys1 z ys2, ys = ys1 ++ z :: ys2 → ¬ BadAt (xs ++ ys1) z) ∨
      (Dup (xs ++ ys) (ys.foldl processField s) ∧ ∃ ys1 z ys2, ys = ys1 ++ z :: ys2 ∧ BadAt (xs ++ ys1) z) := by
  induction ys with
  | nil =>
    intro xs s _ hi
    exact Or.inl ⟨by simpa using hi, fun ys1 z ys2 h => by simp at h⟩
  | cons y ys ih =>
    intro xs s wf hi
    rcases step_inv wf hi with ⟨hi', hb⟩ | ⟨hb, p, q, hne, hp, hq, ep, eq⟩
    · have wf' : Wf ((xs ++ [y]) ++ ys) next0 := by simpa using wf
      rcases ih (xs ++ [y]) _ wf' hi' with ⟨h1, h2⟩ | ⟨h1, ys1, z, ys2, e, h2⟩
      · refine Or.inl ⟨by simpa using h1, ?_⟩
        intro ys1 z ys2 e
        cases ys1 with
        | nil =>
          simp at e
          obtain ⟨rfl, -⟩ := e
          simpa using hb
        | cons a ys1 =>
          simp at e
          obtain ⟨rfl, e⟩ := e
          have := h2 ys1 z ys2 e
          simpa using this
      · exact Or.inr ⟨by simpa using h1, y :: ys1, z, ys2, by simp [e], by simpa using h2⟩
    · refine Or.inr ⟨?_, [], y, ys, rfl, by simpa using hb⟩
      have hids := (ne_of_ids wf).2
      obtain ⟨h1, h2, h3, h4⟩ := dup_foldl y p q ys (fun z hz => (hids z hz).symm) _ hp hq ep eq
      exact ⟨y, by simp, p, q, hne, h1, h2, h3, h4⟩

theorem inv_initial {fields : List Field} {next : Nat} (wf : Wf fields next) :
    Inv next [] fields (initial fields next) := by
  refine ⟨by simp [initial, State.order], by simp [initial, State.order], fun x hx => by simp at hx, ?_, ?_,
    Nat.le_refl _, fun q hq => by simp [initial] at hq, fun x hx => by simp at hx, fun _ => rfl,
    fun _ _ _ h => by simp [initial] at h⟩
  · intro y hy p
    simp only [initial, List.mem_map, Prod.mk.injEq]
    constructor
    · rintro ⟨a, ha, rfl, e⟩
      rw [List.inj_on_of_nodup_map wf.ids ha hy e]
    · rintro rfl; exact ⟨y, hy, rfl, rfl⟩
  · refine List.Nodup.of_map Prod.snd ?_
    simp only [initial, List.map_map]
    exact wf.ids

end Verif.MutationOrder
