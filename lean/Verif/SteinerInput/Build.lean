import Verif.SteinerInput.Lemmas
/-!
# The loops keep the invariant
-/
namespace Verif.SteinerInput

open Verif.Flac Verif.Updater Verif.OpChecks

/-- The requirements of a node as they are stored. -/
def ids (sp : Space) (n : Nat) : List Nat := sortBy (fun x y => decide (x ≤ y)) (sp.requires n)

theorem mem_ids {sp : Space} {n r : Nat} : r ∈ ids sp n ↔ r ∈ sp.requires n := mem_sort

/-- The requirements of `n` are known. -/
structure Registered (sp : Space) (P : List Nat) (b : B) (n m : Nat) : Prop where
  rep : b.rep[m]? = some n
  known : (m, ids sp n) ∈ b.byNode ∨ (∃ e ∈ sp.incoming n, sp.kind e ≠ .provides) ∧
    ∀ e ∈ sp.incoming n, sp.kind e ≠ .provides → (e, ids sp n) ∈ b.byEdge ∨ (sp.src e, e, ids sp n) ∈ b.byReq
  mapped : ∀ r ∈ sp.requires n, r ∈ P ∨ r ∈ b.disp ∨ b.map r ≠ none

/-- More is known. -/
structure More (b b' : B) : Prop where
  rep : b.rep <+: b'.rep
  map : ∀ i k : Nat, b.map i = some k → b'.map i = some k
  byNode : ∀ p ∈ b.byNode, p ∈ b'.byNode
  byEdge : ∀ p ∈ b.byEdge, p ∈ b'.byEdge
  byReq : ∀ p ∈ b.byReq, p ∈ b'.byReq
  interned : ∀ p ∈ b.interned, p ∈ b'.interned
  disp : ∀ p ∈ b.disp, p ∈ b'.disp

theorem More.refl (b : B) : More b b := ⟨List.prefix_refl _, fun _ _ h => h, fun _ h => h, fun _ h => h, fun _ h => h, fun _ h => h, fun _ h => h⟩

theorem More.trans {a b c : B} (h : More a b) (h' : More b c) : More a c :=
  ⟨h.rep.trans h'.rep, fun i k hi => h'.map i k (h.map i k hi), fun p hp => h'.byNode p (h.byNode p hp), fun p hp => h'.byEdge p (h.byEdge p hp),
    fun p hp => h'.byReq p (h.byReq p hp), fun p hp => h'.interned p (h.interned p hp), fun p hp => h'.disp p (h.disp p hp)⟩

theorem More.get {b b' : B} (h : More b b') {m n : Nat} (hm : b.rep[m]? = some n) : b'.rep[m]? = some n := by
  obtain ⟨t, ht⟩ := h.rep
  rw [← ht, List.getElem?_append_left (List.getElem?_eq_some_iff.1 hm).1]; exact hm

theorem More.mapped {b b' : B} (h : More b b') {i : Nat} (hi : b.map i ≠ none) : b'.map i ≠ none := by
  obtain ⟨k, hk⟩ := Option.ne_none_iff_exists'.1 hi
  rw [h.map i k hk]; simp

theorem Registered.more {sp : Space} {P : List Nat} {b b' : B} {n m : Nat} (h : Registered sp P b n m) (h' : More b b') : Registered sp P b' n m := by
  refine ⟨h'.get h.rep, ?_, fun r hr => ?_⟩
  · rcases h.known with k | k
    · exact .inl (h'.byNode _ k)
    · exact .inr ⟨k.1, fun e he hk => (k.2 e he hk).imp (h'.byEdge _) (h'.byReq _)⟩
  · rcases h.mapped r hr with k | k | k
    · exact .inl k
    · exact .inr (.inl (h'.disp _ k))
    · exact .inr (.inr (h'.mapped k))

/-- Where the required nodes come from, and that none is lost. -/
structure Reqs (sp : Space) (S P : List Nat) (b : B) : Prop where
  need : ∀ n, b.map n ≠ none ∨ n ∈ b.path.map Prod.fst → n ≠ sp.root → ∀ r ∈ sp.requires n, r ∈ b.indisp ∨ r ∈ S ∨ ∃ m, Registered sp P b n m
  node : ∀ p ∈ b.byNode, ∃ n, b.rep[p.1]? = some n ∧ n ≠ sp.root ∧ p.2 = ids sp n ∧ ∀ r ∈ p.2, r ∈ P ∨ r ∈ b.disp ∨ b.map r ≠ none
  edge : ∀ p ∈ b.byEdge, ∃ n, n ∈ b.rep ∧ p.2 = ids sp n ∧ p.1 ∈ sp.incoming n ∧ sp.kind p.1 ≠ .provides ∧ isFree sp (sp.src p.1) p.2 = true ∧
    ∃ e ∈ sp.incoming n, sp.kind e ≠ .provides ∧ isFree sp (sp.src e) p.2 = false
  req : ∀ p ∈ b.byReq, ∃ n, n ∈ b.rep ∧ n ≠ sp.root ∧ p.2.2 = ids sp n ∧ p.2.1 ∈ sp.incoming n ∧ p.1 = sp.src p.2.1 ∧ p.2.2 ∈ b.interned ∧
    ∀ r ∈ p.2.2, r ∈ P ∨ r ∈ b.disp ∨ b.map r ≠ none
  orig : ∀ r ∈ b.indisp, (r, true) ∈ sp.leaf ∨ ∃ y ∈ S, ∃ n, Back sp y n ∧ r ∈ sp.requires n

variable {sp : Space} {x : Nat} {ind : Bool} {b b' : B} {st : List Item} {term : Option Nat} {S P : List Nat}

/-- Nothing new is registered. -/
theorem Reqs.more (h : Reqs sp S P b) (h' : More b b') (h1 : b'.byNode = b.byNode) (h2 : b'.byEdge = b.byEdge) (h3 : b'.byReq = b.byReq)
    (h4 : ∀ r ∈ b.indisp, r ∈ b'.indisp)
    (h5 : ∀ r ∈ b'.indisp, r ∈ b.indisp ∨ ∃ y ∈ S, ∃ n, Back sp y n ∧ r ∈ sp.requires n)
    (h6 : ∀ n, b'.map n ≠ none ∨ n ∈ b'.path.map Prod.fst → (b.map n ≠ none ∨ n ∈ b.path.map Prod.fst) ∨ ∀ r ∈ sp.requires n, r ∈ b'.indisp) :
    Reqs sp S P b' := by
  have mapped : ∀ r, r ∈ P ∨ r ∈ b.disp ∨ b.map r ≠ none → r ∈ P ∨ r ∈ b'.disp ∨ b'.map r ≠ none := fun r hr =>
    hr.imp_right (Or.imp (h'.disp r) h'.mapped)
  refine ⟨fun n hn hr r hm => ?_, fun p hp => ?_, fun p hp => ?_, fun p hp => ?_, fun r hr => ?_⟩
  · rcases h6 n hn with k | k
    · rcases h.need n k hr r hm with j | j | ⟨m, j⟩
      · exact .inl (h4 r j)
      · exact .inr (.inl j)
      · exact .inr (.inr ⟨m, j.more h'⟩)
    · exact .inl (k r hm)
  · obtain ⟨n, k1, k2, k3, k4⟩ := h.node p (h1 ▸ hp)
    exact ⟨n, h'.get k1, k2, k3, fun r hr => mapped r (k4 r hr)⟩
  · obtain ⟨n, k1, k2⟩ := h.edge p (h2 ▸ hp)
    exact ⟨n, h'.rep.subset k1, k2⟩
  · obtain ⟨n, k1, k2, k3, k4, k5, k6, k7⟩ := h.req p (h3 ▸ hp)
    exact ⟨n, h'.rep.subset k1, k2, k3, k4, k5, h'.interned _ k6, fun r hr => mapped r (k7 r hr)⟩
  · rcases h5 r hr with k | k
    · exact h.orig r k
    · exact .inr k

/-- What handling children changes. -/
theorem handle_eq (b : B) (m : Nat) (it : Item) : ∃ dep es em, b.handle m it =
    { b with map := fun i => if i ∈ b.path.map Prod.fst then some m else b.map i, depth := dep, path := [], edges := es, emap := em } := by
  obtain ⟨dep, he⟩ := popPath_eq m b.path 0 b
  unfold B.handle
  cases it.child with
  | none => exact ⟨dep, b.edges, b.emap, he⟩
  | some p =>
    obtain ⟨c, e, w⟩ := p
    exact ⟨dep, b.edges ++ [⟨m, c, w + dep it.node⟩], upd b.emap e b.edges.length, by simp only [he, B.addEdge]⟩

theorem handle_more {m : Nat} {it : Item} (hf : ∀ p ∈ b.path.map Prod.fst, b.map p = none) : More b (b.handle m it) := by
  obtain ⟨dep, es, em, he⟩ := handle_eq b m it
  rw [he]
  refine ⟨List.prefix_refl _, fun i k hi => ?_, fun _ h => h, fun _ h => h, fun _ h => h, fun _ h => h, fun _ h => h⟩
  simp only
  rw [if_neg (fun hp => by rw [hf i hp] at hi; cases hi)]; exact hi

theorem addNode_more {n : Nat} (hn : b.map n = none) : More b (b.addNode n) := by
  refine ⟨List.prefix_append _ _, fun i k hi => ?_, fun _ h => h, fun _ h => h, fun _ h => h, fun _ h => h, fun _ h => h⟩
  simp only [B.addNode, upd]
  rw [if_neg (fun hp => by rw [hp, hn] at hi; cases hi)]; exact hi

theorem Reqs.handle {m : Nat} {it : Item} (h : Reqs sp S P b) (hf : ∀ p ∈ b.path.map Prod.fst, b.map p = none) : Reqs sp S P (b.handle m it) := by
  refine h.more (handle_more hf) ?_ ?_ ?_ ?_ ?_ ?_ <;> (obtain ⟨dep, es, em, he⟩ := handle_eq b m it; rw [he]) <;> try rfl
  · exact fun r hr => hr
  · exact fun r hr => .inl hr
  · intro n hn
    simp only [List.map_nil, List.not_mem_nil, or_false] at hn
    left
    by_cases hp : n ∈ b.path.map Prod.fst
    · exact .inr hp
    · rw [if_neg hp] at hn; exact .inl hn

theorem register_edges (m n : Nat) (l : List Nat) : (b.register sp m n l).edges = b.edges ∧ (b.register sp m n l).rep = b.rep ∧
    (b.register sp m n l).map = b.map ∧ (b.register sp m n l).emap = b.emap ∧ (b.register sp m n l).path = b.path ∧
    (b.register sp m n l).indisp = b.indisp := by
  unfold B.register
  split
  · simp
  · dsimp only
    split <;> simp

theorem Run.frame (h : Run sp x ind b st term) (h1 : b'.edges = b.edges) (h2 : b'.rep = b.rep) (h3 : b'.map = b.map) (h4 : b'.emap = b.emap)
    (h5 : b'.path = b.path) : Run sp x ind b' st term := by
  obtain ⟨e, r, m, em, i1, d1, de, p, it1, n1, e1, r1⟩ := b'
  simp only at h1 h2 h3 h4 h5
  subst h1; subst h2; subst h3; subst h4; subst h5
  exact ⟨⟨h.good.root, h.good.rep, h.good.comp, h.good.up, h.good.edge, h.good.surj, h.good.inj⟩, h.pend, h.nodup, h.rest, h.top, h.stop, h.fresh, h.found,
    h.disp, h.first, h.all⟩

theorem register_more (m n : Nat) (l : List Nat) : More b (b.register sp m n l) := by
  unfold B.register
  split
  · exact .refl b
  · dsimp only
    refine ⟨?_, ?_, ?_, ?_, ?_, ?_, ?_⟩ <;> split <;>
      first
      | exact List.prefix_refl _
      | exact fun _ _ h => h
      | exact fun _ h => h
      | exact fun p hp => List.mem_append.2 (.inl hp)
      | exact fun p hp => List.mem_append.2 (.inr hp)
      | (intro p hp; simp only; split <;> first | exact hp | exact List.mem_append.2 (.inl hp))

/-- A new node, and its requirements. -/
theorem Reqs.register {n m : Nat} (hd : Reqs sp S P b) (h : More b b') (hm : b'.rep[m]? = some n) (hr : n ≠ sp.root)
    (h1 : b'.byNode = b.byNode) (h2 : b'.byEdge = b.byEdge) (h3 : b'.byReq = b.byReq) (h4 : b'.indisp = b.indisp)
    (h6 : ∀ k, b'.map k ≠ none ∨ k ∈ b'.path.map Prod.fst → (b.map k ≠ none ∨ k ∈ b.path.map Prod.fst) ∨ k = n) :
    Reqs sp S P (b'.register sp m n (sp.requires n)) := by
  have hmore := h.trans (register_more (sp := sp) (b := b') m n (sp.requires n))
  have hfr := register_edges (sp := sp) (b := b') m n (sp.requires n)
  have mapped : ∀ r, r ∈ P ∨ r ∈ b.disp ∨ b.map r ≠ none →
      r ∈ P ∨ r ∈ (b'.register sp m n (sp.requires n)).disp ∨ (b'.register sp m n (sp.requires n)).map r ≠ none := fun r hr =>
    hr.imp_right (Or.imp (hmore.disp r) hmore.mapped)
  have hdisp : ∀ r ∈ ids sp n, r ∈ (b'.register sp m n (sp.requires n)).disp := by
    intro r hr
    unfold B.register
    split
    · next he => rw [mem_ids, he] at hr; simp at hr
    · exact List.mem_append.2 (.inl (by simpa [ids] using hr))
  have hmem : ids sp n ∈ (b'.register sp m n (sp.requires n)).interned ∨ sp.requires n = [] := by
    unfold B.register
    split
    · next he => exact .inr he
    · left
      dsimp only
      split <;> simp only <;> split
      all_goals first | (simp [ids]; done) | (next hc => simpa [ids] using hc)
  have hnode : ∀ p ∈ (b'.register sp m n (sp.requires n)).byNode, p ∈ b.byNode ∨ p = (m, ids sp n) := by
    intro p hp
    rw [← h1]
    unfold B.register at hp
    split at hp
    · exact .inl hp
    · dsimp only at hp
      split at hp
      · simpa [ids] using hp
      · exact .inl hp
  have hedge : ∀ p ∈ (b'.register sp m n (sp.requires n)).byEdge, p ∈ b.byEdge ∨ p.2 = ids sp n ∧ p.1 ∈ sp.incoming n ∧ sp.kind p.1 ≠ .provides ∧
      isFree sp (sp.src p.1) p.2 = true ∧ ∃ e ∈ sp.incoming n, sp.kind e ≠ .provides ∧ isFree sp (sp.src e) p.2 = false := by
    intro p hp
    rw [← h2]
    unfold B.register at hp
    split at hp
    · exact .inl hp
    · dsimp only at hp
      split at hp
      · exact .inl hp
      · next hall =>
        simp only [List.mem_append, List.mem_map, List.mem_filter] at hp
        rcases hp with hp | ⟨e, ⟨⟨k1, k2⟩, k3⟩, rfl⟩
        · exact .inl hp
        · simp only [List.all_eq_true, List.mem_filter] at hall
          refine .inr ⟨rfl, k1, by simpa using k2, k3, ?_⟩
          simp only [Classical.not_forall, Bool.not_eq_true, decide_eq_true_eq, exists_prop] at hall
          obtain ⟨e', ⟨j1, j2⟩, j3⟩ := hall
          exact ⟨e', j1, j2, j3⟩
  have hreq : ∀ p ∈ (b'.register sp m n (sp.requires n)).byReq, p ∈ b.byReq ∨ p.2.2 = ids sp n ∧ p.2.1 ∈ sp.incoming n ∧ p.1 = sp.src p.2.1 ∧ sp.requires n ≠ [] := by
    intro p hp
    rw [← h3]
    unfold B.register at hp
    split at hp
    · exact .inl hp
    · next hne =>
      have hp' : p ∈ b'.byReq ++ (((sp.incoming n).filter fun e => decide (sp.kind e ≠ .provides)).filter fun e => !isFree sp (sp.src e) (ids sp n)).map fun e => (sp.src e, e, ids sp n) := by
        dsimp only at hp
        split at hp <;> exact hp
      simp only [List.mem_append, List.mem_map, List.mem_filter] at hp'
      rcases hp' with hp' | ⟨e, ⟨⟨k1, k2⟩, k3⟩, rfl⟩
      · exact .inl hp'
      · exact .inr ⟨rfl, k1, rfl, hne⟩
  have hreg : sp.requires n ≠ [] → Registered sp P (b'.register sp m n (sp.requires n)) n m := by
    intro hne
    refine ⟨by rw [hfr.2.1]; exact hm, ?_, fun r hr => .inr (.inl (hdisp r (mem_ids.2 hr)))⟩
    unfold B.register
    rw [if_neg hne]
    dsimp only
    split
    · left; simp [ids]
    · next hall =>
      right
      refine ⟨?_, fun e he hk => ?_⟩
      · simp only [List.all_eq_true, List.mem_filter, Classical.not_forall, decide_eq_true_eq, exists_prop] at hall
        obtain ⟨e', ⟨j1, j2⟩, -⟩ := hall
        exact ⟨e', j1, j2⟩
      simp only [List.mem_append, List.mem_map, List.mem_filter]
      by_cases hf : isFree sp (sp.src e) (ids sp n) = true
      · exact .inl (.inr ⟨e, ⟨⟨he, by simpa using hk⟩, hf⟩, rfl⟩)
      · exact .inr (.inr ⟨e, ⟨⟨he, by simpa using hk⟩, by simpa [ids] using hf⟩, rfl⟩)
  refine ⟨fun k hk hkr r hkm => ?_, fun p hp => ?_, fun p hp => ?_, fun p hp => ?_, fun r hr => ?_⟩
  · rw [hfr.2.2.1, hfr.2.2.2.2.1] at hk
    rcases h6 k hk with g | rfl
    · rcases hd.need k g hkr r hkm with j | j | ⟨m, j⟩
      · exact .inl (by rw [hfr.2.2.2.2.2, h4]; exact j)
      · exact .inr (.inl j)
      · exact .inr (.inr ⟨m, j.more hmore⟩)
    · exact .inr (.inr ⟨m, hreg (List.ne_nil_of_mem hkm)⟩)
  · rcases hnode p hp with hp | rfl
    · obtain ⟨n, k1, k2, k3, k4⟩ := hd.node p hp
      exact ⟨n, hmore.get k1, k2, k3, fun r hr => mapped r (k4 r hr)⟩
    · exact ⟨n, by rw [hfr.2.1]; exact hm, hr, rfl, fun r hr => .inr (.inl (hdisp r hr))⟩
  · rcases hedge p hp with hp | hp
    · obtain ⟨n, k1, k2⟩ := hd.edge p hp
      exact ⟨n, hmore.rep.subset k1, k2⟩
    · exact ⟨n, by rw [hfr.2.1]; exact List.mem_of_getElem? hm, hp⟩
  · rcases hreq p hp with hp | ⟨k1, k2, k3, k4⟩
    · obtain ⟨n, k1, k2, k3, k4, k5, k6, k7⟩ := hd.req p hp
      exact ⟨n, hmore.rep.subset k1, k2, k3, k4, k5, hmore.interned _ k6, fun r hr => mapped r (k7 r hr)⟩
    · exact ⟨n, by rw [hfr.2.1]; exact List.mem_of_getElem? hm, hr, k1, k2, k3, by rw [k1]; exact hmem.resolve_right k4,
        fun r hr => .inr (.inl (hdisp r (by rw [← k1]; exact hr)))⟩
  · rw [hfr.2.2.2.2.2, h4] at hr
    exact hd.orig r hr

/-- What the loop over the nodes from a terminal keeps and brings about. -/
theorem ingest_spec (n : Nat) {term' : Option Nat} (h : Run sp x ind b st term) (hr : Reqs sp S P b) (hx : ind = true → x ∈ S)
    (hi : ingest sp n b st term = .ok (b', term')) :
    Run sp x ind b' [] term' ∧ Reqs sp S P b' ∧ More b b' ∧ (ind = false → b'.indisp = b.indisp) := by
  induction n generalizing b st term with
  | zero => simp [ingest] at hi
  | succ n ih =>
    cases st with
    | nil =>
      simp only [ingest, Out.ok.injEq, Prod.mk.injEq] at hi
      obtain ⟨rfl, rfl⟩ := hi
      exact ⟨h, hr, .refl _, fun _ => rfl⟩
    | cons it st =>
      have hfresh : ∀ p ∈ b.path.map Prod.fst, b.map p = none := fun p hp => (h.fresh p hp).1
      have hback : term = none → ind = true ∧ Back sp x it.node := by
        intro ht
        have hind : ind = true := by
          cases hc : ind with
          | true => rfl
          | false => exact absurd ht (h.disp hc)
        refine ⟨hind, ?_⟩
        cases hc : it.child with
        | none =>
          have hl := h.top it (by simp)
          rw [show it.start sp x = x by simp [Item.start, hc]] at hl
          exact hl.back
        | some p =>
          obtain ⟨m, -, h2⟩ := h.found (fun it' hi => by simp only [List.head?_cons, Option.mem_some_iff] at hi; subst hi; rw [hc]; simp)
          have := h2 hind
          rw [ht] at this; cases this
      unfold ingest at hi
      dsimp only at hi
      cases hm : b.map it.node with
      | some m =>
        rw [hm] at hi
        obtain ⟨k1, k2, k3, k4⟩ := ih (h.handle hm) (hr.handle hfresh) hi
        refine ⟨k1, k2, (handle_more hfresh).trans k3, fun hf => (k4 hf).trans ?_⟩
        obtain ⟨dep, es, em, he⟩ := handle_eq b m it
        rw [he]
      | none =>
        rw [hm] at hi
        dsimp only at hi
        have hroot : it.node ≠ sp.root := fun hr => by
          have := h.good.rep 0 _ h.good.root
          rw [← hr, hm] at this; cases this
        -- a node is added
        have hadd : ∀ es : List Nat, es.Perm (sp.incoming it.node) → it.node ∉ b.path.map Prod.fst →
            Run sp x ind (b.add it) (items sp b.rep.length es ++ st) (some (term.getD b.rep.length)) ∧ More b (b.add it) ∧
              (b.add it).rep[b.rep.length]? = some it.node ∧ (b.add it).byNode = b.byNode ∧ (b.add it).byEdge = b.byEdge ∧
              (b.add it).byReq = b.byReq ∧ (b.add it).indisp = b.indisp ∧
              ∀ k, (b.add it).map k ≠ none ∨ k ∈ (b.add it).path.map Prod.fst → (b.map k ≠ none ∨ k ∈ b.path.map Prod.fst) ∨ k = it.node := by
          intro es hes hp
          have g1 := h.addNode hm hp hes
          have g2 := g1.handle (m := b.rep.length) (by simp [B.addNode, upd])
          have hf' : ∀ p ∈ (b.addNode it.node).path.map Prod.fst, (b.addNode it.node).map p = none := fun p hp => (g1.fresh p hp).1
          have g3 := (addNode_more hm).trans (handle_more (m := b.rep.length) (it := it) hf')
          obtain ⟨dep, es', em, he⟩ := handle_eq (b.addNode it.node) b.rep.length it
          refine ⟨g2, g3, ?_, ?_, ?_, ?_, ?_, ?_⟩
          · unfold B.add; rw [he]; simp [B.addNode]
          · unfold B.add; rw [he]; rfl
          · unfold B.add; rw [he]; rfl
          · unfold B.add; rw [he]; rfl
          · unfold B.add; rw [he]; rfl
          · intro k hk
            unfold B.add at hk
            rw [he] at hk
            simp only [List.map_nil, List.not_mem_nil, or_false] at hk
            by_cases hp : k ∈ b.path.map Prod.fst
            · exact .inl (.inr hp)
            · rw [if_neg (show ¬ k ∈ (b.addNode it.node).path.map Prod.fst from hp)] at hk
              simp only [B.addNode, upd] at hk
              by_cases hkn : k = it.node
              · exact .inr hkn
              · rw [if_neg hkn] at hk; exact .inl (.inl hk)
        cases hin : sp.incoming it.node with
        | nil => rw [hin] at hi; simp at hi
        | cons e es =>
          rw [hin] at hi
          cases es with
          | nil =>
            dsimp only at hi
            by_cases ht : term = none
            · rw [if_pos ht] at hi
              obtain ⟨hind, hb⟩ := hback ht
              have g := h.push (w := if (sp.kind e).weight > 0 then 1 else 0) (ids := (sp.requires it.node).reverse ++ b.indisp) hm hin (fun hc => absurd ht hc)
              have g' : More b { b with indisp := (sp.requires it.node).reverse ++ b.indisp, path := (it.node, if (sp.kind e).weight > 0 then 1 else 0) :: b.path } :=
                ⟨List.prefix_refl _, fun _ _ h => h, fun _ h => h, fun _ h => h, fun _ h => h, fun _ h => h, fun _ h => h⟩
              obtain ⟨k1, k2, k3, k4⟩ := ih g (hr.more g' rfl rfl rfl (fun r hr => List.mem_append.2 (.inr hr)) (fun r hr => by
                  rcases List.mem_append.1 hr with hr | hr
                  · exact .inr ⟨x, hx hind, it.node, hb, by simpa using hr⟩
                  · exact .inl hr) (fun k hk => by
                  simp only [List.map_cons, List.mem_cons] at hk
                  rcases hk with hk | rfl | hk
                  · exact .inl (.inl hk)
                  · exact .inr fun r hr => List.mem_append.2 (.inl (by simpa using hr))
                  · exact .inl (.inr hk))) hi
              exact ⟨k1, k2, g'.trans k3, fun hf => by rw [hind] at hf; cases hf⟩
            · rw [if_neg ht] at hi
              by_cases hw : sp.requires it.node ≠ [] ∨ (sp.kind e).weight > 0
              · rw [if_pos hw] at hi
                have hp : it.node ∉ b.path.map Prod.fst := fun hp => by
                  obtain ⟨-, e', h1, h2⟩ := h.fresh _ hp
                  rw [hin] at h1; cases h1
                  obtain ⟨j1, j2⟩ := h2 ht
                  rcases hw with hw | hw
                  · exact hw j1
                  · omega
                obtain ⟨g1, g2, g3, g4, g5, g6, g7, g8⟩ := hadd [e] (by rw [hin]) hp
                have hfr := register_edges (sp := sp) (b := b.add it) b.rep.length it.node (sp.requires it.node)
                have ht' : some (term.getD b.rep.length) = term := by
                  obtain ⟨k, hk⟩ := Option.ne_none_iff_exists'.1 ht
                  rw [hk]; rfl
                rw [ht'] at g1
                obtain ⟨k1, k2, k3, k4⟩ := ih (g1.frame hfr.1 hfr.2.1 hfr.2.2.1 hfr.2.2.2.1 hfr.2.2.2.2.1)
                  (hr.register g2 g3 hroot g4 g5 g6 g7 g8) hi
                exact ⟨k1, k2, (g2.trans (register_more _ _ _)).trans k3, fun hf => (k4 hf).trans (hfr.2.2.2.2.2.trans g7)⟩
              · rw [if_neg hw] at hi
                have hw1 : sp.requires it.node = [] := Classical.byContradiction fun hc => hw (.inl hc)
                have hw2 : (sp.kind e).weight = 0 := by
                  have : ¬ (sp.kind e).weight > 0 := fun hc => hw (.inr hc)
                  omega
                have g := h.push (w := if (sp.kind e).weight > 0 then 1 else 0) (ids := b.indisp) hm hin (fun _ => ⟨hw1, hw2⟩)
                have g' : More b { b with indisp := b.indisp, path := (it.node, if (sp.kind e).weight > 0 then 1 else 0) :: b.path } :=
                  ⟨List.prefix_refl _, fun _ _ h => h, fun _ h => h, fun _ h => h, fun _ h => h, fun _ h => h, fun _ h => h⟩
                obtain ⟨k1, k2, k3, k4⟩ := ih g (hr.more g' rfl rfl rfl (fun r hr => hr) (fun r hr => .inl hr) (fun k hk => by
                    simp only [List.map_cons, List.mem_cons] at hk
                    rcases hk with hk | rfl | hk
                    · exact .inl (.inl hk)
                    · exact .inr (by rw [hw1]; simp)
                    · exact .inl (.inr hk))) hi
                exact ⟨k1, k2, g'.trans k3, k4⟩
          | cons e' es =>
            dsimp only at hi
            have hp : it.node ∉ b.path.map Prod.fst := fun hp => by
              obtain ⟨-, e', h1, h2⟩ := h.fresh _ hp
              rw [hin] at h1; cases h1
            have hitems : ((e :: e' :: es).map fun e => (⟨sp.src e, some (b.rep.length, e, (sp.kind e).weight)⟩ : Item)).reverse =
                items sp b.rep.length (e :: e' :: es).reverse := by simp [items]
            obtain ⟨g1, g2, g3, g4, g5, g6, g7, g8⟩ := hadd (e :: e' :: es).reverse (by rw [hin]; exact List.reverse_perm _) hp
            rw [hitems] at hi
            by_cases ht : term = none
            · rw [if_pos ht] at hi
              obtain ⟨hind, hb⟩ := hback ht
              have g' : More b { b.add it with indisp := (sp.requires it.node).reverse ++ (b.add it).indisp } :=
                ⟨g2.rep, g2.map, g2.byNode, g2.byEdge, g2.byReq, g2.interned, g2.disp⟩
              obtain ⟨k1, k2, k3, k4⟩ := ih (g1.frame (b' := { b.add it with indisp := (sp.requires it.node).reverse ++ (b.add it).indisp }) rfl rfl rfl rfl rfl)
                (hr.more g' g4 g5 g6 (fun r hr => List.mem_append.2 (.inr (by rw [g7]; exact hr))) (fun r hr => by
                  rcases List.mem_append.1 hr with hr | hr
                  · exact .inr ⟨x, hx hind, it.node, hb, by simpa using hr⟩
                  · exact .inl (by rw [← g7]; exact hr)) (fun k hk => by
                  rcases g8 k hk with hk | rfl
                  · exact .inl hk
                  · exact .inr fun r hr => List.mem_append.2 (.inl (by simpa using hr)))) hi
              exact ⟨k1, k2, g'.trans k3, fun hf => by rw [hind] at hf; cases hf⟩
            · rw [if_neg ht] at hi
              have hfr := register_edges (sp := sp) (b := b.add it) b.rep.length it.node (sp.requires it.node)
              obtain ⟨k1, k2, k3, k4⟩ := ih (g1.frame hfr.1 hfr.2.1 hfr.2.2.1 hfr.2.2.2.1 hfr.2.2.2.2.1)
                (hr.register g2 g3 hroot g4 g5 g6 g7 g8) hi
              exact ⟨k1, k2, (g2.trans (register_more _ _ _)).trans k3, fun hf => (k4 hf).trans (hfr.2.2.2.2.2.trans g7)⟩

end Verif.SteinerInput
