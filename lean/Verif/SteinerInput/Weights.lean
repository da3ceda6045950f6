import Verif.SteinerInput.Loops
/-!
# The weights of the graph
-/
namespace Verif.SteinerInput

open Verif.Flac Verif.Updater Verif.OpChecks

theorem popPath_depth (node : Nat) (l : List (Nat × Nat)) (d : Nat) (b : B) :
    (∀ i, i ∉ l.map Prod.fst → (B.popPath node l d b).depth i = b.depth i) ∧
      ((∀ i, b.depth i < 256) → ∀ i, (B.popPath node l d b).depth i < 256) := by
  induction l generalizing d b with
  | nil => exact ⟨fun _ _ => rfl, fun h => h⟩
  | cons p l ih =>
    obtain ⟨n, w⟩ := p
    unfold B.popPath
    obtain ⟨h1, h2⟩ := ih ((d + w) % 256) { b with map := upd b.map n node, depth := fun i => if i = n then (d + w) % 256 else b.depth i }
    refine ⟨fun i hi => ?_, fun h => h2 fun i => ?_⟩
    · simp only [List.map_cons, List.mem_cons, not_or] at hi
      rw [h1 i hi.2]; simp [hi.1]
    · simp only
      split
      · exact Nat.mod_lt _ (by omega)
      · exact h i

/-- The weight of an edge is that of its kind and a depth. -/
structure Weights (sp : Space) (b : B) (st : List Item) : Prop where
  new : ∀ n, b.map n = none → b.depth n = 0
  own : ∀ n ∈ b.rep, b.depth n = 0
  small : ∀ n, b.depth n < 256
  edge : ∀ (e k : Nat) (ed : Edge), b.emap e = some k → b.edges[k]? = some ed → (sp.kind e).weight ≤ ed.weight ∧ ed.weight ≤ (sp.kind e).weight + 255 ∧
    (sp.src e ∈ b.rep → ed.weight = (sp.kind e).weight)
  pend : ∀ it ∈ st, ∀ c e w, it.child = some (c, e, w) → w = (sp.kind e).weight

variable {sp : Space} {x : Nat} {ind : Bool} {b b' : B} {st : List Item} {term : Option Nat} {S P T : List Nat}

theorem Weights.handle {it : Item} {m : Nat} (h : Run sp x ind b (it :: st) term) (hm : b.map it.node = some m) (hw : Weights sp b (it :: st)) :
    Weights sp (b.handle m it) st := by
  obtain ⟨d1, d2⟩ := popPath_depth m b.path 0 b
  obtain ⟨dep, he⟩ := popPath_eq m b.path 0 b
  have hl : Link sp (it.start sp x) b.path it.node := h.top it (by simp)
  have hnr : ∀ p ∈ b.path.map Prod.fst, p ∉ b.rep := fun p hp hr => h.good.rep_mapped hr (h.fresh p hp).1
  have hpop : Weights sp (B.popPath m b.path 0 b) (it :: st) := by
    refine ⟨fun n hn => ?_, fun n hn => ?_, d2 hw.small, fun e k ed h1 h2 => ?_, hw.pend⟩
    · rw [he] at hn
      simp only at hn
      by_cases hp : n ∈ b.path.map Prod.fst
      · rw [if_pos hp] at hn; cases hn
      · rw [if_neg hp] at hn; rw [d1 n hp]; exact hw.new n hn
    · have hn' : n ∈ b.rep := by rw [he] at hn; exact hn
      rw [d1 n (fun hp => hnr n hp hn')]; exact hw.own n hn'
    · rw [he] at h1 h2 ⊢
      exact hw.edge e k ed h1 h2
  unfold B.handle
  cases hc : it.child with
  | none => exact ⟨hpop.new, hpop.own, hpop.small, hpop.edge, fun i hi => hpop.pend i (by simp [hi])⟩
  | some p =>
    obtain ⟨c, e, w⟩ := p
    have hw' := hw.pend it (by simp) c e w hc
    refine ⟨hpop.new, hpop.own, hpop.small, fun e' k ed h1 h2 => ?_, fun i hi => hpop.pend i (by simp [hi])⟩
    simp only [B.addEdge, upd] at h1 h2 ⊢
    split at h1
    · next hee =>
      subst hee
      simp only [Option.some.injEq] at h1
      subst h1
      simp only [List.getElem?_concat_length, Option.some.injEq] at h2
      subst h2
      simp only
      have hs := hpop.small it.node
      refine ⟨by omega, by omega, fun hr => ?_⟩
      have hst : it.start sp x = sp.src e' := by simp [Item.start, hc]
      have hr' : sp.src e' ∈ b.rep := by rw [he] at hr; exact hr
      rcases hl.start with hs' | hs'
      · rw [hpop.own it.node (by rw [← hs', hst]; exact hr)]; omega
      · rw [hst] at hs'; exact absurd hr' (hnr _ hs')
    · have hk : k < (B.popPath m b.path 0 b).edges.length := by
        rw [he] at h1 ⊢
        obtain ⟨ed', g1, -⟩ := h.good.edge e' k h1
        exact (List.getElem?_eq_some_iff.1 g1).1
      rw [List.getElem?_append_left hk] at h2
      exact hpop.edge e' k ed h1 h2

theorem Weights.addNode {it : Item} {es : List Nat} (h : Run sp x ind b (it :: st) term) (hm : b.map it.node = none) (hw : Weights sp b (it :: st)) :
    Weights sp (b.addNode it.node) (it :: (items sp b.rep.length es ++ st)) := by
  refine ⟨fun n hn => ?_, fun n hn => ?_, hw.small, fun e k ed h1 h2 => ?_, fun i hi c e w hc => ?_⟩
  · simp only [B.addNode, upd] at hn
    split at hn
    · cases hn
    · exact hw.new n hn
  · simp only [B.addNode, List.mem_append, List.mem_singleton] at hn
    rcases hn with hn | rfl
    · exact hw.own n hn
    · exact hw.new _ hm
  · obtain ⟨k1, k2, k3⟩ := hw.edge e k ed h1 h2
    refine ⟨k1, k2, fun hr => k3 ?_⟩
    simp only [B.addNode, List.mem_append, List.mem_singleton] at hr
    rcases hr with hr | hr
    · exact hr
    · obtain ⟨ed, -, -, g3, -⟩ := h.good.edge e k h1
      rw [hr, hm] at g3; cases g3
  · rcases List.mem_cons.1 hi with rfl | hi
    · exact hw.pend i (by simp) c e w hc
    · rcases List.mem_append.1 hi with hi | hi
      · simp only [items, List.mem_map] at hi
        obtain ⟨e', he', rfl⟩ := hi
        simp only [Option.some.injEq, Prod.mk.injEq] at hc
        obtain ⟨rfl, rfl, rfl⟩ := hc
        rfl
      · exact hw.pend i (by simp [hi]) c e w hc

theorem register_depth (m n : Nat) (l : List Nat) : (b.register sp m n l).depth = b.depth := by
  unfold B.register
  split
  · rfl
  · dsimp only
    split <;> rfl

theorem Weights.frame (h : Weights sp b st) (h1 : b'.edges = b.edges) (h2 : b'.rep = b.rep) (h3 : b'.map = b.map) (h4 : b'.emap = b.emap)
    (h5 : b'.depth = b.depth) : Weights sp b' st := by
  obtain ⟨e, r, m, em, i1, d1, de, p, it1, n1, e1, r1⟩ := b'
  simp only at h1 h2 h3 h4 h5
  subst h1; subst h2; subst h3; subst h4; subst h5
  exact ⟨h.new, h.own, h.small, h.edge, h.pend⟩

theorem ingest_weights (n : Nat) {term' : Option Nat} (h : Run sp x ind b st term) (hw : Weights sp b st)
    (hi : ingest sp n b st term = .ok (b', term')) : Weights sp b' [] := by
  induction n generalizing b st term with
  | zero => simp [ingest] at hi
  | succ n ih =>
    cases st with
    | nil =>
      simp only [ingest, Out.ok.injEq, Prod.mk.injEq] at hi
      obtain ⟨rfl, rfl⟩ := hi
      exact hw
    | cons it st =>
      unfold ingest at hi
      dsimp only at hi
      cases hm : b.map it.node with
      | some m =>
        rw [hm] at hi
        exact ih (h.handle hm) (Weights.handle h hm hw) hi
      | none =>
        rw [hm] at hi
        dsimp only at hi
        have hadd : ∀ es : List Nat, es.Perm (sp.incoming it.node) → it.node ∉ b.path.map Prod.fst →
            Run sp x ind (b.add it) (items sp b.rep.length es ++ st) (some (term.getD b.rep.length)) ∧ Weights sp (b.add it) (items sp b.rep.length es ++ st) := by
          intro es hes hp
          have g1 := h.addNode hm hp hes
          have hm' : (b.addNode it.node).map it.node = some b.rep.length := by simp [B.addNode, upd]
          exact ⟨g1.handle hm', Weights.handle g1 hm' (Weights.addNode h hm hw)⟩
        cases hin : sp.incoming it.node with
        | nil => rw [hin] at hi; simp at hi
        | cons e es =>
          rw [hin] at hi
          have hfr := register_edges (sp := sp) (b := b.add it) b.rep.length it.node (sp.requires it.node)
          have hdep := register_depth (sp := sp) (b := b.add it) b.rep.length it.node (sp.requires it.node)
          cases es with
          | nil =>
            dsimp only at hi
            have hpw : ∀ (l : List Nat) (w : Nat), Weights sp { b with indisp := l, path := (it.node, w) :: b.path } (⟨sp.src e, it.child⟩ :: st) := fun l w =>
              ⟨hw.new, hw.own, hw.small, hw.edge, fun i hi' c e' w' hc => by
                rcases List.mem_cons.1 hi' with rfl | hi'
                · exact hw.pend it (by simp) c e' w' hc
                · exact hw.pend i (by simp [hi']) c e' w' hc⟩
            by_cases ht : term = none
            · rw [if_pos ht] at hi
              exact ih (h.push hm hin (fun hc => absurd ht hc)) (hpw _ _) hi
            · rw [if_neg ht] at hi
              by_cases hq : sp.requires it.node ≠ [] ∨ (sp.kind e).weight > 0
              · rw [if_pos hq] at hi
                have hp : it.node ∉ b.path.map Prod.fst := fun hp => by
                  obtain ⟨-, e', h1, h2⟩ := h.fresh _ hp
                  rw [hin] at h1; cases h1
                  obtain ⟨j1, j2⟩ := h2 ht
                  rcases hq with hq | hq
                  · exact hq j1
                  · omega
                obtain ⟨g1, g2⟩ := hadd [e] (by rw [hin]) hp
                have ht' : some (term.getD b.rep.length) = term := by
                  obtain ⟨k, hk⟩ := Option.ne_none_iff_exists'.1 ht
                  rw [hk]; rfl
                rw [ht'] at g1
                exact ih (g1.frame hfr.1 hfr.2.1 hfr.2.2.1 hfr.2.2.2.1 hfr.2.2.2.2.1) (g2.frame hfr.1 hfr.2.1 hfr.2.2.1 hfr.2.2.2.1 hdep) hi
              · rw [if_neg hq] at hi
                have hw1 : sp.requires it.node = [] := Classical.byContradiction fun hc => hq (.inl hc)
                have hw2 : (sp.kind e).weight = 0 := by
                  have : ¬ (sp.kind e).weight > 0 := fun hc => hq (.inr hc)
                  omega
                exact ih (h.push (ids := b.indisp) hm hin (fun _ => ⟨hw1, hw2⟩)) (hpw _ _) hi
          | cons e' es =>
            dsimp only at hi
            have hp : it.node ∉ b.path.map Prod.fst := fun hp => by
              obtain ⟨-, e', h1, h2⟩ := h.fresh _ hp
              rw [hin] at h1; cases h1
            have hitems : ((e :: e' :: es).map fun e => (⟨sp.src e, some (b.rep.length, e, (sp.kind e).weight)⟩ : Item)).reverse =
                items sp b.rep.length (e :: e' :: es).reverse := by simp [items]
            obtain ⟨g1, g2⟩ := hadd (e :: e' :: es).reverse (by rw [hin]; exact List.reverse_perm _) hp
            rw [hitems] at hi
            by_cases ht : term = none
            · rw [if_pos ht] at hi
              exact ih (g1.frame (b' := { b.add it with indisp := (sp.requires it.node).reverse ++ (b.add it).indisp }) rfl rfl rfl rfl rfl)
                (g2.frame rfl rfl rfl rfl rfl) hi
            · rw [if_neg ht] at hi
              exact ih (g1.frame hfr.1 hfr.2.1 hfr.2.2.1 hfr.2.2.2.1 hfr.2.2.2.2.1) (g2.frame hfr.1 hfr.2.1 hfr.2.2.1 hfr.2.2.2.1 hdep) hi

theorem Weights.begin (h : Weights sp b []) : Weights sp b [⟨x, none⟩] :=
  ⟨h.new, h.own, h.small, h.edge, fun it hit c e w hc => by
    simp only [List.mem_singleton] at hit
    subst hit; cases hc⟩

theorem indispensable_weights {fuel n i : Nat} {T' S' : List Nat} (h : Outer sp S [] b) (hw : Weights sp b [])
    (hi : indispensable sp fuel n i b T S = .ok (b', T', S')) : Weights sp b' [] := by
  induction n generalizing i b T S with
  | zero => simp [indispensable] at hi
  | succ n ih =>
    unfold indispensable at hi
    cases hd : b.indisp with
    | nil =>
      rw [hd] at hi
      simp only [Out.ok.injEq, Prod.mk.injEq] at hi
      obtain ⟨rfl, rfl, rfl⟩ := hi
      exact hw
    | cons x xs =>
      rw [hd] at hi
      dsimp only at hi
      split at hi
      · cases hi
      · obtain ⟨⟨b1, term⟩, h1, hi⟩ := Out.bind_ok hi
        dsimp only at hi
        have ho : Outer sp (x :: S) [] { b with indisp := xs } := ⟨h.good.frame rfl rfl rfl rfl, h.path, h.all, h.reqs.pop hd⟩
        have hrun := ho.begin (x := x) (ind := true) (term := none) (by simp) (fun _ => rfl)
        obtain ⟨k1, k2, -, -⟩ := ingest_spec (x := x) (ind := true) (S := x :: S) fuel hrun ho.reqs (fun _ => by simp) h1
        have hw1 := ingest_weights fuel hrun (Weights.begin (hw.frame rfl rfl rfl rfl rfl)) h1
        split at hi
        · cases hi
        · exact ih (k1.ends k2) hw1 hi

theorem dispensable_weights {fuel n : Nat} (h : Outer sp S [] b) (hw : Weights sp b []) (hi : dispensable sp fuel n b = .ok b') : Weights sp b' [] := by
  induction n generalizing b with
  | zero => simp [dispensable] at hi
  | succ n ih =>
    unfold dispensable at hi
    cases hd : b.disp with
    | nil =>
      rw [hd] at hi
      simp only [Out.ok.injEq] at hi
      subst hi
      exact hw
    | cons x xs =>
      rw [hd] at hi
      dsimp only at hi
      obtain ⟨⟨b1, term⟩, h1, hi⟩ := Out.bind_ok hi
      dsimp only at hi
      have ho : Outer sp S [x] { b with disp := xs } := ⟨h.good.frame rfl rfl rfl rfl, h.path, h.all, h.reqs.disp (fun r hr => by
        rw [hd] at hr
        simp only [List.not_mem_nil, List.mem_cons, false_or, or_assoc] at hr ⊢
        exact hr)⟩
      have hrun := ho.begin (x := x) (ind := false) (term := some 0) (by simp) (by simp)
      obtain ⟨k1, k2, -, -⟩ := ingest_spec (x := x) (ind := false) (S := S) fuel hrun ho.reqs (by simp) h1
      obtain ⟨m, g1, -⟩ := k1.found (by simp)
      have hr1 : Reqs sp S [] b1 := k2.disp (d := b1.disp) (fun r hr => by
        rcases hr with hr | hr
        · simp only [List.mem_singleton] at hr
          subst hr; exact .inr (.inr (by rw [g1]; simp))
        · exact .inr hr)
      exact ih (k1.ends hr1) (ingest_weights fuel hrun (Weights.begin (hw.frame rfl rfl rfl rfl rfl)) h1) hi

theorem build_weights {fuel : Nat} {inp : Input} (h : build sp fuel = .ok (b, inp, T)) : Weights sp b [] := by
  unfold build at h
  obtain ⟨⟨b1, T1, S⟩, h1, h⟩ := Out.bind_ok h
  obtain ⟨b2, h2, h⟩ := Out.bind_ok h
  split at h
  · cases h
  · simp only [Out.ok.injEq, Prod.mk.injEq] at h
    obtain ⟨rfl, rfl, rfl⟩ := h
    have hw0 : Weights sp (.init sp) [] := ⟨fun _ _ => rfl, fun _ _ => rfl, fun _ => by simp [B.init], fun e k ed h => (by cases h), by simp⟩
    obtain ⟨k1, k2, k3⟩ := indispensable_spec outer_init.1 outer_init.2 h1
    exact dispensable_weights k1 (indispensable_weights outer_init.1 hw0 h1) h2

end Verif.SteinerInput
