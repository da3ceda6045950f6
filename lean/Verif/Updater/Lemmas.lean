import Verif.Updater.Model
import Verif.Flac.Props
/-!
# Lemmas
-/
namespace Verif.Updater

open Verif.Flac

/-! ## `swap_remove` -/

theorem swapRemove_none {α : Type} {i : Nat} {l : List α} : swapRemove i l = none ↔ l.length ≤ i := by
  unfold swapRemove
  split
  · next h =>
    cases hl : l.getLast? with
    | none => rw [List.getLast?_eq_none_iff] at hl; subst hl; simp at h
    | some x => simp; omega
  · simp; omega

theorem swapRemove_some {α : Type} {i : Nat} {l l' : List α} (h : swapRemove i l = some l') :
    l'.length + 1 = l.length ∧ (∀ j, j < i → l'[j]? = l[j]?) ∧ (∀ x ∈ l', x ∈ l) ∧
      ∀ x ∈ l, x ∈ l' ∨ l[i]? = some x := by
  unfold swapRemove at h
  split at h
  · next hi =>
    cases hl : l.getLast? with
    | none => rw [hl] at h; cases h
    | some y =>
      rw [hl] at h
      simp only [Option.map_some, Option.some.injEq] at h
      have hne : l ≠ [] := by rintro rfl; simp at hi
      have hy : l[l.length - 1]? = some y := by rw [← List.getLast?_eq_getElem?]; exact hl
      have hlen : l'.length + 1 = l.length := by rw [← h]; simp; omega
      have hget : ∀ j, j < l'.length → l'[j]? = if j = i then some y else l[j]? := by
        intro j hj
        rw [← h, List.getElem?_dropLast, if_pos (by simp; omega)]
        rw [List.getElem?_set]
        split
        · next he => subst he; simp [hi]
        · next he => rw [if_neg (fun h => he h.symm)]
      refine ⟨hlen, ?_, ?_, ?_⟩
      · intro j hj
        by_cases hjl : j < l'.length
        · rw [hget j hjl, if_neg (by omega)]
        · omega
      · intro x hx
        obtain ⟨j, hj, hjx⟩ := List.getElem_of_mem hx
        have := hget j hj
        rw [List.getElem?_eq_getElem hj, hjx] at this
        split at this
        · rw [Option.some.inj this]; exact List.mem_of_getElem? hy
        · exact List.mem_of_getElem? this.symm
      · intro x hx
        obtain ⟨j, hj, hjx⟩ := List.getElem_of_mem hx
        have hjx' : l[j]? = some x := by rw [List.getElem?_eq_getElem hj, hjx]
        by_cases hji : j = i
        · right; rw [← hji]; exact hjx'
        · left
          by_cases hjl : j < l'.length
          · have := hget j hjl
            rw [if_neg hji, hjx'] at this
            exact List.mem_of_getElem? this
          · have hj' : j = l.length - 1 := by omega
            have : x = y := by rw [hj', hy] at hjx'; exact (Option.some.inj hjx').symm
            subst this
            have := hget i (by omega)
            rw [if_pos rfl] at this
            exact List.mem_of_getElem? this
  · cases h

theorem Out.bind_ok {α β : Type} {x : Out α} {f : α → Out β} {b : β} (h : x.bind f = .ok b) : ∃ a, x = .ok a ∧ f a = .ok b := by
  cases x with
  | ok a => exact ⟨a, rfl, h⟩
  | panic => cases h
  | timeout => cases h
  | cycle => cases h

/-! ## The endpoints of edges stay -/

/-- Only weights differ. -/
def Same (g g' : Graph) : Prop := g'.edges.length = g.edges.length ∧ ∀ e, g'.src e = g.src e ∧ g'.dst e = g.dst e

theorem Same.refl (g : Graph) : Same g g := ⟨rfl, fun _ => ⟨rfl, rfl⟩⟩

theorem Same.trans {g g' g'' : Graph} (h : Same g g') (h' : Same g' g'') : Same g g'' :=
  ⟨h'.1.trans h.1, fun e => ⟨(h'.2 e).1.trans (h.2 e).1, (h'.2 e).2.trans (h.2 e).2⟩⟩

theorem Same.symm {g g' : Graph} (h : Same g g') : Same g' g := ⟨h.1.symm, fun e => ⟨(h.2 e).1.symm, (h.2 e).2.symm⟩⟩

theorem same_setWeight (g : Graph) (e w : Nat) : Same g (setWeight g e w) := by
  refine ⟨by simp [setWeight], fun i => ?_⟩
  unfold setWeight Graph.src Graph.dst
  simp only [List.getElem?_modify]
  cases g.edges[i]? with
  | none => exact ⟨rfl, rfl⟩
  | some x =>
    simp only [Option.map_eq_map, Option.map_some, Option.getD_some]
    constructor <;> split <;> rfl

theorem weight_setWeight {g : Graph} {e w i : Nat} (he : e < g.edges.length) :
    (setWeight g e w).weight i = if i = e then w else g.weight i := by
  unfold setWeight Graph.weight
  simp only [List.getElem?_modify]
  by_cases h : i = e
  · subst h; rw [List.getElem?_eq_getElem he]; simp
  · rw [if_neg h]
    cases g.edges[i]? with
    | none => rfl
    | some x => simp [Ne.symm h]

theorem path_same {g g' : Graph} (h : Same g g') {es : List Nat} {a b : Nat} (hp : Path g es a b) : Path g' es a b := by
  induction hp with
  | refl => exact .refl _
  | @step e c he _ ih =>
    have : Path g' es (g'.src e) c := .step he ((h.2 e).2 ▸ ih)
    rw [(h.2 e).1] at this
    exact this

theorem isTree_same {g g' : Graph} (h : Same g g') {root : Nat} {t : Tree} (ht : IsTree g root t) : IsTree g' root t := by
  refine ⟨ht.start, fun e he => ?_, fun e he e' he' hd => ?_, fun n hn => path_same h (ht.reach n hn)⟩
  · rw [h.1, (h.2 e).1, (h.2 e).2]; exact ht.edge e he
  · rw [(h.2 e).2, (h.2 e').2] at hd; exact ht.one e he e' he' hd

/-! ## What an update does -/

/-- From one state to another with the tree `t`. -/
structure Step (t : Tree) (a b : St) : Prop where
  same : Same a.inp.graph b.inp.graph
  byEdge : b.inp.byEdge = a.inp.byEdge
  space : b.inp.space = a.inp.space
  independent : b.independent = a.independent
  subN : ∀ f ∈ b.inp.byNode, f ∈ a.inp.byNode
  subR : ∀ r ∈ b.inp.byReq, r ∈ a.inp.byReq
  doneN : ∀ f ∈ a.inp.byNode, f ∈ b.inp.byNode ∨ (∀ x ∈ f.req, x ∈ b.terms) ∧ ∀ x ∈ f.space, x ∈ b.spaceTerms
  doneR : ∀ r ∈ a.inp.byReq, r ∈ b.inp.byReq ∨ (∀ x ∈ r.req, x ∈ b.terms) ∧ ∀ x ∈ r.space, x ∈ b.spaceTerms
  terms : ∀ x ∈ b.terms, x ∈ a.terms ∨ (∃ f ∈ a.inp.byNode, f.key ∈ t.nodes ∧ x ∈ f.req) ∨
    ∃ r ∈ a.inp.byReq, (∃ p ∈ r.deps, p.1 ∈ t.edges) ∧ x ∈ r.req
  keep : ∀ x ∈ a.terms, x ∈ b.terms
  keepS : ∀ x ∈ a.spaceTerms, x ∈ b.spaceTerms
  fromS : ∀ x ∈ b.spaceTerms, x ∈ a.spaceTerms ∨ (∃ f ∈ a.inp.byNode, f.key ∈ t.nodes ∧ x ∈ f.space) ∨
    ∃ r ∈ a.inp.byReq, (∃ p ∈ r.deps, p.1 ∈ t.edges) ∧ x ∈ r.space
  count : b.inp.byNode.length + b.inp.byReq.length ≤ a.inp.byNode.length + a.inp.byReq.length
  less : b.terms ≠ a.terms → b.inp.byNode.length + b.inp.byReq.length < a.inp.byNode.length + a.inp.byReq.length

theorem Step.refl (t : Tree) (a : St) : Step t a a :=
  ⟨Same.refl _, rfl, rfl, rfl, fun _ h => h, fun _ h => h, fun _ h => Or.inl h, fun _ h => Or.inl h, fun _ h => Or.inl h, fun _ h => h,
    fun _ h => h, fun _ h => Or.inl h, Nat.le_refl _, fun h => absurd rfl h⟩

theorem Step.trans {t : Tree} {a b c : St} (h : Step t a b) (h' : Step t b c) : Step t a c where
  same := h.same.trans h'.same
  byEdge := h'.byEdge.trans h.byEdge
  space := h'.space.trans h.space
  independent := h'.independent.trans h.independent
  subN f hf := h.subN f (h'.subN f hf)
  subR f hf := h.subR f (h'.subR f hf)
  doneN f hf := by
    rcases h.doneN f hf with h1 | ⟨h1, h2⟩
    · exact h'.doneN f h1
    · exact Or.inr ⟨fun x hx => h'.keep x (h1 x hx), fun x hx => h'.keepS x (h2 x hx)⟩
  doneR f hf := by
    rcases h.doneR f hf with h1 | ⟨h1, h2⟩
    · exact h'.doneR f h1
    · exact Or.inr ⟨fun x hx => h'.keep x (h1 x hx), fun x hx => h'.keepS x (h2 x hx)⟩
  terms x hx := by
    rcases h'.terms x hx with h1 | ⟨f, h1, h2⟩ | ⟨r, h1, h2⟩
    · exact h.terms x h1
    · exact Or.inr (Or.inl ⟨f, h.subN f h1, h2⟩)
    · exact Or.inr (Or.inr ⟨r, h.subR r h1, h2⟩)
  keep x hx := h'.keep x (h.keep x hx)
  keepS x hx := h'.keepS x (h.keepS x hx)
  fromS x hx := by
    rcases h'.fromS x hx with h1 | ⟨f, h1, h2⟩ | ⟨r, h1, h2⟩
    · exact h.fromS x h1
    · exact Or.inr (Or.inl ⟨f, h.subN f h1, h2⟩)
    · exact Or.inr (Or.inr ⟨r, h.subR r h1, h2⟩)
  count := Nat.le_trans h'.count h.count
  less hne := by
    have h1 := h.count
    have h2 := h'.count
    by_cases hb : b.terms = a.terms
    · have := h'.less (fun hc => hne (hc.trans hb)); omega
    · have := h.less hb; omega

theorem freeNodes_spec {t : Tree} : ∀ {n i : Nat} {st : St}, st.inp.byNode.length < n + i →
    (∀ j, j < i → ∀ f, st.inp.byNode[j]? = some f → f.key ∉ t.nodes) →
    Step t st (freeNodes t n i st) ∧ (∀ f ∈ (freeNodes t n i st).inp.byNode, f.key ∉ t.nodes) ∧
      (freeNodes t n i st).inp.byReq = st.inp.byReq ∧ (freeNodes t n i st).inp.graph = st.inp.graph ∧
      (freeNodes t n i st).changed = st.changed ∧ (freeNodes t n i st).flac = st.flac := by
  intro n
  induction n with
  | zero =>
    intro i st hlt hp
    refine ⟨Step.refl _ _, fun f hf => ?_, rfl, rfl, rfl, rfl⟩
    obtain ⟨j, hj, hjf⟩ := List.getElem_of_mem hf
    have hj : j < st.inp.byNode.length := hj
    exact hp j (by omega) f (by rw [List.getElem?_eq_getElem hj]; exact congrArg some hjf)
  | succ n ih =>
    intro i st hlt hp
    rw [freeNodes.eq_def]
    simp only
    cases hi : st.inp.byNode[i]? with
    | none =>
      refine ⟨Step.refl _ _, fun f hf => ?_, rfl, rfl, rfl, rfl⟩
      rw [List.getElem?_eq_none_iff] at hi
      have hf : f ∈ st.inp.byNode := hf
      obtain ⟨j, hj, hjf⟩ := List.getElem_of_mem hf
      exact hp j (by omega) f (by rw [List.getElem?_eq_getElem hj, hjf])
    | some f =>
      simp only
      have hil := (List.getElem?_eq_some_iff.1 hi).1
      have hfm := List.mem_of_getElem? hi
      split
      · next hk =>
        have hk : f.key ∈ t.nodes := by simpa using hk
        cases hs : swapRemove i (st.extend f.req f.space).inp.byNode with
        | none =>
          rw [swapRemove_none] at hs
          have hs : st.inp.byNode.length ≤ i := hs
          omega
        | some l =>
          obtain ⟨s1, s2, s3, s4⟩ := swapRemove_some hs
          have s1 : l.length + 1 = st.inp.byNode.length := s1
          have s2 : ∀ j, j < i → l[j]? = st.inp.byNode[j]? := s2
          have s3 : ∀ x ∈ l, x ∈ st.inp.byNode := s3
          have s4 : ∀ x ∈ st.inp.byNode, x ∈ l ∨ st.inp.byNode[i]? = some x := s4
          simp only
          obtain ⟨a1, a2, a3, a4, a5, a6⟩ := ih (i := i)
            (st := { st.extend f.req f.space with inp := { (st.extend f.req f.space).inp with byNode := l } })
            (by show l.length < n + i; omega) (fun j hj g hg => hp j hj g (by rw [← s2 j hj]; exact hg))
          refine ⟨Step.trans ?_ a1, a2, a3, a4, a5, a6⟩
          refine ⟨Same.refl _, rfl, rfl, rfl, s3, fun _ h => h, ?_, fun _ h => Or.inl h, ?_, ?_, ?_, ?_, ?_, ?_⟩
          · intro g hg
            rcases s4 g hg with h | h
            · exact Or.inl h
            · rw [hi] at h; cases h
              exact Or.inr ⟨fun x hx => by simp [St.extend, hx], fun x hx => by simp [St.extend, hx]⟩
          · intro x hx
            have hx : x ∈ st.terms ++ f.req := hx
            rcases List.mem_append.1 hx with h | h
            · exact Or.inl h
            · exact Or.inr (Or.inl ⟨f, hfm, hk, h⟩)
          · intro x hx; simp [St.extend, hx]
          · intro x hx; simp [St.extend, hx]
          · intro x hx
            have hx : x ∈ st.spaceTerms ++ f.space := hx
            rcases List.mem_append.1 hx with h | h
            · exact Or.inl h
            · exact Or.inr (Or.inl ⟨f, hfm, hk, h⟩)
          · show l.length + st.inp.byReq.length ≤ _; omega
          · intro _; show l.length + st.inp.byReq.length < _; omega
      · next hk =>
        refine ih (by omega) fun j hj g hg => ?_
        by_cases hji : j = i
        · subst hji; rw [hi] at hg; cases hg; simpa using hk
        · exact hp j (by omega) g hg

/-- The second loop either finds nothing or panics. -/
theorem freeEdges_spec {t : Tree} : ∀ {n i : Nat} {st : St}, st.inp.byEdge.length + st.inp.byNode.length + 1 < n + i →
    i ≤ st.inp.byEdge.length →
    (∀ j, j < i → ∀ f, st.inp.byEdge[j]? = some f → f.key ∉ t.edges) →
    ((∀ f ∈ st.inp.byEdge, f.key ∉ t.edges) ∧ freeEdges t n i st = .ok st) ∨
      (∃ f ∈ st.inp.byEdge, f.key ∈ t.edges) ∧ freeEdges t n i st = .panic := by
  intro n
  induction n with
  | zero => intro i st h1 h2; omega
  | succ n ih =>
    intro i st h1 h2 hp
    rw [freeEdges.eq_def]
    simp only
    cases hi : st.inp.byEdge[i]? with
    | none =>
      refine Or.inl ⟨fun f hf => ?_, rfl⟩
      rw [List.getElem?_eq_none_iff] at hi
      obtain ⟨j, hj, hjf⟩ := List.getElem_of_mem hf
      exact hp j (by omega) f (by rw [List.getElem?_eq_getElem hj, hjf])
    | some f =>
      simp only
      have hil := (List.getElem?_eq_some_iff.1 hi).1
      have hfm := List.mem_of_getElem? hi
      split
      · next hk =>
        have hk : f.key ∈ t.edges := by simpa using hk
        right
        refine ⟨⟨f, hfm, hk⟩, ?_⟩
        cases hs : swapRemove i (st.extend f.req f.space).inp.byNode with
        | none => rfl
        | some l =>
          obtain ⟨s1, -⟩ := swapRemove_some hs
          have s1 : l.length + 1 = st.inp.byNode.length := s1
          simp only
          have := ih (i := i) (st := { st.extend f.req f.space with inp := { (st.extend f.req f.space).inp with byNode := l } })
            (by show st.inp.byEdge.length + l.length + 1 < n + i; omega) h2 hp
          rcases this with ⟨h, -⟩ | ⟨-, h⟩
          · exact absurd hk (h f hfm)
          · exact h
      · next hk =>
        refine ih (by omega) (by omega) fun j hj g hg => ?_
        by_cases hji : j = i
        · subst hji; rw [hi] at hg; cases hg; simpa using hk
        · exact hp j (by omega) g hg

/-- What setting weights does not change. -/
structure Light (a b : St) : Prop where
  same : Same a.inp.graph b.inp.graph
  byNode : b.inp.byNode = a.inp.byNode
  byEdge : b.inp.byEdge = a.inp.byEdge
  byReq : b.inp.byReq = a.inp.byReq
  space : b.inp.space = a.inp.space
  independent : b.independent = a.independent
  terms : b.terms = a.terms
  spaceTerms : b.spaceTerms = a.spaceTerms
  flac : b.flac = a.flac

theorem Light.trans {a b c : St} (h : Light a b) (h' : Light b c) : Light a c :=
  ⟨h.same.trans h'.same, h'.byNode.trans h.byNode, h'.byEdge.trans h.byEdge, h'.byReq.trans h.byReq, h'.space.trans h.space,
    h'.independent.trans h.independent, h'.terms.trans h.terms, h'.spaceTerms.trans h.spaceTerms, h'.flac.trans h.flac⟩

theorem light_refl (a : St) : Light a a := ⟨Same.refl _, rfl, rfl, rfl, rfl, rfl, rfl, rfl, rfl⟩

theorem light_set (st : St) (e w : Nat) : Light st (st.setWeight e w) :=
  ⟨same_setWeight _ _ _, rfl, rfl, rfl, rfl, rfl, rfl, rfl, rfl⟩

theorem light_fold {f : St → Nat × Nat → St} (hf : ∀ st p, Light st (f st p)) : ∀ (l : List (Nat × Nat)) (st : St), Light st (l.foldl f st) := by
  intro l
  induction l with
  | nil => intro st; exact light_refl st
  | cons p l ih => intro st; exact (hf st p).trans (ih _)

theorem light_reset (t : Tree) (st : St) (p : Nat × Nat) : Light st (resetWeight t st p) := by
  unfold resetWeight
  split
  · exact light_refl st
  · exact light_set st _ _

theorem light_add (w : Nat) (st : St) (p : Nat × Nat) : Light st (addWeight w st p) := light_set st _ _

theorem step_of {t : Tree} {a b : St} (h0 : Same a.inp.graph b.inp.graph) (h1 : b.inp.byNode = a.inp.byNode)
    (h2 : b.inp.byEdge = a.inp.byEdge) (h3 : b.inp.byReq = a.inp.byReq) (h4 : b.inp.space = a.inp.space)
    (h5 : b.independent = a.independent) (h6 : b.terms = a.terms) (h7 : b.spaceTerms = a.spaceTerms) : Step t a b := by
  refine ⟨h0, h2, h4, h5, ?_, ?_, ?_, ?_, ?_, ?_, ?_, ?_, ?_, ?_⟩
  · rw [h1]; exact fun _ h => h
  · rw [h3]; exact fun _ h => h
  · rw [h1]; exact fun _ h => Or.inl h
  · rw [h3]; exact fun _ h => Or.inl h
  · rw [h6]; exact fun _ h => Or.inl h
  · rw [h6]; exact fun _ h => h
  · rw [h7]; exact fun _ h => h
  · rw [h7]; exact fun _ h => Or.inl h
  · rw [h1, h3]; exact Nat.le_refl _
  · exact fun hn => absurd h6 hn

theorem Light.step {t : Tree} {a b : St} (h : Light a b) : Step t a b :=
  step_of h.same h.byNode h.byEdge h.byReq h.space h.independent h.terms h.spaceTerms

theorem reqs_spec {c : Cfg} {t : Tree} : ∀ {n i : Nat} {st st' : St}, st.inp.byReq.length < n + i →
    (∀ j, j < i → ∀ r, st.inp.byReq[j]? = some r → ∀ p ∈ r.deps, p.1 ∉ t.edges) →
    reqs c t n i st = .ok st' →
    Step t st st' ∧ (∀ r ∈ st'.inp.byReq, ∀ p ∈ r.deps, p.1 ∉ t.edges) ∧ st'.inp.byNode = st.inp.byNode := by
  intro n
  induction n with
  | zero =>
    intro i st st' hlt hp h
    simp only [reqs, Out.ok.injEq] at h
    subst h
    refine ⟨Step.refl _ _, fun r hr => ?_, rfl⟩
    obtain ⟨j, hj, hjf⟩ := List.getElem_of_mem hr
    exact hp j (by omega) r (by rw [List.getElem?_eq_getElem hj, hjf])
  | succ n ih =>
    intro i st st' hlt hp h
    rw [reqs.eq_def] at h
    simp only at h
    cases hi : st.inp.byReq[i]? with
    | none =>
      rw [hi] at h
      simp only [Out.ok.injEq] at h
      subst h
      rw [List.getElem?_eq_none_iff] at hi
      refine ⟨Step.refl _ _, fun r hr => ?_, rfl⟩
      obtain ⟨j, hj, hjf⟩ := List.getElem_of_mem hr
      exact hp j (by omega) r (by rw [List.getElem?_eq_getElem hj, hjf])
    | some r =>
      rw [hi] at h
      simp only at h
      have hil := (List.getElem?_eq_some_iff.1 hi).1
      have hrm := List.mem_of_getElem? hi
      have hnext : ¬ (r.deps.any fun p => t.edges.contains p.1) = true → ∀ j, j < i + 1 → ∀ q, st.inp.byReq[j]? = some q →
          ∀ p ∈ q.deps, p.1 ∉ t.edges := by
        intro hk j hj q hq
        by_cases hji : j = i
        · subst hji
          rw [hi] at hq
          cases hq
          intro p hp hpe
          exact hk (List.any_eq_true.2 ⟨p, hp, by simpa using hpe⟩)
        · exact hp j (by omega) q hq
      split at h
      · next hk =>
        obtain ⟨p, hpd, hpe⟩ := List.any_eq_true.1 hk
        have hpe : p.1 ∈ t.edges := by simpa using hpe
        have hl := light_fold (light_reset t) r.deps st
        generalize r.deps.foldl (resetWeight t) st = s1 at h hl
        cases hs : swapRemove i (s1.extend r.req r.space).inp.byReq with
        | none => rw [hs] at h; cases h
        | some l =>
          rw [hs] at h
          simp only at h
          obtain ⟨a1, a2, a3, a4⟩ := swapRemove_some hs
          have hq : (s1.extend r.req r.space).inp.byReq = st.inp.byReq := hl.byReq
          rw [hq] at a1 a2 a3 a4
          obtain ⟨b1, b2, b3⟩ := ih (by show l.length < n + i; omega)
            (fun j hj q hq' => hp j hj q (by rw [← a2 j hj]; exact hq')) h
          refine ⟨Step.trans hl.step (Step.trans ?_ b1), b2, b3.trans hl.byNode⟩
          refine ⟨Same.refl _, rfl, rfl, rfl, fun _ h => h, ?_, fun _ h => Or.inl h, ?_, ?_, ?_, ?_, ?_, ?_, ?_⟩
          · rw [hl.byReq]; exact a3
          · rw [hl.byReq]
            intro g hg
            rcases a4 g hg with h | h
            · exact Or.inl h
            · rw [hi] at h; cases h
              exact Or.inr ⟨fun x hx => by simp [St.extend, hx], fun x hx => by simp [St.extend, hx]⟩
          · rw [hl.byReq]
            intro x hx
            have hx : x ∈ s1.terms ++ r.req := hx
            rcases List.mem_append.1 hx with h | h
            · exact Or.inl h
            · exact Or.inr (Or.inr ⟨r, hrm, ⟨p, hpd, hpe⟩, h⟩)
          · intro x hx; simp [St.extend, hx]
          · intro x hx; simp [St.extend, hx]
          · rw [hl.byReq]
            intro x hx
            have hx : x ∈ s1.spaceTerms ++ r.space := hx
            rcases List.mem_append.1 hx with h | h
            · exact Or.inl h
            · exact Or.inr (Or.inr ⟨r, hrm, ⟨p, hpd, hpe⟩, h⟩)
          · rw [hl.byReq]; show s1.inp.byNode.length + l.length ≤ _; omega
          · intro _; rw [hl.byReq]; show s1.inp.byNode.length + l.length < _; omega
      · next hk =>
        split at h
        · obtain ⟨⟨w, flac⟩, -, h⟩ := Out.bind_ok h
          simp only at h
          have hl := light_fold (light_add w) r.deps { st with flac := flac }
          generalize r.deps.foldl (addWeight w) { st with flac := flac } = s1 at h hl
          have hq : s1.inp.byReq = st.inp.byReq := hl.byReq
          obtain ⟨b1, b2, b3⟩ := ih (by rw [hq]; omega) (by rw [hq]; exact hnext hk) h
          have a0 : Step t st { st with flac := flac } := step_of (Same.refl _) rfl rfl rfl rfl rfl rfl rfl
          exact ⟨a0.trans (hl.step.trans b1), b2, b3.trans hl.byNode⟩
        · exact ih (by omega) (hnext hk) h

/-- Nothing that the tree needs is left. -/
def Clear (t : Tree) (st : St) : Prop :=
  (∀ f ∈ st.inp.byNode, f.key ∉ t.nodes) ∧ (∀ f ∈ st.inp.byEdge, f.key ∉ t.edges) ∧ ∀ r ∈ st.inp.byReq, ∀ p ∈ r.deps, p.1 ∉ t.edges

theorem generate_spec {c : Cfg} {t : Tree} {st st' : St} (h : generate c t st = .ok st') : Step t st st' ∧ Clear t st' := by
  unfold generate at h
  obtain ⟨a1, a2, a3, a4, a5, a6⟩ := freeNodes_spec (t := t) (n := st.inp.byNode.length + 1) (i := 0) (st := st) (by omega) (fun j hj => by omega)
  generalize freeNodes t (st.inp.byNode.length + 1) 0 st = s1 at *
  simp only at h
  obtain ⟨s2, h2, h⟩ := Out.bind_ok h
  rcases freeEdges_spec (t := t) (n := s1.inp.byEdge.length + s1.inp.byNode.length + 2) (i := 0) (st := s1) (by omega) (by omega)
    (fun j hj => by omega) with ⟨b1, b2⟩ | ⟨-, b2⟩
  · rw [b2] at h2
    cases h2
    obtain ⟨d1, d2, d3⟩ := reqs_spec (by omega) (fun j hj => by omega) h
    refine ⟨a1.trans d1, ?_, ?_, d2⟩
    · rw [d3]; exact a2
    · rw [d1.byEdge]; exact b1
  · rw [b2] at h2; cases h2

theorem rounds_spec {c : Cfg} {t : Tree} : ∀ {n i k : Nat} {st st' : St}, rounds c t n i st = .ok (k, st') →
    Step t st st' ∧ Clear t st' := by
  intro n
  induction n with
  | zero => intro i k st st' h; cases h
  | succ n ih =>
    intro i k st st' h
    rw [rounds.eq_def] at h
    simp only at h
    obtain ⟨s1, h1, h⟩ := Out.bind_ok h
    obtain ⟨a1, a2⟩ := generate_spec h1
    have a3 : Step t s1 { s1 with changed := false } := step_of (Same.refl _) rfl rfl rfl rfl rfl rfl rfl
    split at h
    · simp only [Out.ok.injEq, Prod.mk.injEq] at h
      rw [← h.2]
      exact ⟨a1.trans a3, a2⟩
    · split at h
      · cases h
      · obtain ⟨b1, b2⟩ := ih h
        exact ⟨a1.trans (a3.trans b1), b2⟩

theorem fixedPoint_spec {c : Cfg} {t t' : Tree} {st st' : St} {go : Bool} (h : fixedPoint c t st = .ok (go, t', st')) :
    ∃ s1, Step t st s1 ∧ Clear t s1 ∧ t.extend s1.terms = (go, t') ∧ st'.inp = { s1.inp with space := s1.inp.space ++ s1.spaceTerms } ∧
      st'.terms = [] ∧ st'.spaceTerms = [] := by
  unfold fixedPoint at h
  obtain ⟨⟨i, s1⟩, h1, h⟩ := Out.bind_ok h
  obtain ⟨a1, a2⟩ := rounds_spec h1
  simp only [Out.ok.injEq, Prod.mk.injEq] at h
  obtain ⟨h2, h3, h4⟩ := h
  have a0 : Step t st { st with changed := false } := step_of (Same.refl _) rfl rfl rfl rfl rfl rfl rfl
  refine ⟨s1, a0.trans a1, a2, ?_, ?_, ?_, ?_⟩
  · exact Prod.ext h2 h3
  · rw [← h4]
  · rw [← h4]
  · rw [← h4]

end Verif.Updater
