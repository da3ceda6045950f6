import Verif.InFlight.Lemmas

namespace Verif.InFlight

/-! ## C18 -/

/-- Exactly when two requests are merged: same subgraph, method, URL and body, and the same header lines where
a line is the name directly followed by the value. -/
theorem C18_merged_iff (r r' : Request) (hs : size r < 2 ^ 32) (hs' : size r' < 2 ^ 32) :
    keyEq (keyOf r) (keyOf r') = true ↔ r.subgraph = r'.subgraph ∧ r.method = r'.method ∧ r.url = r'.url ∧
      r.body = r'.body ∧ (joined r).Perm (joined r') := by
  obtain ⟨a1, a2, a3, a4, a5, a6, a7, a8⟩ := keyOf_spec r hs
  obtain ⟨b1, b2, b3, b4, b5, b6, b7, b8⟩ := keyOf_spec r' hs'
  have hlen : ∀ r : Request, (r.headers.flatMap (fun h => h.1 ++ h.2)).length = ((joined r).map List.length).sum := by
    intro r
    simp [joined, List.length_flatMap, Function.comp_def]
  unfold keyEq
  constructor
  · intro h
    simp only [Bool.and_eq_true, beq_iff_eq] at h
    obtain ⟨⟨⟨⟨⟨⟨⟨⟨⟨h1, h2⟩, h3⟩, h4⟩, h5⟩, h6⟩, h7⟩, h8⟩, h9⟩, h10⟩ := h
    refine ⟨by rwa [a1, b1] at h1, by rwa [a6, b6] at h7, ?_, by rwa [a2, b2] at h10, ?_⟩
    · rwa [a7, h5, b7] at h8
    · rw [zip_all_eq (fun s => slice (keyOf r).parts s.1 s.2) (fun s => slice (keyOf r').parts s.1 s.2) _ _ h4,
        a8, b8, sorted_eq_iff] at h9
      exact h9
  · rintro ⟨h1, h2, h3, h4, h5⟩
    have hl : (r.headers.flatMap (fun h => h.1 ++ h.2)).length = (r'.headers.flatMap (fun h => h.1 ++ h.2)).length := by
      rw [hlen, hlen, (h5.map List.length).sum_nat]
    have hsz : size r = size r' := by simp only [size, hl, h3]
    have hsec : (keyOf r).sections.length = (keyOf r').sections.length := by
      have e1 := congrArg List.length a8
      have e2 := congrArg List.length b8
      rw [List.length_map, sorted_length] at e1 e2
      rw [e1, e2, h5.length_eq]
    have hmeth : (keyOf r).methodStart = (keyOf r').methodStart := by rw [a4, b4, hsz]
    simp only [Bool.and_eq_true, beq_iff_eq]
    refine ⟨⟨⟨⟨⟨⟨⟨⟨⟨?_, ?_⟩, ?_⟩, hsec⟩, hmeth⟩, ?_⟩, ?_⟩, ?_⟩, ?_⟩, ?_⟩
    · rw [a1, b1, h1]
    · rw [a2, b2, h4]
    · rw [a5, b5]; simp only [List.length_append] at *; rw [hl, h3, h2]
    · rw [a3, b3, hl]
    · rw [a6, b6, h2]
    · rw [a7, hmeth, b7, h3]
    · rw [zip_all_eq (fun s => slice (keyOf r).parts s.1 s.2) (fun s => slice (keyOf r').parts s.1 s.2) _ _ hsec,
        a8, b8, sorted_eq_iff]
      exact h5
    · rw [a2, b2, h4]

/-- Merged requests are the same request, headers up to order, if no header name of either is a proper prefix of
another one. Missing: header names that are prefixes of each other (`C18_counterexample`). -/
theorem C18_merged_partial (r r' : Request) (hs : size r < 2 ^ 32) (hs' : size r' < 2 ^ 32)
    (hp : ∀ a ∈ r.headers ++ r'.headers, ∀ b ∈ r.headers ++ r'.headers, a.1 <+: b.1 → a.1 = b.1)
    (h : keyEq (keyOf r) (keyOf r') = true) :
    r.subgraph = r'.subgraph ∧ r.method = r'.method ∧ r.url = r'.url ∧ r.body = r'.body ∧
      r.headers.Perm r'.headers := by
  obtain ⟨h1, h2, h3, h4, h5⟩ := (C18_merged_iff r r' hs hs').1 h
  refine ⟨h1, h2, h3, h4, ?_⟩
  have inj : ∀ a ∈ r.headers ++ r'.headers, ∀ b ∈ r.headers ++ r'.headers, a.1 ++ a.2 = b.1 ++ b.2 → a = b := by
    intro a ha b hb e
    have hn : a.1 = b.1 := by
      rcases List.prefix_or_prefix_of_prefix (l₃ := a.1 ++ a.2) ⟨a.2, rfl⟩ ⟨b.2, e.symm⟩ with h | h
      · exact hp a ha b hb h
      · exact (hp b hb a ha h).symm
    obtain ⟨a1, a2⟩ := a
    obtain ⟨b1, b2⟩ := b
    simp only at hn e
    subst hn
    rw [List.append_cancel_left e]
  clear hp h h1 h2 h3 h4 hs hs'
  unfold joined at h5
  generalize r.headers = l at *
  generalize r'.headers = l' at *
  induction l generalizing l' with
  | nil =>
    cases l' with
    | nil => exact List.Perm.refl _
    | cons b l' => exact absurd h5.length_eq (by simp)
  | cons a l ih =>
    have ha : a.1 ++ a.2 ∈ l'.map (fun h => h.1 ++ h.2) := h5.mem_iff.1 (by simp)
    obtain ⟨b, hb, e⟩ := List.mem_map.1 ha
    have : b = a := inj b (by simp [hb]) a (by simp) e
    subst this
    obtain ⟨s, t, rfl⟩ := List.append_of_mem hb
    have h6 : (l.map (fun h => h.1 ++ h.2)).Perm ((s ++ t).map (fun h => h.1 ++ h.2)) := by
      have : ((s ++ b :: t).map (fun h : Bytes × Bytes => h.1 ++ h.2)).Perm
          ((b :: (s ++ t)).map (fun h : Bytes × Bytes => h.1 ++ h.2)) := List.perm_middle.map _
      exact List.Perm.cons_inv (h5.trans this)
    have := ih (s ++ t) h6 (fun x hx y hy => inj x (by simp at *; grind) y (by simp at *; grind))
    exact (this.cons b).trans List.perm_middle.symm

/-- Two different requests that are merged: header `x` with value `-ab`, header `x-a` with value `b`. -/
theorem C18_counterexample :
    ∃ r r' : Request, keyEq (keyOf r) (keyOf r') = true ∧ ¬ r.headers.Perm r'.headers := by
  refine ⟨⟨1, [80], [47], [([120], [45, 97, 98])], []⟩, ⟨1, [80], [47], [([120, 45, 97], [98])], []⟩, ?_, ?_⟩
  · rw [C18_merged_iff _ _ (by decide) (by decide)]
    exact ⟨rfl, rfl, rfl, rfl, by simp [joined]⟩
  · intro h
    have := h.mem_iff (a := ([120], [45, 97, 98]))
    simp at this

/-- Equal requests, whatever the order of their headers, have equal keys. -/
theorem C18_equal_merged (r r' : Request) (hs : size r < 2 ^ 32) (hs' : size r' < 2 ^ 32)
    (h : r.subgraph = r'.subgraph ∧ r.method = r'.method ∧ r.url = r'.url ∧ r.body = r'.body ∧
      r.headers.Perm r'.headers) : keyEq (keyOf r) (keyOf r') = true := by
  rw [C18_merged_iff r r' hs hs']
  obtain ⟨h1, h2, h3, h4, h5⟩ := h
  exact ⟨h1, h2, h3, h4, h5.map _⟩

/-- Equal keys are hashed alike (also for keys whose sizes wrapped around). -/
theorem C18_equal_hash (a b : RequestKey) (h : keyEq a b = true) : hashInput a = hashInput b := by
  unfold keyEq at h
  simp only [Bool.and_eq_true, beq_iff_eq] at h
  obtain ⟨⟨⟨⟨⟨⟨⟨⟨⟨h1, h2⟩, h3⟩, h4⟩, h5⟩, h6⟩, h7⟩, h8⟩, h9⟩, h10⟩ := h
  rw [zip_all_eq (fun s => slice a.parts s.1 s.2) (fun s => slice b.parts s.1 s.2) _ _ h4] at h9
  have : a.sections.map (fun s => Write.bytes (slice a.parts s.1 s.2)) =
      b.sections.map (fun s => Write.bytes (slice b.parts s.1 s.2)) := by
    have := congrArg (List.map Write.bytes) h9
    simpa [Function.comp_def] using this
  rw [hashInput, hashInput, h1, h7, h8, this, h10, h5]

section
variable {K R : Type} [DecidableEq K]

/-- A caller that does not take part in merging (a mutation, or merging is off) gets the answer to its own
request, and nobody else gets it. -/
theorem C18_mutations_alone (h : List (Event K R)) (c : Nat) (r : R) (hd : (run h).status c = .done r) :
    ∃ k m l h1 h2 h3, h = h1 ++ .start c k m :: (h2 ++ .respond l r :: h3) ∧ (run h1).status c = .idle ∧
      Started (h1 ++ .start c k m :: h2) l k m ∧ (m = false → l = c) := by
  obtain ⟨ck, i⟩ := inv_run h
  obtain ⟨k, m, l, h1, h2, h3, a, b, ⟨c, -⟩, d⟩ := i.done c r hd
  exact ⟨k, m, l, h1, h2, h3, a, b, c, d⟩

/-! ## C19 -/

/-- For any interleaving of callers, cancellations and responses: the answer of a caller was given by the subgraph
after the caller asked, to a caller (itself, or another that takes part in merging) with the same key whose
request was in flight then. In particular no earlier response is reused. -/
theorem C19_fresh (h : List (Event K R)) (c : Nat) (r : R) (hd : (run h).status c = .done r) : Answered h c r := by
  obtain ⟨ck, i⟩ := inv_run h
  exact i.done c r hd

/-- The unwraps at the end never panic. -/
theorem C19_no_panic (h : List (Event K R)) (c : Nat) : (run h).status c ≠ .panicked := by
  obtain ⟨ck, i⟩ := inv_run h
  exact i.ok c

def Pending : Status R → Prop
  | .direct => True
  | .waiting _ => True
  | .running _ => True
  | .completing _ _ => True
  | _ => False

/-- Events other than cancellations. -/
def NotCancel : Event K R → Prop
  | .cancel _ => False
  | _ => True

/-- No caller is ever stuck: from every reachable state, whatever was cancelled before, each pending caller is
answered after at most three more steps, given that the subgraph responds. -/
theorem C19_answered (h : List (Event K R)) (c : Nat) (r : R) (hp : Pending ((run h).status c)) :
    ∃ es r', es.length ≤ 3 ∧ (∀ e ∈ es, NotCancel e) ∧ (run (h ++ es)).status c = .done r' := by
  obtain ⟨ck, i⟩ := inv_run h
  have hrun : ∀ es, run (h ++ es) = es.foldl step (run h) := by intro es; simp [run]
  cases hs : (run h).status c with
  | direct => exact ⟨[.respond c r], r, by simp, by simp [NotCancel], by simp [hrun, step, hs, upd]⟩
  | running x =>
    obtain ⟨-, k, hk, -⟩ := i.running c x hs
    exact ⟨[.respond c r, .complete c], r, by simp, by simp [NotCancel], by
      simp [hrun, step, hs, upd, hk, unwrapCell]⟩
  | completing x r' => exact ⟨[.complete c], r', by simp, by simp [NotCancel], by
      simp [hrun, step, hs, upd, unwrapCell]⟩
  | waiting x =>
    obtain ⟨hlt, -⟩ := i.lt c x (by simp [hs, cellOf])
    cases hv : ((run h).cells x).value with
    | some r' => exact ⟨[.wake c], r', by simp, by simp [NotCancel], by
        simp [hrun, step, hs, upd, unwrapCell, hv]⟩
    | none =>
      cases hh : ((run h).cells x).holder with
      | none =>
        have hcell : (run h).cells x = ⟨none, none⟩ := by
          cases e : (run h).cells x; rw [e] at hv hh; simp at hv hh; simp [hv, hh]
        obtain ⟨k, hk, -⟩ := i.shared c x (by simp [hs, cellOf]) hv hh
        exact ⟨[.acquire c, .respond c r, .complete c], r, by simp, by simp [NotCancel], by
          simp [hrun, step, hs, upd, hcell, hk, unwrapCell]⟩
      | some l =>
        have hne : l ≠ c := by
          rintro rfl
          rcases i.holder l x hlt hh with h | ⟨r', h⟩ <;> rw [hs] at h <;> simp at h
        rcases i.holder l x hlt hh with hl | ⟨r', hl⟩
        · obtain ⟨-, k, hk, -⟩ := i.running l x hl
          exact ⟨[.respond l r, .complete l, .wake c], r, by simp, by simp [NotCancel], by
            simp [hrun, step, hs, upd, hl, hk, unwrapCell, hne, hne.symm]⟩
        · exact ⟨[.complete l, .wake c], r', by simp, by simp [NotCancel], by
            simp [hrun, step, hs, upd, hl, unwrapCell, hne, hne.symm]⟩
  | idle => rw [hs] at hp; exact hp.elim
  | done _ => rw [hs] at hp; exact hp.elim
  | cancelled => rw [hs] at hp; exact hp.elim
  | panicked => rw [hs] at hp; exact hp.elim

/-- While a request is in flight, callers with the same key that arrive wait for it instead of sending another. -/
theorem C19_merged (h : List (Event K R)) (l : Nat) (x : Nat) (k : K) (c : Nat)
    (hl : (run h).status l = .running x) (hk : (run h).key l = some k) (hc : (run h).status c = .idle) :
    (run (h ++ [.start c k true])).status c = .waiting x := by
  obtain ⟨ck, i⟩ := inv_run h
  obtain ⟨-, k', hk', hm⟩ := i.running l x hl
  rw [hk] at hk'
  simp only [Option.some.injEq] at hk'
  subst hk'
  rw [run_append]
  simp [step, hc, hm, upd]

end

/-! ## Non-vacuity -/

/-- Leader 0 is cancelled, 1 takes over, 2 joins, both get 1's response; 3 arrives after that and asks anew; 4 is a
mutation. -/
def sample : List (Event Nat Nat) :=
  [.start 0 7 true, .acquire 0, .start 1 7 true, .cancel 0, .acquire 1, .start 2 7 true, .respond 1 100,
   .start 3 7 true, .complete 1, .wake 2, .acquire 3, .start 4 7 false, .respond 4 300, .respond 3 200, .complete 3]

example : (List.range 5).map (run sample).status =
    [.cancelled, .done 100, .done 100, .done 200, .done 300] := by decide

example : Pending ((run (sample.take 6)).status 2) := by
  have : (run (sample.take 6)).status 2 = .waiting 0 := by decide
  rw [this]; trivial

example : keyEq (keyOf ⟨1, [80], [47], [([97], [1]), ([98], [2])], [9]⟩)
    (keyOf ⟨1, [80], [47], [([98], [2]), ([97], [1])], [9]⟩) = true :=
  C18_equal_merged _ _ (by decide) (by decide) ⟨rfl, rfl, rfl, rfl, List.Perm.swap _ _ _⟩

end Verif.InFlight
