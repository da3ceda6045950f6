import Verif.Contracts.Spec
import Verif.Hidden.Lemmas

/-!
# Lemmas about contracts
-/

namespace Verif.Contracts

open Verif.Hidden

theorem rank_eq (a : Int) : rank a = (priority a : Int) := by
  unfold rank priority
  split <;> omega

theorem rank_lt (a b : Int) : rank a < rank b ↔ priority a < priority b := by
  rw [rank_eq, rank_eq]; omega

theorem rank_le (a b : Int) : rank a ≤ rank b ↔ priority a ≤ priority b := by
  rw [rank_eq, rank_eq]; omega

theorem vset_self (v : Values) (s : Site) (a : Int) : v.set s a s = a := by simp [Values.set]

theorem vset_ne (v : Values) {s t : Site} (a : Int) (h : t ≠ s) : v.set s a t = v t := by simp [Values.set, h]

/-! ## Values of elements -/

theorem ingest_sites : ∀ (l : List Site) (v : Values) (a : Int) (s : Site),
    l.foldl (fun v s => v.set s a) v s = if s ∈ l then a else v s := by
  intro l
  induction l with
  | nil => intro v a s; simp
  | cons t l ih =>
    intro v a s
    rw [List.foldl_cons, ih]
    by_cases h : s ∈ l
    · simp [h]
    · by_cases ht : s = t
      · subst ht; simp [h, vset_self]
      · simp [h, ht, vset_ne v a ht]

theorem ingest_fold : ∀ (l : List (Int × List Site)) (v : Values) (s : Site), l.Pairwise (fun a b => rank a.1 ≤ rank b.1) →
    (∃ r ∈ l, s ∈ r.2 ∧ r.1 = l.foldl (fun v r => r.2.foldl (fun v s => v.set s r.1) v) v s ∧
        ∀ r' ∈ l, s ∈ r'.2 → rank r'.1 ≤ rank r.1) ∨
      ((∀ r ∈ l, s ∉ r.2) ∧ l.foldl (fun v r => r.2.foldl (fun v s => v.set s r.1) v) v s = v s) := by
  intro l
  induction l with
  | nil => intro v s _; exact .inr ⟨by simp, rfl⟩
  | cons r l ih =>
    intro v s hs
    rw [List.foldl_cons]
    obtain ⟨h1, h2⟩ := List.pairwise_cons.1 hs
    rcases ih (r.2.foldl (fun v s => v.set s r.1) v) s h2 with ⟨q, hq, hqs, hqv, hmax⟩ | ⟨hno, hv⟩
    · refine .inl ⟨q, List.mem_cons_of_mem _ hq, hqs, hqv, ?_⟩
      intro r' hr' hrs
      rcases List.mem_cons.1 hr' with rfl | hr'
      · exact h1 q hq
      · exact hmax r' hr' hrs
    · rw [hv, ingest_sites]
      by_cases hm : s ∈ r.2
      · refine .inl ⟨r, by simp, hm, by simp [hm], ?_⟩
        intro r' hr' hrs
        rcases List.mem_cons.1 hr' with rfl | hr'
        · exact Int.le_refl _
        · exact absurd hrs (hno r' hr')
      · refine .inr ⟨?_, by simp [hm]⟩
        intro r' hr'
        rcases List.mem_cons.1 hr' with rfl | hr'
        · exact hm
        · exact hno r' hr'

theorem ingest_own {dflt : Int} {rs sorted : List (Int × List Site)} (h : Order rs sorted) (s : Site) :
    Own dflt rs s (ingestAll dflt sorted s) := by
  unfold ingestAll
  rcases ingest_fold sorted (fun _ => dflt) s h.2 with ⟨r, hr, hs, hv, hmax⟩ | ⟨hno, hv⟩
  · refine .inl ⟨r, h.1.mem_iff.1 hr, hs, hv, ?_⟩
    intro r' hr' hs'
    rw [← hv]
    exact hmax r' (h.1.mem_iff.2 hr') hs'
  · exact .inr ⟨fun r hr => hno r (h.1.mem_iff.2 hr), hv⟩

/-! ## Downwards -/

theorem replace_idem (a b : Int) : replaceIfHigher (replaceIfHigher a b) b = replaceIfHigher a b := by
  unfold replaceIfHigher
  by_cases h : priority a < priority b <;> simp [h]

theorem down_kids : ∀ (l : List Site) (v : Values) (p s : Site), p ∉ l →
    l.foldl (fun v k => v.set k (replaceIfHigher (v k) (v p))) v s = if s ∈ l then replaceIfHigher (v s) (v p) else v s := by
  intro l
  induction l with
  | nil => intro v p s _; simp
  | cons t l ih =>
    intro v p s hp
    rw [List.foldl_cons, ih _ _ _ (fun h => hp (List.mem_cons_of_mem _ h))]
    have hpt : p ≠ t := fun h => hp (by simp [h])
    rw [vset_ne v _ hpt]
    by_cases ht : s = t
    · subst ht
      rw [vset_self]
      by_cases h : s ∈ l
      · simp [h, replace_idem]
      · simp [h]
    · rw [vset_ne v _ ht]
      by_cases h : s ∈ l <;> simp [h, ht]

theorem down_fold {S : Schema} (T : Tree S) {mk : Nat → Site} (hmk : ∀ i j, parentOf S (mk i) ≠ some (mk j)) :
    ∀ (L : List Nat) (v : Values) (s p : Site), parentOf S s = some p →
    L.foldl (fun v i => (children S (mk i)).foldl (fun v k => v.set k (replaceIfHigher (v k) (v (mk i)))) v) v s =
      if p ∈ L.map mk then replaceIfHigher (v s) (v p) else v s := by
  intro L
  induction L with
  | nil => intro v s p _; simp
  | cons i L ih =>
    intro v s p hp
    rw [List.foldl_cons, ih _ s p hp]
    have hno : ∀ j, mk j ∉ children S (mk i) := fun j h => hmk j i ((T.tree _ _).1 h)
    rw [down_kids _ _ _ _ (hno i), down_kids _ _ _ _ (hno i)]
    have hs : s ∈ children S (mk i) ↔ p = mk i := by
      rw [T.tree, hp]; simp
    by_cases hpi : p = mk i
    · have hp' : p ∉ children S (mk i) := by rw [hpi]; exact hno i
      have hsm := hs.2 hpi
      rw [if_pos hsm, if_neg hp']
      rw [← hpi]
      by_cases hL : p ∈ L.map mk
      · simp [hL, replace_idem]
      · rw [if_neg hL, if_pos (by rw [hpi]; simp)]
    · have hsm : s ∉ children S (mk i) := fun h => hpi (hs.1 h)
      rw [if_neg hsm]
      by_cases hL : p ∈ L.map mk
      · obtain ⟨j, _, hj⟩ := List.mem_map.1 hL
        have hp' : p ∉ children S (mk i) := by rw [← hj]; exact hno j
        rw [if_neg hp']
        simp only [List.map_cons, List.mem_cons, hpi, false_or]
      · simp only [List.map_cons, List.mem_cons, hpi, false_or, hL, if_false]

theorem down_parent {S : Schema} (T : Tree S) {mk : Nat → Site} (hmk : ∀ i j, parentOf S (mk i) ≠ some (mk j)) (n : Nat)
    (v : Values) {s p : Site} (hp : parentOf S s = some p) (hin : p ∈ (List.range n).map mk) :
    down S mk n v s = replaceIfHigher (v s) (v p) := by
  unfold down
  rw [down_fold T hmk _ _ _ _ hp, if_pos hin]

theorem down_other {S : Schema} (T : Tree S) {mk : Nat → Site} (hmk : ∀ i j, parentOf S (mk i) ≠ some (mk j)) (n : Nat)
    (v : Values) {s : Site} (hp : ∀ i, parentOf S s ≠ some (mk i)) : down S mk n v s = v s := by
  unfold down
  cases h : parentOf S s with
  | some p =>
    rw [down_fold T hmk _ _ _ _ h, if_neg]
    intro hm
    obtain ⟨i, _, e⟩ := List.mem_map.1 hm
    exact hp i (by rw [h, e])
  | none =>
    have : ∀ (L : List Nat) (v : Values), L.foldl (fun v i => (children S (mk i)).foldl
        (fun v k => v.set k (replaceIfHigher (v k) (v (mk i)))) v) v s = v s := by
      intro L
      induction L with
      | nil => intro v; rfl
      | cons i L ih =>
        intro v
        rw [List.foldl_cons, ih, down_kids]
        · rw [if_neg]
          intro hm
          rw [T.tree, h] at hm; cases hm
        · intro hm; exact hmk i i ((T.tree _ _).1 hm)
    exact this _ _

/-- The strongest value of an element and what it is in. -/
def downOf (S : Schema) (v : Values) (s : Site) : Int :=
  match parentOf S s with
  | none => v s
  | some p => replaceIfHigher (v s) (match parentOf S p with
    | none => v p
    | some q => replaceIfHigher (v p) (v q))

theorem parent_field {S : Schema} (T : Tree S) {ix : Nat} {p : Site} (h : parentOf S (.field ix) = some p) :
    ((∃ n, n < S.objects.length ∧ p = .object n) ∨ ∃ n, n < S.interfaces.length ∧ p = .interface n) := by
  simp only [parentOf] at h
  cases hf : S.fields[ix]? with
  | none => rw [hf] at h; simp at h
  | some f =>
    rw [hf] at h
    simp only [Option.map_some, Option.some.injEq] at h
    rw [← h]
    exact T.wf.fieldParent ix f hf

theorem parent_value {S : Schema} (T : Tree S) {ix : Nat} {p : Site} (h : parentOf S (.value ix) = some p) :
    ((∃ n, n < S.fields.length ∧ p = .field n) ∨ ∃ n, n < S.inputs.length ∧ p = .input n) := by
  have h' := id h
  simp only [parentOf] at h
  cases hf : S.values[ix]? with
  | none => rw [hf] at h; simp at h
  | some f =>
    rw [hf] at h
    simp only [Option.map_some, Option.some.injEq] at h
    rcases T.wf.valueParent ix f hf with ⟨n, e⟩ | ⟨n, hn, e⟩
    · left
      refine ⟨n, ?_, by rw [← h, e]⟩
      rw [← T.tree, ← h, e] at h'
      simp only [children] at h'
      cases hfn : S.fields[n]? with
      | none => rw [hfn] at h'; simp at h'
      | some g => exact getElem?_lt hfn
    · exact .inr ⟨n, hn, by rw [← h, e]⟩

theorem parent_enumValue {S : Schema} (T : Tree S) {ix : Nat} {p : Site} (h : parentOf S (.enumValue ix) = some p) :
    ∃ n, n < S.enums.length ∧ p = .enum n := by
  simp only [parentOf] at h
  cases hf : S.enumValues[ix]? with
  | none => rw [hf] at h; simp at h
  | some n =>
    rw [hf] at h
    simp only [Option.map_some, Option.some.injEq] at h
    exact ⟨n, T.enumParent ix n hf, h.symm⟩

theorem downAll_eq {S : Schema} (T : Tree S) (v : Values) (s : Site) : downAll S v s = downOf S v s := by
  have hI : ∀ i j, parentOf S (.input i) ≠ some (.input j) := by intro i j; simp [parentOf]
  have hO : ∀ i j, parentOf S (.object i) ≠ some (.object j) := by intro i j; simp [parentOf]
  have hN : ∀ i j, parentOf S (.interface i) ≠ some (.interface j) := by intro i j; simp [parentOf]
  have hE : ∀ i j, parentOf S (.enum i) ≠ some (.enum j) := by intro i j; simp [parentOf]
  have hF : ∀ i j, parentOf S (.field i) ≠ some (.field j) := by
    intro i j h
    rcases parent_field T h with ⟨_, _, e⟩ | ⟨_, _, e⟩ <;> cases e
  unfold downAll downOf
  cases s with
  | field ix =>
    cases hp : parentOf S (.field ix) with
    | none =>
      rw [down_other T hE _ _ (by rw [hp]; simp), down_other T hF _ _ (by rw [hp]; simp),
        down_other T hN _ _ (by rw [hp]; simp), down_other T hO _ _ (by rw [hp]; simp), down_other T hI _ _ (by rw [hp]; simp)]
    | some p =>
      rcases parent_field T hp with ⟨n, hn, rfl⟩ | ⟨n, hn, rfl⟩
      · rw [down_other T hE _ _ (by rw [hp]; simp), down_other T hF _ _ (by rw [hp]; simp),
          down_other T hN _ _ (by rw [hp]; simp), down_parent T hO _ _ hp (by simp [hn]), down_other T hI _ _ (by rw [hp]; simp),
          down_other T hI _ _ (by simp [parentOf])]
        simp [parentOf]
      · rw [down_other T hE _ _ (by rw [hp]; simp), down_other T hF _ _ (by rw [hp]; simp),
          down_parent T hN _ _ hp (by simp [hn]), down_other T hO _ _ (by rw [hp]; simp), down_other T hI _ _ (by rw [hp]; simp),
          down_other T hO _ _ (by simp [parentOf]), down_other T hI _ _ (by simp [parentOf])]
        simp [parentOf]
  | value ix =>
    cases hp : parentOf S (.value ix) with
    | none =>
      rw [down_other T hE _ _ (by rw [hp]; simp), down_other T hF _ _ (by rw [hp]; simp),
        down_other T hN _ _ (by rw [hp]; simp), down_other T hO _ _ (by rw [hp]; simp), down_other T hI _ _ (by rw [hp]; simp)]
    | some p =>
      rcases parent_value T hp with ⟨f, hf, rfl⟩ | ⟨n, hn, rfl⟩
      · rw [down_other T hE _ _ (by rw [hp]; simp), down_parent T hF _ _ hp (by simp [hf]),
          down_other T hN _ _ (by rw [hp]; simp), down_other T hO _ _ (by rw [hp]; simp), down_other T hI _ _ (by rw [hp]; simp)]
        congr 1
        cases hq : parentOf S (.field f) with
        | none =>
          rw [down_other T hN _ _ (by rw [hq]; simp), down_other T hO _ _ (by rw [hq]; simp), down_other T hI _ _ (by rw [hq]; simp)]
        | some q =>
          rcases parent_field T hq with ⟨n, hn, rfl⟩ | ⟨n, hn, rfl⟩
          · rw [down_other T hN _ _ (by rw [hq]; simp), down_parent T hO _ _ hq (by simp [hn]), down_other T hI _ _ (by rw [hq]; simp),
              down_other T hI _ _ (by simp [parentOf])]
          · rw [down_parent T hN _ _ hq (by simp [hn]), down_other T hO _ _ (by rw [hq]; simp), down_other T hI _ _ (by rw [hq]; simp),
              down_other T hO _ _ (by simp [parentOf]), down_other T hI _ _ (by simp [parentOf])]
      · rw [down_other T hE _ _ (by rw [hp]; simp), down_other T hF _ _ (by rw [hp]; simp),
          down_other T hN _ _ (by rw [hp]; simp), down_other T hO _ _ (by rw [hp]; simp), down_parent T hI _ _ hp (by simp [hn])]
        simp [parentOf]
  | enumValue ix =>
    cases hp : parentOf S (.enumValue ix) with
    | none =>
      rw [down_other T hE _ _ (by rw [hp]; simp), down_other T hF _ _ (by rw [hp]; simp),
        down_other T hN _ _ (by rw [hp]; simp), down_other T hO _ _ (by rw [hp]; simp), down_other T hI _ _ (by rw [hp]; simp)]
    | some p =>
      obtain ⟨n, hn, rfl⟩ := parent_enumValue T hp
      rw [down_parent T hE _ _ hp (by simp [hn]), down_other T hF _ _ (by rw [hp]; simp),
        down_other T hN _ _ (by rw [hp]; simp), down_other T hO _ _ (by rw [hp]; simp), down_other T hI _ _ (by rw [hp]; simp),
        down_other T hF _ _ (by simp [parentOf]), down_other T hN _ _ (by simp [parentOf]), down_other T hO _ _ (by simp [parentOf]),
        down_other T hI _ _ (by simp [parentOf])]
      simp [parentOf]
  | object n =>
    rw [down_other T hE _ _ (by simp [parentOf]), down_other T hF _ _ (by simp [parentOf]), down_other T hN _ _ (by simp [parentOf]),
      down_other T hO _ _ (by simp [parentOf]), down_other T hI _ _ (by simp [parentOf])]; simp [parentOf]
  | interface n =>
    rw [down_other T hE _ _ (by simp [parentOf]), down_other T hF _ _ (by simp [parentOf]), down_other T hN _ _ (by simp [parentOf]),
      down_other T hO _ _ (by simp [parentOf]), down_other T hI _ _ (by simp [parentOf])]; simp [parentOf]
  | union n =>
    rw [down_other T hE _ _ (by simp [parentOf]), down_other T hF _ _ (by simp [parentOf]), down_other T hN _ _ (by simp [parentOf]),
      down_other T hO _ _ (by simp [parentOf]), down_other T hI _ _ (by simp [parentOf])]; simp [parentOf]
  | enum n =>
    rw [down_other T hE _ _ (by simp [parentOf]), down_other T hF _ _ (by simp [parentOf]), down_other T hN _ _ (by simp [parentOf]),
      down_other T hO _ _ (by simp [parentOf]), down_other T hI _ _ (by simp [parentOf])]; simp [parentOf]
  | scalar n =>
    rw [down_other T hE _ _ (by simp [parentOf]), down_other T hF _ _ (by simp [parentOf]), down_other T hN _ _ (by simp [parentOf]),
      down_other T hO _ _ (by simp [parentOf]), down_other T hI _ _ (by simp [parentOf])]; simp [parentOf]
  | input n =>
    rw [down_other T hE _ _ (by simp [parentOf]), down_other T hF _ _ (by simp [parentOf]), down_other T hN _ _ (by simp [parentOf]),
      down_other T hO _ _ (by simp [parentOf]), down_other T hI _ _ (by simp [parentOf])]; simp [parentOf]

/-! ## The strongest value -/

theorem strongest_unique {own : Site → Int} : ∀ {l : List Site} {a b : Int}, Strongest own l a → Strongest own l b → a = b := by
  intro l a b ⟨l1, t, l2, e, ht, h1, h2⟩ ⟨k1, u, k2, e', hu, g1, g2⟩
  rw [e] at e'
  rcases List.append_eq_append_iff.1 e' with ⟨c, hc1, hc2⟩ | ⟨c, hc1, hc2⟩
  · cases c with
    | nil => simp at hc2; rw [← ht, ← hu, hc2.1]
    | cons x c =>
      simp at hc2
      obtain ⟨rfl, hc2⟩ := hc2
      have i1 := g1 t (by rw [hc1]; simp)
      have i2 := h2 u (by rw [hc2]; simp)
      rw [ht] at i1; rw [hu] at i2; omega
  · cases c with
    | nil => simp at hc2; rw [← ht, ← hu, hc2.1]
    | cons x c =>
      simp at hc2
      obtain ⟨rfl, hc2⟩ := hc2
      have i1 := h1 u (by rw [hc1]; simp)
      have i2 := g2 t (by rw [hc2]; simp)
      rw [ht] at i2; rw [hu] at i1; omega

theorem strongest_cons {own : Site → Int} {s : Site} {l : List Site} {a : Int} (h : Strongest own l a) :
    Strongest own (s :: l) (replaceIfHigher (own s) a) := by
  obtain ⟨l1, t, l2, rfl, ht, h1, h2⟩ := h
  unfold replaceIfHigher
  split
  · rename_i hp
    refine ⟨s :: l1, t, l2, rfl, ht, ?_, h2⟩
    intro b hb
    rcases List.mem_cons.1 hb with rfl | hb
    · exact (rank_lt _ _).2 hp
    · exact h1 b hb
  · rename_i hp
    refine ⟨[], s, l1 ++ t :: l2, rfl, rfl, by simp, ?_⟩
    have hle : rank a ≤ rank (own s) := (rank_le _ _).2 (by omega)
    intro b hb
    rcases List.mem_append.1 hb with hb | hb
    · have := h1 b hb; omega
    · rcases List.mem_cons.1 hb with rfl | hb
      · rw [ht]; exact hle
      · have := h2 b hb; omega

theorem strongest_one {own : Site → Int} (s : Site) : Strongest own [s] (own s) := ⟨[], s, [], rfl, rfl, by simp, by simp⟩

theorem downOf_strongest (S : Schema) (v : Values) (s : Site) : Strongest v (chain S s) (downOf S v s) := by
  unfold chain downOf
  cases hp : parentOf S s with
  | none => exact strongest_one s
  | some p =>
    simp only
    cases hq : parentOf S p with
    | none => exact strongest_cons (strongest_one p)
    | some q => exact strongest_cons (strongest_cons (strongest_one q))

theorem downOf_child {S : Schema} (T : Tree S) (v : Values) {s p : Site} (h : parentOf S s = some p) :
    downOf S v s = replaceIfHigher (v s) (downOf S v p) := by
  rw [downOf.eq_def, h]
  simp only
  congr 1
  rw [downOf.eq_def]
  cases hq : parentOf S p with
  | none => rfl
  | some q =>
    simp only
    have : parentOf S q = none := by
      cases s with
      | field ix => rcases parent_field T h with ⟨_, _, rfl⟩ | ⟨_, _, rfl⟩ <;> simp [parentOf] at hq
      | value ix =>
        rcases parent_value T h with ⟨f, _, rfl⟩ | ⟨_, _, rfl⟩
        · rcases parent_field T hq with ⟨_, _, rfl⟩ | ⟨_, _, rfl⟩ <;> simp [parentOf]
        · simp [parentOf] at hq
      | enumValue ix => obtain ⟨_, _, rfl⟩ := parent_enumValue T h; simp [parentOf] at hq
      | _ => simp [parentOf] at h
    rw [this]

/-! ## Upwards -/

/-- `t` is in `s`. -/
def Below (S : Schema) (t s : Site) : Prop := s ∈ (chain S t).tail

theorem below_parent {S : Schema} {t p : Site} (h : parentOf S t = some p) : Below S t p := by
  unfold Below chain
  rw [h]
  simp only
  cases parentOf S p <;> simp

theorem below_grand {S : Schema} {t p q : Site} (h : parentOf S t = some p) (hq : parentOf S p = some q) : Below S t q := by
  unfold Below chain
  rw [h]
  simp only
  rw [hq]
  simp

theorem below_cases {S : Schema} {t s : Site} (h : Below S t s) :
    parentOf S t = some s ∨ ∃ p, parentOf S t = some p ∧ parentOf S p = some s := by
  unfold Below chain at h
  cases hp : parentOf S t with
  | none => rw [hp] at h; simp at h
  | some p =>
    rw [hp] at h
    simp only at h
    cases hq : parentOf S p with
    | none => rw [hq] at h; simp at h; exact .inl (by rw [h])
    | some q =>
      rw [hq] at h
      simp at h
      rcases h with rfl | rfl
      · exact .inl rfl
      · exact .inr ⟨p, rfl, hq⟩

theorem below_trans {S : Schema} (T : Tree S) {t p q : Site} (h : Below S t p) (hq : parentOf S p = some q) : Below S t q := by
  rcases below_cases h with h | ⟨r, h1, h2⟩
  · exact below_grand h hq
  · exfalso
    cases t with
    | field ix => rcases parent_field T h1 with ⟨_, _, rfl⟩ | ⟨_, _, rfl⟩ <;> simp [parentOf] at h2
    | value ix =>
      rcases parent_value T h1 with ⟨f, _, rfl⟩ | ⟨_, _, rfl⟩
      · rcases parent_field T h2 with ⟨_, _, rfl⟩ | ⟨_, _, rfl⟩ <;> simp [parentOf] at hq
      · simp [parentOf] at h2
    | enumValue ix => obtain ⟨_, _, rfl⟩ := parent_enumValue T h1; simp [parentOf] at h2
    | _ => simp [parentOf] at h1

theorem priority_replace_left (a b : Int) : priority a ≤ priority (replaceIfHigher a b) := by
  unfold replaceIfHigher; split <;> omega

theorem priority_replace_right (a b : Int) : priority b ≤ priority (replaceIfHigher a b) := by
  unfold replaceIfHigher; split <;> omega

/-- What holds while values are raised: `D` are the values before, `done` tells what has been raised. -/
structure UpInv (S : Schema) (D : Values) (todo : Site → Site → Prop) (v : Values) : Prop where
  from_ : ∀ s, v s = D s ∨ (0 ≤ v s ∧ priority (D s) < priority (v s) ∧ ∃ t, Below S t s ∧ 0 ≤ D t ∧ v s = D t)
  handled : ∀ t s, Below S t s → 0 ≤ D t → todo t s ∨ priority (D t) ≤ priority (v s)

theorem UpInv.le {S : Schema} {D v : Values} {todo : Site → Site → Prop} (h : UpInv S D todo v) (s : Site) :
    priority (D s) ≤ priority (v s) := by
  rcases h.from_ s with e | ⟨_, h, _⟩
  · rw [e]; exact Nat.le_refl _
  · omega

theorem UpInv.nonneg {S : Schema} {D v : Values} {todo : Site → Site → Prop} (h : UpInv S D todo v) {s : Site} (hs : 0 ≤ D s) :
    0 ≤ v s := by
  rcases h.from_ s with e | ⟨h, _⟩
  · rw [e]; exact hs
  · exact h

/-- One raise. -/
theorem UpInv.raise {S : Schema} {D v : Values} {todo : Site → Site → Prop} (T : Tree S) (h : UpInv S D todo v) {t p : Site} {a : Int}
    (ha : 0 ≤ a) (hat : ∃ u, (u = t ∨ Below S u t) ∧ 0 ≤ D u ∧ a = D u) (hp : Below S t p) (hup : ∀ u, Below S u t → Below S u p) :
    UpInv S D todo (v.set p (replaceIfHigher (v p) a)) ∧
      priority a ≤ priority ((v.set p (replaceIfHigher (v p) a)) p) := by
  refine ⟨⟨?_, ?_⟩, ?_⟩
  · intro s
    by_cases hs : s = p
    · subst hs
      rw [vset_self]
      unfold replaceIfHigher
      split
      · rename_i hlt
        refine .inr ⟨ha, ?_, ?_⟩
        · have := h.le s; omega
        · obtain ⟨u, hu, hu0, hua⟩ := hat
          refine ⟨u, ?_, hu0, hua⟩
          rcases hu with rfl | hu
          · exact hp
          · exact hup u hu
      · exact h.from_ s
    · rw [vset_ne _ _ hs]; exact h.from_ s
  · intro u s hu hu0
    rcases h.handled u s hu hu0 with h' | h'
    · exact .inl h'
    · by_cases hs : s = p
      · subst hs
        rw [vset_self]
        have := priority_replace_left (v s) a
        exact .inr (by omega)
      · rw [vset_ne _ _ hs]; exact .inr h'
  · rw [vset_self]; exact priority_replace_right _ _

theorem UpInv.drop {S : Schema} {D v : Values} {todo todo' : Site → Site → Prop} (h : UpInv S D todo v)
    (hd : ∀ t s, Below S t s → 0 ≤ D t → todo t s → todo' t s ∨ priority (D t) ≤ priority (v s)) : UpInv S D todo' v :=
  ⟨h.from_, fun t s hb h0 => by
    rcases h.handled t s hb h0 with h' | h'
    · exact hd t s hb h0 h'
    · exact .inr h'⟩

theorem no_below_value {S : Schema} (T : Tree S) {t : Site} {ix : Nat} (h : Below S t (.value ix)) : False := by
  have key : ∀ u, parentOf S u ≠ some (.value ix) := by
    intro u hu
    cases u with
    | field n => rcases parent_field T hu with ⟨_, _, e⟩ | ⟨_, _, e⟩ <;> cases e
    | value n => rcases parent_value T hu with ⟨_, _, e⟩ | ⟨_, _, e⟩ <;> cases e
    | enumValue n => obtain ⟨_, _, e⟩ := parent_enumValue T hu; cases e
    | _ => simp [parentOf] at hu
  rcases below_cases h with h | ⟨_, _, h⟩ <;> exact key _ h

theorem no_below_enumValue {S : Schema} (T : Tree S) {t : Site} {ix : Nat} (h : Below S t (.enumValue ix)) : False := by
  have key : ∀ u, parentOf S u ≠ some (.enumValue ix) := by
    intro u hu
    cases u with
    | field n => rcases parent_field T hu with ⟨_, _, e⟩ | ⟨_, _, e⟩ <;> cases e
    | value n => rcases parent_value T hu with ⟨_, _, e⟩ | ⟨_, _, e⟩ <;> cases e
    | enumValue n => obtain ⟨_, _, e⟩ := parent_enumValue T hu; cases e
    | _ => simp [parentOf] at hu
  rcases below_cases h with h | ⟨_, _, h⟩ <;> exact key _ h

theorem UpInv.leaf {S : Schema} {D v : Values} {todo : Site → Site → Prop} (h : UpInv S D todo v) {s : Site}
    (hs : ∀ t, ¬ Below S t s) : v s = D s := by
  rcases h.from_ s with e | ⟨_, _, t, ht, _⟩
  · exact e
  · exact absurd ht (hs t)

/-- The value of an element is that of something in it. -/
theorem UpInv.origin {S : Schema} {D v : Values} {todo : Site → Site → Prop} (h : UpInv S D todo v) {s : Site} (hs : 0 ≤ v s) :
    ∃ u, (u = s ∨ Below S u s) ∧ 0 ≤ D u ∧ v s = D u := by
  rcases h.from_ s with e | ⟨_, _, t, ht, h0, e⟩
  · exact ⟨s, .inl rfl, by rw [← e]; exact hs, e⟩
  · exact ⟨t, .inr ht, h0, e⟩

theorem upAll_inv {S : Schema} (T : Tree S) (D : Values) : UpInv S D (fun _ _ => False) (upAll S D) := by
  unfold upAll
  simp only
  -- enum values
  have r1 := foldl_inv (fun rem v => UpInv S D (fun t _ => (∃ ix ∈ rem, t = .enumValue ix) ∨ (∃ ix, t = .value ix) ∨ ∃ ix, t = .field ix) v)
    (upEnumValue S)
    (by
      intro a rem v h
      unfold upEnumValue
      simp only
      have hv : v (.enumValue a) = D (.enumValue a) := h.leaf fun t => no_below_enumValue T
      split
      · rename_i h0
        cases hp : parentOf S (.enumValue a) with
        | none =>
          refine h.drop ?_
          intro t s hb _ ht
          rcases ht with ⟨ix, hx, rfl⟩ | ht
          · rcases List.mem_cons.1 hx with rfl | hx
            · rcases below_cases hb with h' | ⟨_, h', _⟩ <;> rw [hp] at h' <;> cases h'
            · exact .inl (.inl ⟨ix, hx, rfl⟩)
          · exact .inl (.inr ht)
        | some p =>
          obtain ⟨g1, g2⟩ := h.raise T h0 ⟨.enumValue a, .inl rfl, by rw [← hv]; exact h0, hv⟩ (below_parent hp)
            (fun u hu => (no_below_enumValue T hu).elim)
          refine g1.drop ?_
          intro t s hb _ ht
          rcases ht with ⟨ix, hx, rfl⟩ | ht
          · rcases List.mem_cons.1 hx with rfl | hx
            · right
              rcases below_cases hb with h' | ⟨q, h', h''⟩
              · rw [hp] at h'; cases h'; rw [← hv]; exact g2
              · obtain ⟨_, _, rfl⟩ := parent_enumValue T h'; simp [parentOf] at h''
            · exact .inl (.inl ⟨ix, hx, rfl⟩)
          · exact .inl (.inr ht)
      · rename_i h0
        refine h.drop ?_
        intro t s hb ht0 ht
        rcases ht with ⟨ix, hx, rfl⟩ | ht
        · rcases List.mem_cons.1 hx with rfl | hx
          · rw [hv] at h0; exact absurd ht0 h0
          · exact .inl (.inl ⟨ix, hx, rfl⟩)
        · exact .inl (.inr ht))
    (List.range S.enumValues.length) D
    ⟨fun s => .inl rfl, fun t s hb _ => .inl (by
      have : ∃ p, parentOf S t = some p := by
        rcases below_cases hb with h | ⟨p, h, _⟩
        · exact ⟨s, h⟩
        · exact ⟨p, h⟩
      obtain ⟨p, hp⟩ := this
      cases t with
      | enumValue ix =>
        refine .inl ⟨ix, List.mem_range.2 ?_, rfl⟩
        simp only [parentOf] at hp
        cases hf : S.enumValues[ix]? with
        | none => rw [hf] at hp; simp at hp
        | some n => exact getElem?_lt hf
      | value ix => exact .inr (.inl ⟨ix, rfl⟩)
      | field ix => exact .inr (.inr ⟨ix, rfl⟩)
      | _ => simp [parentOf] at hp)⟩
  generalize (List.range S.enumValues.length).foldl (upEnumValue S) D = v1 at r1 ⊢
  -- input values
  have r2 := foldl_inv (fun rem v => UpInv S D (fun t _ => (∃ ix ∈ rem, t = .value ix) ∨ ∃ ix, t = .field ix) v)
    (upValue S)
    (by
      intro a rem v h
      unfold upValue
      simp only
      have hv : v (.value a) = D (.value a) := h.leaf fun t => no_below_value T
      split
      · rename_i h0
        have hat : ∃ u, (u = Site.value a ∨ Below S u (.value a)) ∧ 0 ≤ D u ∧ v (.value a) = D u :=
          ⟨.value a, .inl rfl, by rw [← hv]; exact h0, hv⟩
        have hup : ∀ q, ∀ u, Below S u (.value a) → Below S u q := fun q u hu => (no_below_value T hu).elim
        split
        · rename_i f hp
          obtain ⟨g1, g2⟩ := h.raise T h0 hat (below_parent hp) (hup _)
          have e1 : Verif.Contracts.raise v (v (.value a)) (some (.field f)) =
              v.set (.field f) (replaceIfHigher (v (.field f)) (v (.value a))) := rfl
          rw [e1]
          generalize v.set (.field f) (replaceIfHigher (v (.field f)) (v (.value a))) = v' at g1 g2 ⊢
          cases hq : parentOf S (.field f) with
          | none =>
            show UpInv S D _ v'
            refine g1.drop ?_
            intro t s hb _ ht
            rcases ht with ⟨ix, hx, rfl⟩ | ht
            · rcases List.mem_cons.1 hx with rfl | hx
              · rcases below_cases hb with h' | ⟨q, h', h''⟩
                · rw [hp] at h'; cases h'; rw [hv] at g2; exact .inr g2
                · rw [hp] at h'; cases h'; rw [hq] at h''; cases h''
              · exact .inl (.inl ⟨ix, hx, rfl⟩)
            · exact .inl (.inr ht)
          | some q =>
            obtain ⟨k1, k2⟩ := g1.raise T h0 hat (below_grand hp hq) (hup _)
            show UpInv S D _ (v'.set q (replaceIfHigher (v' q) (v (.value a))))
            have hfq : (Site.field f) ≠ q := by
              rcases parent_field T hq with ⟨_, _, rfl⟩ | ⟨_, _, rfl⟩ <;> simp
            refine k1.drop ?_
            intro t s hb _ ht
            rcases ht with ⟨ix, hx, rfl⟩ | ht
            · rcases List.mem_cons.1 hx with rfl | hx
              · rcases below_cases hb with h' | ⟨r, h', h''⟩
                · rw [hp] at h'; cases h'
                  rw [vset_ne _ _ hfq, ← hv]; exact .inr g2
                · rw [hp] at h'; cases h'; rw [hq] at h''; cases h''
                  rw [← hv]; exact .inr k2
              · exact .inl (.inl ⟨ix, hx, rfl⟩)
            · exact .inl (.inr ht)
        · rename_i p hnf
          cases hp : parentOf S (.value a) with
          | none =>
            show UpInv S D _ v
            refine h.drop ?_
            intro t s hb _ ht
            rcases ht with ⟨ix, hx, rfl⟩ | ht
            · rcases List.mem_cons.1 hx with rfl | hx
              · rcases below_cases hb with h' | ⟨_, h', _⟩ <;> rw [hp] at h' <;> cases h'
              · exact .inl (.inl ⟨ix, hx, rfl⟩)
            · exact .inl (.inr ht)
          | some p =>
            obtain ⟨g1, g2⟩ := h.raise T h0 hat (below_parent hp) (hup _)
            show UpInv S D _ (v.set p (replaceIfHigher (v p) (v (.value a))))
            refine g1.drop ?_
            intro t s hb _ ht
            rcases ht with ⟨ix, hx, rfl⟩ | ht
            · rcases List.mem_cons.1 hx with rfl | hx
              · rcases below_cases hb with h' | ⟨q, h', h''⟩
                · rw [hp] at h'; cases h'; rw [← hv]; exact .inr g2
                · rcases parent_value T h' with ⟨f, _, rfl⟩ | ⟨_, _, rfl⟩
                  · exact absurd h' (hnf f)
                  · simp [parentOf] at h''
              · exact .inl (.inl ⟨ix, hx, rfl⟩)
            · exact .inl (.inr ht)
      · rename_i h0
        refine h.drop ?_
        intro t s hb ht0 ht
        rcases ht with ⟨ix, hx, rfl⟩ | ht
        · rcases List.mem_cons.1 hx with rfl | hx
          · rw [hv] at h0; exact absurd ht0 h0
          · exact .inl (.inl ⟨ix, hx, rfl⟩)
        · exact .inl (.inr ht))
    (List.range S.values.length) v1
    (r1.drop (by
      intro t s hb _ ht
      rcases ht with ⟨ix, hx, _⟩ | ⟨ix, rfl⟩ | ht
      · simp at hx
      · left; left
        refine ⟨ix, List.mem_range.2 ?_, rfl⟩
        have : ∃ p, parentOf S (.value ix) = some p := by
          rcases below_cases hb with h | ⟨p, h, _⟩
          · exact ⟨s, h⟩
          · exact ⟨p, h⟩
        obtain ⟨p, hp⟩ := this
        simp only [parentOf] at hp
        cases hf : S.values[ix]? with
        | none => rw [hf] at hp; simp at hp
        | some n => exact getElem?_lt hf
      · exact .inl (.inr ht)))
  generalize (List.range S.values.length).foldl (upValue S) v1 = v2 at r2 ⊢
  -- fields
  have r3 := foldl_inv (fun rem v => UpInv S D (fun t _ => ∃ ix ∈ rem, t = .field ix) v)
    (upField S)
    (by
      intro a rem v h
      unfold upField
      simp only
      split
      · rename_i h0
        cases hp : parentOf S (.field a) with
        | none =>
          show UpInv S D _ v
          refine h.drop ?_
          rintro t s hb _ ⟨ix, hx, rfl⟩
          rcases List.mem_cons.1 hx with rfl | hx
          · rcases below_cases hb with h' | ⟨_, h', _⟩ <;> rw [hp] at h' <;> cases h'
          · exact .inl ⟨ix, hx, rfl⟩
        | some p =>
          obtain ⟨g1, g2⟩ := h.raise T h0 (h.origin h0) (below_parent hp) (fun u hu => below_trans T hu hp)
          show UpInv S D _ (v.set p (replaceIfHigher (v p) (v (.field a))))
          refine g1.drop ?_
          rintro t s hb ht0 ⟨ix, hx, rfl⟩
          rcases List.mem_cons.1 hx with rfl | hx
          · right
            rcases below_cases hb with h' | ⟨q, h', h''⟩
            · rw [hp] at h'; cases h'
              have := h.le (.field ix)
              omega
            · rcases parent_field T h' with ⟨_, _, rfl⟩ | ⟨_, _, rfl⟩ <;> simp [parentOf] at h''
          · exact .inl ⟨ix, hx, rfl⟩
      · rename_i h0
        refine h.drop ?_
        rintro t s hb ht0 ⟨ix, hx, rfl⟩
        rcases List.mem_cons.1 hx with rfl | hx
        · exact absurd (h.nonneg ht0) h0
        · exact .inl ⟨ix, hx, rfl⟩)
    (List.range S.fields.length) v2
    (r2.drop (by
      intro t s hb _ ht
      rcases ht with ⟨ix, hx, _⟩ | ⟨ix, rfl⟩
      · simp at hx
      · left
        refine ⟨ix, List.mem_range.2 ?_, rfl⟩
        have : ∃ p, parentOf S (.field ix) = some p := by
          rcases below_cases hb with h | ⟨p, h, _⟩
          · exact ⟨s, h⟩
          · exact ⟨p, h⟩
        obtain ⟨p, hp⟩ := this
        simp only [parentOf] at hp
        cases hf : S.fields[ix]? with
        | none => rw [hf] at hp; simp at hp
        | some n => exact getElem?_lt hf))
  exact r3.drop (by rintro t s _ _ ⟨ix, hx, _⟩; simp at hx)

theorem shownBy_iff {S : Schema} (T : Tree S) (v : Values) (s : Site) : 0 ≤ upAll S (downAll S v) s ↔ ShownBy S v s := by
  have hD : downAll S v = downOf S v := funext fun s => downAll_eq T v s
  rw [hD]
  have h := upAll_inv T (downOf S v)
  constructor
  · intro h0
    refine ⟨_, downOf_strongest S v s, ?_⟩
    rcases h.from_ s with e | ⟨_, hlt, t, ht, ht0, e⟩
    · exact .inl (by rw [← e]; exact h0)
    · exact .inr ⟨t, _, ht, downOf_strongest S v t, ht0, (rank_lt _ _).2 (by rw [← e]; exact hlt)⟩
  · rintro ⟨a, ha, h'⟩
    have ea := strongest_unique ha (downOf_strongest S v s)
    subst ea
    rcases h' with h0 | ⟨t, b, ht, hb, hb0, hlt⟩
    · exact h.nonneg h0
    · have eb := strongest_unique hb (downOf_strongest S v t)
      subst eb
      rcases h.from_ s with e | ⟨h0, _⟩
      · have hh := (h.handled t s ht hb0).resolve_left (fun x => x)
        rw [e] at hh
        have := (rank_lt _ _).1 hlt
        omega
      · exact h0

/-! ## Elements of types -/

theorem in_object {S : Schema} {n : Nat} {k : Site} (h : k ∈ S.kids (.object n)) :
    ∃ o jx, S.objects[n]? = some o ∧ jx ∈ o.fields ∧ k = .field jx := by
  simp only [Schema.kids] at h
  cases ho : S.objects[n]? with
  | none => rw [ho] at h; simp at h
  | some o => rw [ho] at h; simp at h; obtain ⟨i, hi, rfl⟩ := h; exact ⟨o, i, rfl, hi, rfl⟩

theorem in_interface {S : Schema} {n : Nat} {k : Site} (h : k ∈ S.kids (.interface n)) :
    ∃ o jx, S.interfaces[n]? = some o ∧ jx ∈ o.fields ∧ k = .field jx := by
  simp only [Schema.kids] at h
  cases ho : S.interfaces[n]? with
  | none => rw [ho] at h; simp at h
  | some o => rw [ho] at h; simp at h; obtain ⟨i, hi, rfl⟩ := h; exact ⟨o, i, rfl, hi, rfl⟩

theorem in_union {S : Schema} {n : Nat} {k : Site} (h : k ∈ S.kids (.union n)) :
    ∃ o jx, S.unions[n]? = some o ∧ jx ∈ o ∧ k = .object jx := by
  simp only [Schema.kids] at h
  cases ho : S.unions[n]? with
  | none => rw [ho] at h; simp at h
  | some o => rw [ho] at h; simp at h; obtain ⟨i, hi, rfl⟩ := h; exact ⟨o, i, rfl, hi, rfl⟩

theorem in_enum {S : Schema} {n : Nat} {k : Site} (h : k ∈ S.kids (.enum n)) :
    ∃ o jx, S.enums[n]? = some o ∧ jx ∈ o ∧ k = .enumValue jx := by
  simp only [Schema.kids] at h
  cases ho : S.enums[n]? with
  | none => rw [ho] at h; simp at h
  | some o => rw [ho] at h; simp at h; obtain ⟨i, hi, rfl⟩ := h; exact ⟨o, i, rfl, hi, rfl⟩

theorem in_input {S : Schema} {n : Nat} {k : Site} (h : k ∈ S.kids (.input n)) :
    ∃ o jx, S.inputs[n]? = some o ∧ jx ∈ o ∧ k = .value jx := by
  simp only [Schema.kids] at h
  cases ho : S.inputs[n]? with
  | none => rw [ho] at h; simp at h
  | some o => rw [ho] at h; simp at h; obtain ⟨i, hi, rfl⟩ := h; exact ⟨o, i, rfl, hi, rfl⟩

/-! ## Visits -/

/-- What is visited. -/
inductive Visited (succ : Site → List Site) (ok : Site → Bool) (start : List Site) : Site → Prop where
  | start {s : Site} (h : s ∈ start) (ho : ok s = true) : Visited succ ok start s
  | step {s t : Site} (hs : Visited succ ok start s) (ht : t ∈ succ s) (ho : ok t = true) : Visited succ ok start t

theorem sum_map_zero {l : List Site} {w : Site → Nat} (hw : ∀ s, 1 ≤ w s) (h : (l.map w).sum = 0) : l = [] := by
  cases l with
  | nil => rfl
  | cons a l => simp at h; have := hw a; omega

theorem set_potential (f : Site → Nat) (r : Marks) (s : Site) : ∀ U : List Site,
    (U.map fun t => if (r.set s true) t then 0 else f t).sum ≤ (U.map fun t => if r t then 0 else f t).sum ∧
    (r s = false → s ∈ U → (U.map fun t => if (r.set s true) t then 0 else f t).sum + f s ≤ (U.map fun t => if r t then 0 else f t).sum) := by
  intro U
  induction U with
  | nil => simp
  | cons u U ih =>
    simp only [List.map_cons, List.sum_cons]
    have hu : (if (r.set s true) u then 0 else f u) ≤ (if r u then 0 else f u) := by
      by_cases e : u = s
      · subst e; simp [set_self]
      · simp [set_ne r true e]
    refine ⟨by omega, ?_⟩
    intro hr hm
    by_cases e : u = s
    · subst e
      simp only [set_self, hr, if_true]
      have := ih.1
      simp
      omega
    · have hm' : s ∈ U := by
        rcases List.mem_cons.1 hm with h | h
        · exact absurd h.symm e
        · exact h
      have := ih.2 hr hm'
      omega

theorem visit_inv {succ : Site → List Site} {ok once : Site → Bool} {start U : List Site} {w : Site → Nat}
    (hw : ∀ s, 1 ≤ w s) (honce : ∀ s, once s = true → succ s ≠ [] → s ∈ U)
    (hmany : ∀ s, once s = false → 1 + ((succ s).map w).sum ≤ w s) :
    ∀ (fuel : Nat) (r : Marks) (stack : List Site),
      (stack.map w).sum + (U.map fun t => if r t then 0 else ((succ t).map w).sum).sum ≤ fuel →
      (∀ s, r s = true → Visited succ ok start s) →
      (∀ s ∈ stack, ok s = true → Visited succ ok start s) →
      (∀ s ∈ start, ok s = true → r s = true ∨ s ∈ stack) →
      (∀ s, r s = true → ∀ t ∈ succ s, ok t = true → r t = true ∨ t ∈ stack) →
      ∀ s, visit succ ok once fuel r stack s = true ↔ Visited succ ok start s := by
  have fin : ∀ (r : Marks), (∀ s, r s = true → Visited succ ok start s) → (∀ s ∈ start, ok s = true → r s = true ∨ s ∈ ([] : List Site)) →
      (∀ s, r s = true → ∀ t ∈ succ s, ok t = true → r t = true ∨ t ∈ ([] : List Site)) → ∀ s, r s = true ↔ Visited succ ok start s := by
    intro r h1 h3 h4 s
    refine ⟨h1 s, ?_⟩
    intro h
    induction h with
    | start h ho => rcases h3 _ h ho with h | h
                    · exact h
                    · simp at h
    | step _ ht ho ih => rcases h4 _ ih _ ht ho with h | h
                         · exact h
                         · simp at h
  intro fuel
  induction fuel with
  | zero =>
    intro r stack hP h1 _ h3 h4 s
    have : stack = [] := sum_map_zero hw (by omega)
    subst this
    simp only [visit]
    exact fin r h1 h3 h4 s
  | succ n ih =>
    intro r stack hP h1 h2 h3 h4 s
    cases stack with
    | nil => simp only [visit]; exact fin r h1 h3 h4 s
    | cons x stack =>
      simp only [visit]
      simp only [List.map_cons, List.sum_cons] at hP
      have hx := hw x
      split
      · rename_i hskip
        have hskip' : ok x = true → r x = true := by
          intro ho
          simp only [ho, Bool.not_true, Bool.false_or, Bool.and_eq_true] at hskip
          exact hskip.2
        refine ih r stack (by omega) h1 (fun s hs => h2 s (List.mem_cons_of_mem _ hs)) ?_ ?_ s
        · intro t ht ho
          rcases h3 t ht ho with h | h
          · exact .inl h
          · rcases List.mem_cons.1 h with rfl | h
            · exact .inl (hskip' ho)
            · exact .inr h
        · intro u hu t ht ho
          rcases h4 u hu t ht ho with h | h
          · exact .inl h
          · rcases List.mem_cons.1 h with rfl | h
            · exact .inl (hskip' ho)
            · exact .inr h
      · rename_i hgo
        simp only [Bool.or_eq_true, Bool.not_eq_true', Bool.and_eq_true, not_or, not_and, Bool.not_eq_false, Bool.not_eq_true] at hgo
        obtain ⟨ho, hr⟩ := hgo
        have hvx := h2 x (by simp) ho
        refine ih _ _ ?_ ?_ ?_ ?_ ?_ s
        · have hs := set_potential (fun t => ((succ t).map w).sum) r x U
          rw [List.map_append, List.sum_append, List.map_reverse, List.sum_reverse]
          cases hon : once x with
          | false =>
            have := hmany x hon
            omega
          | true =>
            by_cases he : succ x = []
            · simp only [he, List.map_nil, List.sum_nil]
              have := hs.1
              omega
            · have := hs.2 (hr hon) (honce x hon he)
              omega
        · intro t ht
          by_cases e : t = x
          · subst e; exact hvx
          · rw [set_ne r true e] at ht; exact h1 t ht
        · intro t ht hot
          rcases List.mem_append.1 ht with h | h
          · exact .step hvx (List.mem_reverse.1 h) hot
          · exact h2 t (List.mem_cons_of_mem _ h) hot
        · intro t ht hot
          rcases h3 t ht hot with h | h
          · left
            by_cases e : t = x
            · subst e; exact set_self r _ true
            · rw [set_ne r true e]; exact h
          · rcases List.mem_cons.1 h with rfl | h
            · exact .inl (set_self r _ true)
            · exact .inr (List.mem_append_right _ h)
        · intro u hu t ht hot
          by_cases e : u = x
          · subst e
            exact .inr (List.mem_append_left _ (List.mem_reverse.2 ht))
          · rw [set_ne r true e] at hu
            rcases h4 u hu t ht hot with h | h
            · left
              by_cases e : t = x
              · subst e; exact set_self r _ true
              · rw [set_ne r true e]; exact h
            · rcases List.mem_cons.1 h with rfl | h
              · exact .inl (set_self r _ true)
              · exact .inr (List.mem_append_right _ h)

theorem visit_iff {succ : Site → List Site} {ok once : Site → Bool} {start U : List Site} {w : Site → Nat}
    (hw : ∀ s, 1 ≤ w s) (honce : ∀ s, once s = true → succ s ≠ [] → s ∈ U)
    (hmany : ∀ s, once s = false → 1 + ((succ s).map w).sum ≤ w s) (fuel : Nat)
    (hf : (start.map w).sum + (U.map fun t => ((succ t).map w).sum).sum ≤ fuel) (s : Site) :
    visit succ ok once fuel (fun _ => false) start.reverse s = true ↔ Visited succ ok start s := by
  refine visit_inv hw honce hmany fuel _ _ ?_ (by simp) ?_ ?_ (by simp) s
  · rw [List.map_reverse, List.sum_reverse]; simpa using hf
  · intro s hs ho; exact .start (List.mem_reverse.1 hs) ho
  · intro s hs _; exact .inr (List.mem_reverse.2 hs)

theorem mem_allTypes {S : Schema} {s : Site} : s ∈ allTypes S ↔ isType s = true ∧ inRange S s = true := by
  cases s <;> simp [allTypes, isType, inRange]

theorem sum_ones (l : List Site) : (l.map fun _ => 1).sum = l.length := by
  induction l with
  | nil => rfl
  | cons a l ih => simp only [List.map_cons, List.sum_cons, List.length_cons, ih]; omega

theorem reachStep_type {S : Schema} {m : Marks} {s : Site} (h : reachStep S m s ≠ []) : s ∈ allTypes S := by
  rw [mem_allTypes]
  cases s with
  | object n =>
    simp only [reachStep] at h
    cases he : S.objects[n]? with
    | none => rw [he] at h; simp at h
    | some o => exact ⟨rfl, by simp [inRange, getElem?_lt he]⟩
  | interface n =>
    simp only [reachStep] at h
    cases he : S.interfaces[n]? with
    | none => rw [he] at h; simp at h
    | some o => exact ⟨rfl, by simp [inRange, getElem?_lt he]⟩
  | union n =>
    simp only [reachStep] at h
    cases he : S.unions[n]? with
    | none => rw [he] at h; simp at h
    | some o => exact ⟨rfl, by simp [inRange, getElem?_lt he]⟩
  | input n =>
    simp only [reachStep] at h
    cases he : S.inputs[n]? with
    | none => rw [he] at h; simp at h
    | some o => exact ⟨rfl, by simp [inRange, getElem?_lt he]⟩
  | _ => simp [reachStep] at h

theorem reached_iff (S : Schema) (m : Marks) (s : Site) :
    visit (reachStep S m) (fun s => !m s) (fun _ => true)
      ((roots S).length + ((allTypes S).map fun t => (reachStep S m t).length).sum) (fun _ => false) (roots S).reverse s = true ↔
      Visited (reachStep S m) (fun s => !m s) (roots S) s := by
  refine visit_iff (w := fun _ => 1) (U := allTypes S) (fun _ => Nat.le_refl _) (fun s _ h => reachStep_type h) (fun s h => by simp at h)
    _ ?_ s
  simp only [sum_ones]
  exact Nat.le_refl _

theorem mem_fieldTypes {S : Schema} {m : Marks} {ix : Nat} {t : Site} : t ∈ fieldTypes S m ix ↔
    m (.field ix) = false ∧ ∃ f, S.fields[ix]? = some f ∧ (t = f.ty ∨ ∃ a ∈ f.args, m (.value a) = false ∧ ∃ v, S.values[a]? = some v ∧ t = v.ty) := by
  unfold fieldTypes
  cases hm : m (.field ix) with
  | true => simp
  | false =>
    cases hf : S.fields[ix]? with
    | none => simp
    | some f =>
      simp only [Bool.false_eq_true, if_false, List.mem_cons, List.mem_flatMap, true_and, Option.some.injEq, exists_eq_left']
      constructor
      · rintro (h | ⟨a, ha, h⟩)
        · exact .inl h
        · right
          split at h
          · simp at h
          · rename_i hv
            cases hva : S.values[a]? with
            | none => rw [hva] at h; simp at h
            | some v => rw [hva] at h; simp at h; exact ⟨a, ha, by simpa using hv, v, hva, h⟩
      · rintro (h | ⟨a, ha, hv, v, hva, rfl⟩)
        · exact .inl h
        · exact .inr ⟨a, ha, by simp [hv, hva]⟩

theorem leads_iff {S : Schema} {m : Marks} {s t : Site} : t ∈ reachStep S m s ↔ Leads S (fun s => m s = true) s t := by
  constructor
  · intro h
    cases s with
    | object n =>
      simp only [reachStep] at h
      cases he : S.objects[n]? with
      | none => rw [he] at h; simp at h
      | some o =>
        rw [he] at h
        simp only [List.mem_append, List.mem_flatMap, List.mem_map] at h
        rcases h with ⟨ix, hx, h⟩ | ⟨i, hi, rfl⟩
        · obtain ⟨hm, f, hf, h⟩ := mem_fieldTypes.1 h
          have hk : Site.field ix ∈ S.kids (.object n) := by simp [Schema.kids, he, hx]
          rcases h with rfl | ⟨a, ha, hma, v, hv, rfl⟩
          · exact .field (.inl ⟨n, rfl⟩) hk (by simp [hm]) hf
          · exact .argument (.inl ⟨n, rfl⟩) hk (by simp [hm]) hf ha (by simp [hma]) hv
        · exact .implements he hi
    | interface n =>
      simp only [reachStep] at h
      cases he : S.interfaces[n]? with
      | none => rw [he] at h; simp at h
      | some o =>
        rw [he] at h
        simp only [List.mem_append, List.mem_flatMap, List.mem_map] at h
        rcases h with ⟨ix, hx, h⟩ | ⟨i, hi, rfl⟩
        · obtain ⟨hm, f, hf, h⟩ := mem_fieldTypes.1 h
          have hk : Site.field ix ∈ S.kids (.interface n) := by simp [Schema.kids, he, hx]
          rcases h with rfl | ⟨a, ha, hma, v, hv, rfl⟩
          · exact .field (.inr ⟨n, rfl⟩) hk (by simp [hm]) hf
          · exact .argument (.inr ⟨n, rfl⟩) hk (by simp [hm]) hf ha (by simp [hma]) hv
        · exact .implementor he hi
    | union n =>
      simp only [reachStep] at h
      cases he : S.unions[n]? with
      | none => rw [he] at h; simp at h
      | some o =>
        rw [he] at h
        exact .member (by simpa [Schema.kids, he] using h)
    | input n =>
      simp only [reachStep] at h
      cases he : S.inputs[n]? with
      | none => rw [he] at h; simp at h
      | some o =>
        rw [he] at h
        simp only [List.mem_flatMap] at h
        obtain ⟨a, ha, h⟩ := h
        split at h
        · simp at h
        · rename_i hma
          cases hv : S.values[a]? with
          | none => rw [hv] at h; simp at h
          | some v =>
            rw [hv] at h; simp at h; subst h
            exact .inputField (by simp [Schema.kids, he, ha]) (by simpa using hma) hv
    | _ => simp [reachStep] at h
  · intro h
    cases h with
    | field hs hk hh hf =>
      rcases hs with ⟨n, rfl⟩ | ⟨n, rfl⟩
      · obtain ⟨o, jx, ho, hj, e⟩ := in_object hk
        cases e
        simp only [reachStep, ho, List.mem_append, List.mem_flatMap]
        exact .inl ⟨_, hj, mem_fieldTypes.2 ⟨by simpa using hh, _, hf, .inl rfl⟩⟩
      · obtain ⟨o, jx, ho, hj, e⟩ := in_interface hk
        cases e
        simp only [reachStep, ho, List.mem_append, List.mem_flatMap]
        exact .inl ⟨_, hj, mem_fieldTypes.2 ⟨by simpa using hh, _, hf, .inl rfl⟩⟩
    | argument hs hk hh hf ha hha hv =>
      rcases hs with ⟨n, rfl⟩ | ⟨n, rfl⟩
      · obtain ⟨o, jx, ho, hj, e⟩ := in_object hk
        cases e
        simp only [reachStep, ho, List.mem_append, List.mem_flatMap]
        exact .inl ⟨_, hj, mem_fieldTypes.2 ⟨by simpa using hh, _, hf, .inr ⟨_, ha, by simpa using hha, _, hv, rfl⟩⟩⟩
      · obtain ⟨o, jx, ho, hj, e⟩ := in_interface hk
        cases e
        simp only [reachStep, ho, List.mem_append, List.mem_flatMap]
        exact .inl ⟨_, hj, mem_fieldTypes.2 ⟨by simpa using hh, _, hf, .inr ⟨_, ha, by simpa using hha, _, hv, rfl⟩⟩⟩
    | implements ho hi => simp [reachStep, ho, hi]
    | implementor ho hi => simp [reachStep, ho, hi]
    | member ht =>
      obtain ⟨o, jx, ho, hj, rfl⟩ := in_union ht
      simp [reachStep, ho, hj]
    | inputField hk hh hv =>
      obtain ⟨o, jx, ho, hj, e⟩ := in_input hk
      cases e
      simp only [reachStep, ho, List.mem_flatMap]
      exact ⟨_, hj, by simp [hh, hv]⟩

theorem mem_roots {S : Schema} {s : Site} : s ∈ roots S ↔
    s = .object S.query ∨ (∃ n, S.mutation = some n ∧ s = .object n) ∨ ∃ n, S.subscription = some n ∧ s = .object n := by
  simp only [roots, List.mem_append, List.mem_singleton, Option.mem_toList, Option.mem_def, Option.map_eq_some_iff]
  constructor
  · rintro ((h | ⟨n, h, e⟩) | ⟨n, h, e⟩)
    · exact .inl h
    · exact .inr (.inl ⟨n, h, e.symm⟩)
    · exact .inr (.inr ⟨n, h, e.symm⟩)
  · rintro (h | ⟨n, h, e⟩ | ⟨n, h, e⟩)
    · exact .inl (.inl h)
    · exact .inl (.inr ⟨n, h, e.symm⟩)
    · exact .inr ⟨n, h, e.symm⟩

theorem reachable_iff {S : Schema} {m : Marks} {s : Site} :
    Visited (reachStep S m) (fun s => !m s) (roots S) s ↔ Reachable S (fun s => m s = true) s := by
  constructor
  · intro h
    induction h with
    | start h ho =>
      have ho' := (by simpa using ho : m _ = false)
      rcases mem_roots.1 h with rfl | ⟨n, hn, rfl⟩ | ⟨n, hn, rfl⟩
      · exact .query (by simp [ho'])
      · exact .mutation hn (by simp [ho'])
      · exact .subscription hn (by simp [ho'])
    | step _ ht ho ih => exact .step ih (leads_iff.1 ht) (by simpa using ho)
  · intro h
    induction h with
    | query h => exact .start (mem_roots.2 (.inl rfl)) (by simpa using h)
    | mutation hn h => exact .start (mem_roots.2 (.inr (.inl ⟨_, hn, rfl⟩))) (by simpa using h)
    | subscription hn h => exact .start (mem_roots.2 (.inr (.inr ⟨_, hn, rfl⟩))) (by simpa using h)
    | step _ hl h ih => exact .step ih (leads_iff.2 hl) (by simpa using h)

theorem isType_iff {S : Schema} {s : Site} : (isType s = true ∧ inRange S s = true) ↔ IsType S s := by
  constructor
  · intro ⟨h1, h2⟩
    cases s <;> first | (simp only [isType, Bool.false_eq_true] at h1) | skip
    all_goals simp only [inRange, decide_eq_true_eq] at h2
    · exact .object h2
    · exact .interface h2
    · exact .union h2
    · exact .enum h2
    · exact .scalar h2
    · exact .input h2
  · intro h
    cases h <;> simp_all [isType, inRange]

theorem hideUnreachable_iff {S : Schema} {m : Marks} {s : Site} : hideUnreachable S m s = true ↔
    m s = true ∨ (IsType S s ∧ ¬ Reachable S (fun s => m s = true) s) := by
  unfold hideUnreachable
  simp only [Bool.or_eq_true, Bool.and_eq_true, Bool.not_eq_true', isType_iff]
  rw [← Bool.not_eq_true, reached_iff, reachable_iff]

theorem metaStep_type {S : Schema} {s : Site} (ht : isType s = true) (h : metaStep S s ≠ []) : s ∈ allTypes S := by
  rw [mem_allTypes]
  refine ⟨ht, ?_⟩
  cases s with
  | object n =>
    simp only [metaStep] at h
    cases he : S.objects[n]? with
    | none => rw [he] at h; simp at h
    | some o => simp [inRange, getElem?_lt he]
  | interface n =>
    simp only [metaStep] at h
    cases he : S.interfaces[n]? with
    | none => rw [he] at h; simp at h
    | some o => simp [inRange, getElem?_lt he]
  | union n =>
    simp only [metaStep] at h
    cases he : S.unions[n]? with
    | none => rw [he] at h; simp at h
    | some o => simp [inRange, getElem?_lt he]
  | enum n =>
    simp only [metaStep] at h
    cases he : S.enums[n]? with
    | none => rw [he] at h; simp at h
    | some o => simp [inRange, getElem?_lt he]
  | input n =>
    simp only [metaStep] at h
    cases he : S.inputs[n]? with
    | none => rw [he] at h; simp at h
    | some o => simp [inRange, getElem?_lt he]
  | scalar n => simp [metaStep] at h
  | _ => simp [isType] at ht

/-- The types of fields and values are types. -/
structure TypesOk (S : Schema) : Prop where
  field : ∀ (ix : Nat) (f : FieldDef), S.fields[ix]? = some f → isType f.ty = true
  value : ∀ (ix : Nat) (v : ValueDef), S.values[ix]? = some v → isType v.ty = true

theorem typesOk {S : Schema} (T : Tree S) : TypesOk S := by
  refine ⟨?_, ?_⟩
  · intro ix f hf
    rcases T.wf.fieldTy ix f hf with ⟨n, e⟩ | ⟨n, e⟩ | ⟨n, e⟩ | ⟨n, e⟩ | ⟨n, e⟩ <;> rw [e] <;> rfl
  · intro ix v hv
    rcases T.wf.valueTy ix v hv with ⟨n, e⟩ | ⟨n, e⟩ | ⟨n, _, e⟩ <;> rw [e] <;> rfl

theorem weight_type {S : Schema} {s : Site} (h : isType s = true) : weight S s = 1 := by
  cases s <;> simp_all [isType, weight]

theorem sum_twos (l : List Nat) : (l.map fun _ => 2).sum = 2 * l.length := by
  induction l with
  | nil => rfl
  | cons a l ih => simp only [List.map_cons, List.sum_cons, List.length_cons, ih]; omega

theorem introspection_visited {S : Schema} (K : TypesOk S) (s : Site) :
    introspection S s = true ↔ Visited (metaStep S) (fun _ => true) (S.metaFields.map Site.field) s := by
  unfold introspection
  refine visit_iff (w := weight S) (U := allTypes S) ?_ (fun s hs h => metaStep_type hs h) ?_ _ (Nat.le_refl _) s
  · intro s; cases s <;> simp only [weight] <;> omega
  · intro s hs
    cases s with
    | field n =>
      simp only [metaStep, weight]
      cases hf : S.fields[n]? with
      | none => simp
      | some f =>
        have hw := weight_type (S := S) (K.field n f hf)
        have h2 : ∀ l : List Nat, ((l.map Site.value).map (weight S)).sum = 2 * l.length := by
          intro l
          rw [List.map_map]
          exact sum_twos l
        simp only [List.map_append, List.sum_append, h2, List.map_cons, List.map_nil, List.sum_cons, List.sum_nil, hw, Option.map_some,
          Option.getD_some]
        omega
    | value n =>
      simp only [metaStep, weight]
      cases hf : S.values[n]? with
      | none => simp
      | some f =>
        have hw := weight_type (S := S) (K.value n f hf)
        simp [hw]
    | enumValue n => simp [metaStep, weight]
    | _ => simp [isType] at hs

theorem introspected_iff {S : Schema} {s : Site} :
    Visited (metaStep S) (fun _ => true) (S.metaFields.map Site.field) s ↔ Introspected S s := by
  constructor
  · intro h
    induction h with
    | start h _ => obtain ⟨ix, hx, rfl⟩ := List.mem_map.1 h; exact .start hx
    | @step s t _ ht _ ih =>
      cases s with
      | object n =>
        simp only [metaStep] at ht
        cases he : S.objects[n]? with
        | none => rw [he] at ht; simp at ht
        | some o =>
          rw [he] at ht
          rcases List.mem_append.1 ht with h | h
          · exact .element ih (by simpa [children, Schema.kids, he] using h)
          · obtain ⟨i, hi, rfl⟩ := List.mem_map.1 h; exact .implements ih he hi
      | interface n =>
        simp only [metaStep] at ht
        cases he : S.interfaces[n]? with
        | none => rw [he] at ht; simp at ht
        | some o =>
          rw [he] at ht
          rcases List.mem_append.1 ht with h | h
          · exact .element ih (by simpa [children, Schema.kids, he] using h)
          · obtain ⟨i, hi, rfl⟩ := List.mem_map.1 h; exact .implementor ih he hi
      | union n =>
        simp only [metaStep] at ht
        cases he : S.unions[n]? with
        | none => rw [he] at ht; simp at ht
        | some o => rw [he] at ht; exact .member ih (by simpa [Schema.kids, he] using ht)
      | enum n =>
        simp only [metaStep] at ht
        cases he : S.enums[n]? with
        | none => rw [he] at ht; simp at ht
        | some o => rw [he] at ht; exact .element ih (by simpa [children, Schema.kids, he] using ht)
      | input n =>
        simp only [metaStep] at ht
        cases he : S.inputs[n]? with
        | none => rw [he] at ht; simp at ht
        | some o => rw [he] at ht; exact .element ih (by simpa [children, Schema.kids, he] using ht)
      | scalar n => simp [metaStep] at ht
      | enumValue n => simp [metaStep] at ht
      | field n =>
        simp only [metaStep] at ht
        cases he : S.fields[n]? with
        | none => rw [he] at ht; simp at ht
        | some f =>
          rw [he] at ht
          rcases List.mem_append.1 ht with h | h
          · exact .element ih (by simpa [children, he] using h)
          · have := List.mem_singleton.1 h; subst this; exact .fieldType ih he
      | value n =>
        simp only [metaStep] at ht
        cases he : S.values[n]? with
        | none => rw [he] at ht; simp at ht
        | some f =>
          rw [he] at ht
          have := List.mem_singleton.1 ht; subst this; exact .valueType ih he
  · intro h
    induction h with
    | start h => exact .start (List.mem_map.2 ⟨_, h, rfl⟩) rfl
    | @element s t _ ht ih =>
      refine .step ih ?_ rfl
      cases s with
      | object n =>
        simp only [children] at ht
        obtain ⟨o, jx, ho, hj, rfl⟩ := in_object ht
        simp [metaStep, ho, hj]
      | interface n =>
        simp only [children] at ht
        obtain ⟨o, jx, ho, hj, rfl⟩ := in_interface ht
        simp [metaStep, ho, hj]
      | enum n =>
        simp only [children] at ht
        obtain ⟨o, jx, ho, hj, rfl⟩ := in_enum ht
        simp [metaStep, ho, hj]
      | input n =>
        simp only [children] at ht
        obtain ⟨o, jx, ho, hj, rfl⟩ := in_input ht
        simp [metaStep, ho, hj]
      | field n =>
        simp only [children] at ht
        cases he : S.fields[n]? with
        | none => rw [he] at ht; simp at ht
        | some f => rw [he] at ht; simp only [metaStep, he]; exact List.mem_append_left _ (by simpa using ht)
      | _ => simp [children] at ht
    | member _ ht ih =>
      obtain ⟨o, jx, ho, hj, rfl⟩ := in_union ht
      exact .step ih (by simp [metaStep, ho, hj]) rfl
    | implements _ ho hi ih => exact .step ih (by simp [metaStep, ho, hi]) rfl
    | implementor _ ho hi ih => exact .step ih (by simp [metaStep, ho, hi]) rfl
    | fieldType _ hf ih => exact .step ih (by simp [metaStep, hf]) rfl
    | valueType _ hf ih => exact .step ih (by simp [metaStep, hf]) rfl

theorem markBuiltins_iff {S : Schema} (K : TypesOk S) {m : Marks} {s : Site} :
    markBuiltins S m s = true ↔ m s = true ∧ ¬ Exempt S s := by
  unfold markBuiltins Exempt
  simp only [Bool.and_eq_true, Bool.not_eq_true', decide_eq_false_iff_not, mem_roots]
  rw [← Bool.not_eq_true (introspection S s), introspection_visited K, introspected_iff]
  have hb : isBuiltin S s = false ↔ ¬ ∃ n, s = .scalar n ∧ S.scalars[n]? = some true := by
    cases s with
    | scalar n =>
      cases he : S.scalars[n]? with
      | none => simp [isBuiltin, he]
      | some b => cases b <;> simp [isBuiltin, he]
    | _ => simp [isBuiltin]
  rw [hb]
  constructor
  · rintro ⟨⟨⟨h1, h2⟩, h3⟩, h4⟩
    exact ⟨h1, fun h => h.elim h2 fun h => h.elim h3 h4⟩
  · rintro ⟨h1, h⟩
    exact ⟨⟨⟨h1, fun x => h (.inl x)⟩, fun x => h (.inr (.inl x))⟩, fun x => h (.inr (.inr x))⟩

theorem applyValues_iff {S : Schema} (T : Tree S) {m : Marks} {v : Values} {s : Site} :
    applyValues S m v s = true ↔ m s = true ∨ (inRange S s = true ∧ ¬ ShownBy S v s) := by
  unfold applyValues
  simp only [Bool.or_eq_true, Bool.and_eq_true, decide_eq_true_eq]
  rw [← shownBy_iff T]
  constructor
  · rintro (h | ⟨h, h'⟩)
    · exact .inl h
    · exact .inr ⟨h, by omega⟩
  · rintro (h | ⟨h, h'⟩)
    · exact .inl h
    · exact .inr ⟨h, by omega⟩

theorem denied_iff {S : Schema} (T : Tree S) {m : Marks} {v : Values} {s : Site} :
    markBuiltins S (applyValues S m v) s = true ↔ Denied S m v s := by
  rw [markBuiltins_iff (typesOk T), applyValues_iff T]; rfl

end Verif.Contracts
