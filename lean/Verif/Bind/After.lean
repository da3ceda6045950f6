import Verif.Bind.Complete
import Verif.ResponseKeys.Total

/-!
# The checks after binding
-/

namespace Verif.Bind

open Verif.Literals (Q)

/-- The fields that are not in another one, with their selections. -/
def Tree.direct : Tree → List (Nat × Tree)
  | .nil => []
  | .typename _ _ t => direct t
  | .field d _ _ _ s t => (d, s) :: direct t
  | .group _ _ s t => direct s ++ direct t

theorem direct_roots (t : Tree) : t.direct.map (·.1) = t.roots := by
  induction t with
  | nil => rfl
  | typename _ _ _ ih => exact ih
  | field _ _ _ _ _ _ _ ih => simp [Tree.direct, Tree.roots, ih]
  | group _ _ _ _ ihs ih => simp [Tree.direct, Tree.roots, ihs, ih]

theorem mem_definitions_direct (t : Tree) (x : Nat) :
    x ∈ t.definitions ↔ ∃ p ∈ t.direct, x = p.1 ∨ x ∈ p.2.definitions := by
  induction t with
  | nil => simp [Tree.definitions, Tree.direct]
  | typename _ _ _ ih => exact ih
  | field d _ _ _ s _ _ ih =>
    simp only [Tree.definitions, Tree.direct, List.mem_append, List.mem_cons, ih]
    constructor
    · rintro ((h | h) | ⟨p, h1, h2⟩)
      · exact ⟨(d, s), .inl rfl, .inl h⟩
      · exact ⟨(d, s), .inl rfl, .inr h⟩
      · exact ⟨p, .inr h1, h2⟩
    · rintro ⟨p, rfl | h1, h2⟩
      · exact .inl (h2.imp id id)
      · exact .inr ⟨p, h1, h2⟩
  | group _ _ _ _ ihs ih =>
    simp only [Tree.definitions, Tree.direct, List.mem_append, ihs, ih]
    constructor
    · rintro (⟨p, h1, h2⟩ | ⟨p, h1, h2⟩)
      · exact ⟨p, .inl h1, h2⟩
      · exact ⟨p, .inr h1, h2⟩
    · rintro ⟨p, h1 | h1, h2⟩
      · exact .inl ⟨p, h1, h2⟩
      · exact .inr ⟨p, h1, h2⟩

variable {st : St}

/-- The trees of a stack. -/
inductive Stack (st : St) : List (List SelId) → List Tree → Prop
  | nil : Stack st [] []
  | cons {ids t l ts} : Reads st ids t → Stack st l ts → Stack st (ids :: l) (t :: ts)

/-- The records of fields. -/
inductive Fields (st : St) : List DataField → List (Nat × Tree) → Prop
  | nil : Fields st [] []
  | cons {d p l ps} : d.definition = p.1 → Reads st (slice st.shared d.sels) p.2 → d ∈ st.data → Fields st l ps →
      Fields st (d :: l) (p :: ps)

/-- The steps of the iterator. -/
def Tree.steps : Tree → Nat
  | .nil => 0
  | .typename _ _ t => 1 + steps t
  | .field _ _ _ _ _ t => 1 + steps t
  | .group _ _ s t => 2 + steps s + steps t

def stackSteps : List Tree → Nat
  | [] => 0
  | t :: ts => 1 + t.steps + stackSteps ts

theorem fieldsFrom_ok (n : Nat) : ∀ stack ts, Stack st stack ts → stackSteps ts < n →
    ∃ fs, fieldsFrom st n stack = some fs ∧ Fields st fs (ts.flatMap Tree.direct) := by
  induction n with
  | zero => intro _ _ _ h; omega
  | succ n ih =>
    intro stack ts hst hn
    cases hst with
    | nil => exact ⟨[], rfl, .nil⟩
    | cons hr hs =>
      cases hr with
      | nil =>
        rw [stackSteps, Tree.steps] at hn
        obtain ⟨fs, h1, h2⟩ := ih _ _ hs (by omega)
        exact ⟨fs, h1, h2⟩
      | typename h1 h2 h3 =>
        rw [stackSteps, Tree.steps] at hn
        obtain ⟨fs, k1, k2⟩ := ih _ _ (.cons h3 hs) (by rw [stackSteps]; omega)
        exact ⟨fs, k1, k2⟩
      | data h1 h2 h3 h4 h5 h6 =>
        rw [stackSteps, Tree.steps] at hn
        obtain ⟨fs, k1, k2⟩ := ih _ _ (.cons h6 hs) (by rw [stackSteps]; omega)
        refine ⟨_, ?_, .cons rfl h5 (List.mem_of_getElem? h1) k2⟩
        rw [fieldsFrom, h1]
        simp only [Option.bind, k1, Option.map]
      | spread h1 h2 h3 h4 h5 =>
        rw [stackSteps, Tree.steps] at hn
        obtain ⟨fs, k1, k2⟩ := ih _ _ (.cons h4 (.cons h5 hs)) (by rw [stackSteps, stackSteps]; omega)
        refine ⟨fs, ?_, ?_⟩
        · rw [fieldsFrom, h1]
          simp only [Option.bind, h2, k1]
        · simpa [Tree.direct] using k2
      | inline h1 h2 h3 h4 =>
        rw [stackSteps, Tree.steps] at hn
        obtain ⟨fs, k1, k2⟩ := ih _ _ (.cons h3 (.cons h4 hs)) (by rw [stackSteps, stackSteps]; omega)
        refine ⟨fs, ?_, ?_⟩
        · rw [fieldsFrom, h1]
          simp only [Option.bind, k1]
        · simpa [Tree.direct] using k2

theorem fieldsFrom_sound (n : Nat) : ∀ stack ts fs, Stack st stack ts → fieldsFrom st n stack = some fs →
    Fields st fs (ts.flatMap Tree.direct) := by
  induction n with
  | zero => intro _ _ _ _ h; cases h
  | succ n ih =>
    intro stack ts fs hst h
    cases hst with
    | nil => cases h; exact .nil
    | cons hr hs =>
      cases hr with
      | nil => simpa [Tree.direct] using ih _ _ _ hs h
      | typename h1 h2 h3 => simpa [Tree.direct] using ih _ _ _ (.cons h3 hs) h
      | data h1 h2 h3 h4 h5 h6 =>
        rw [fieldsFrom, h1] at h
        simp only [Option.bind] at h
        rw [Option.map_eq_some_iff] at h
        obtain ⟨fs', k1, rfl⟩ := h
        exact .cons rfl h5 (List.mem_of_getElem? h1) (ih _ _ _ (.cons h6 hs) k1)
      | spread h1 h2 h3 h4 h5 =>
        rw [fieldsFrom, h1] at h
        simp only [Option.bind, h2] at h
        simpa [Tree.direct] using ih _ _ _ (.cons h4 (.cons h5 hs)) h
      | inline h1 h2 h3 h4 =>
        rw [fieldsFrom, h1] at h
        simp only [Option.bind] at h
        simpa [Tree.direct] using ih _ _ _ (.cons h3 (.cons h4 hs)) h

theorem Fields.defs {fs : List DataField} {ps : List (Nat × Tree)} (h : Fields st fs ps) : fs.map (·.definition) = ps.map (·.1) := by
  induction h with
  | nil => rfl
  | cons h1 _ _ _ ih => simp [h1, ih]

/-! ## Height -/

/-- What `height` returns: the definitions seen, and how many of them are new. -/
def Counts (st : St) (seen : List Nat) (new : Nat → Prop) (r : Nat × List Nat) : Prop :=
  r.2.Nodup ∧ (∀ x, x ∈ r.2 ↔ x ∈ seen ∨ new x) ∧ seen.length ≤ r.2.length ∧ r.1 = (r.2.length - seen.length) % 65536

theorem heightSum_sound {h : Nat × Nat → List Nat → Option (Nat × List Nat)}
    (hh : ∀ sels t seen r, Reads st (slice st.shared sels) t → seen.Nodup → h sels seen = some r →
      Counts st seen (· ∈ t.definitions) r)
    {fs : List DataField} {ps : List (Nat × Tree)} (hf : Fields st fs ps) : ∀ seen r, seen.Nodup → heightSum h fs seen = some r →
      Counts st seen (fun x => ∃ p ∈ ps, x = p.1 ∨ x ∈ p.2.definitions) r := by
  induction hf with
  | nil =>
    intro seen r hn h
    cases h
    exact ⟨hn, by simp, Nat.le_refl _, by simp⟩
  | @cons d p l ps h1 h2 _ _ ih =>
    intro seen r hn h
    rw [heightSum, Option.bind_eq_some_iff] at h
    obtain ⟨a, k1, h⟩ := h
    rw [Option.map_eq_some_iff] at h
    obtain ⟨b, k2, rfl⟩ := h
    have hseen : (if seen.contains d.definition = true then seen else d.definition :: seen).Nodup := by
      split
      · exact hn
      · rename_i hc
        exact List.nodup_cons.2 ⟨by simpa using hc, hn⟩
    obtain ⟨a1, a2, a3, a4⟩ := hh _ _ _ _ h2 hseen k1
    obtain ⟨b1, b2, b3, b4⟩ := ih _ _ a1 k2
    refine ⟨b1, fun x => ?_, ?_, ?_⟩
    · rw [b2 x, a2 x]
      have : (x ∈ (if seen.contains d.definition = true then seen else d.definition :: seen)) ↔ x ∈ seen ∨ x = p.1 := by
        rw [← h1]
        split
        · rename_i hc
          have hc : d.definition ∈ seen := by simpa using hc
          constructor
          · exact .inl
          · rintro (h | rfl)
            · exact h
            · exact hc
        · rw [List.mem_cons]
          exact Or.comm
      rw [this]
      simp only [List.mem_cons, exists_eq_or_imp]
      constructor
      · rintro (((h | h) | h) | h)
        · exact .inl h
        · exact .inr (.inl (.inl h))
        · exact .inr (.inl (.inr h))
        · exact .inr (.inr h)
      · rintro (h | ((h | h) | h))
        · exact .inl (.inl (.inl h))
        · exact .inl (.inl (.inr h))
        · exact .inl (.inr h)
        · exact .inr h
    · have : seen.length ≤ (if seen.contains d.definition = true then seen else d.definition :: seen).length := by
        split <;> simp
      simp only
      omega
    · simp only
      rw [a4, b4]
      cases hc : seen.contains d.definition <;>
        simp only [hc, if_true, if_false, Bool.false_eq_true, List.length_cons] at a3 ⊢ <;> omega

theorem height_sound (n : Nat) : ∀ sels t seen r, Reads st (slice st.shared sels) t → seen.Nodup → height st n sels seen = some r →
    Counts st seen (· ∈ t.definitions) r := by
  induction n with
  | zero => intro _ _ _ _ _ _ h; cases h
  | succ n ih =>
    intro sels t seen r hr hn h
    rw [height, Option.bind_eq_some_iff] at h
    obtain ⟨fs, h1, h2⟩ := h
    have hf := fieldsFrom_sound n _ _ _ (.cons hr .nil) h1
    obtain ⟨k1, k2, k3, k4⟩ := heightSum_sound ih hf seen r hn h2
    refine ⟨k1, fun x => ?_, k3, k4⟩
    rw [k2 x]
    simp only
    rw [mem_definitions_direct]
    simp

/-- Enough fuel. -/
def Tree.fuel : Tree → Nat
  | .nil => 0
  | .typename _ _ t => 1 + fuel t
  | .field _ _ _ _ s t => 4 + fuel s + fuel t
  | .group _ _ s t => 2 + fuel s + fuel t

theorem steps_le_fuel (t : Tree) : t.steps ≤ t.fuel := by
  induction t with
  | nil => exact Nat.le_refl _
  | typename _ _ _ ih => simp only [Tree.steps, Tree.fuel]; omega
  | field _ _ _ _ _ _ _ ih => simp only [Tree.steps, Tree.fuel]; omega
  | group _ _ _ _ _ ih => simp only [Tree.steps, Tree.fuel]; omega

theorem direct_fuel (t : Tree) : ∀ p ∈ t.direct, p.2.fuel + 4 ≤ t.fuel := by
  induction t with
  | nil => intro p h; cases h
  | typename _ _ _ ih => intro p h; have := ih p h; simp only [Tree.fuel]; omega
  | field d _ _ _ s _ _ ih =>
    intro p h
    rcases List.mem_cons.1 h with rfl | h
    · simp only [Tree.fuel]; omega
    · have := ih p h
      simp only [Tree.fuel]; omega
  | group _ _ _ _ ihs ih =>
    intro p h
    rcases List.mem_append.1 h with h | h
    · have := ihs p h
      simp only [Tree.fuel]; omega
    · have := ih p h
      simp only [Tree.fuel]; omega

theorem heightSum_some {h : Nat × Nat → List Nat → Option (Nat × List Nat)} {ok : Tree → Prop}
    (hh : ∀ sels t seen, Reads st (slice st.shared sels) t → ok t → ∃ r, h sels seen = some r)
    {fs : List DataField} {ps : List (Nat × Tree)} (hf : Fields st fs ps) : (∀ p ∈ ps, ok p.2) → ∀ seen, ∃ r, heightSum h fs seen = some r := by
  induction hf with
  | nil => exact fun _ seen => ⟨_, rfl⟩
  | cons h1 h2 _ _ ih =>
    intro hok seen
    obtain ⟨a, ha⟩ := hh _ _ _ h2 (hok _ List.mem_cons_self)
    obtain ⟨b, hb⟩ := ih (fun p hp => hok p (List.mem_cons_of_mem _ hp)) a.2
    exact ⟨_, by rw [heightSum, ha]; simp only [Option.bind]; rw [hb]; rfl⟩

theorem height_some (n : Nat) : ∀ sels t seen, Reads st (slice st.shared sels) t → t.fuel + 3 ≤ n → ∃ r, height st n sels seen = some r := by
  induction n with
  | zero => intro _ _ _ _ h; omega
  | succ n ih =>
    intro sels t seen hr hn
    obtain ⟨fs, h1, h2⟩ := fieldsFrom_ok n _ _ (.cons hr .nil) (by
      have := steps_le_fuel t
      simp only [stackSteps]
      omega)
    obtain ⟨r, hr⟩ := heightSum_some (ok := fun t => t.fuel + 3 ≤ n) (fun sels t seen h1 h2 => ih sels t seen h1 h2) h2 (by
      intro p hp
      have := direct_fuel t p (by simpa using hp)
      omega) seen
    exact ⟨r, by rw [height, h1]; exact hr⟩

theorem Reads.data_mem {ids : List SelId} {t : Tree} (h : Reads st ids t) : ∀ x ∈ t.definitions, x ∈ st.data.map (·.definition) := by
  induction h with
  | nil => intro x h; cases h
  | typename _ _ _ ih => exact ih
  | data h1 _ _ _ _ _ ihs ih =>
    intro x hx
    simp only [Tree.definitions, List.mem_append, List.mem_cons] at hx
    rcases hx with (rfl | hx) | hx
    · exact List.mem_map_of_mem (List.mem_of_getElem? h1)
    · exact ihs x hx
    · exact ih x hx
  | spread _ _ _ _ _ ihs ih =>
    intro x hx
    simp only [Tree.definitions, List.mem_append] at hx
    exact hx.elim (ihs x) (ih x)
  | inline _ _ _ _ ihs ih =>
    intro x hx
    simp only [Tree.definitions, List.mem_append] at hx
    exact hx.elim (ihs x) (ih x)

/-- The height is the number of definitions. -/
theorem height_count {n : Nat} {sels : Nat × Nat} {t : Tree} {r : Nat × List Nat} (hr : Reads st (slice st.shared sels) t)
    (hs : st.data.length ≤ 65535) (h : height st n sels [] = some r) :
    ∃ l : List Nat, l.Nodup ∧ (∀ x, x ∈ l ↔ x ∈ t.definitions) ∧ r.1 = l.length := by
  obtain ⟨h1, h2, _, h4⟩ := height_sound n sels t [] r hr List.nodup_nil h
  have h2' : ∀ x, x ∈ r.2 ↔ x ∈ t.definitions := fun x => by rw [h2 x]; simp
  have := Verif.ResponseKeys.length_le_of_nodup_subset (l := r.2) (m := st.data.map (·.definition)) h1
    (fun x hx => hr.data_mem x ((h2' x).1 hx))
  rw [List.length_map] at this
  refine ⟨r.2, h1, h2', ?_⟩
  rw [h4, List.length_nil, Nat.sub_zero, Nat.mod_eq_of_lt (by omega)]

end Verif.Bind
