import Verif.Pool.Model

namespace Verif.Pool

/-! ## Specification -/

/-- The instance a `get` of caller `c` hands out after history `h`. -/
def handedOut (h : List Event) (c : Nat) : Option Nat :=
  if ((run init h).held c).isSome then none else (step (run init h) (.get c)).held c

/-- A history in which no call on a broken instance succeeds: wasmtime refuses to enter a component instance after a
trap, or one whose call was abandoned. -/
def WasmRefuses : State → List Event → Prop
  | _, [] => True
  | s, e :: h =>
    (∀ c i, e = .callOk c → s.held c = some i → (s.inst i).calling = true → (s.inst i).broken = false) ∧
    WasmRefuses (step s e) h

/-- A history that meets the assertion at the start of `wasmsafe!` (pool.rs:121-124, only checked in debug builds):
no call starts on a poisoned instance. -/
def Asserted : State → List Event → Prop
  | _, [] => True
  | s, e :: h =>
    (∀ c i, e = .callBegin c → s.held c = some i → (s.inst i).poisoned = false) ∧ Asserted (step s e) h

/-! ## Invariants -/

theorem run_append (s : State) (h₁ h₂ : List Event) : run s (h₁ ++ h₂) = run (run s h₁) h₂ := List.foldl_append

theorem takeIdle_some {inst : Nat → Inst} {l : List Nat} {i : Nat} {rest : List Nat}
    (h : takeIdle inst l = some (i, rest)) : (inst i).ok = true ∧ ∃ pre, l = pre ++ i :: rest := by
  induction l with
  | nil => simp [takeIdle] at h
  | cons x l ih =>
    rw [takeIdle] at h
    split at h
    · rename_i hx
      simp only [Option.some.injEq, Prod.mk.injEq] at h
      obtain ⟨rfl, rfl⟩ := h
      exact ⟨hx, [], rfl⟩
    · obtain ⟨h1, pre, h2⟩ := ih h
      exact ⟨h1, x :: pre, by rw [h2]; rfl⟩

/-- Ownership: an instance is in at most one place. -/
structure Owned (s : State) : Prop where
  idleNodup : s.idle.Nodup
  idleLt : ∀ i ∈ s.idle, i < s.next
  heldLt : ∀ c i, s.held c = some i → i < s.next
  heldIdle : ∀ c i, s.held c = some i → i ∉ s.idle
  heldUnique : ∀ c d i, s.held c = some i → s.held d = some i → c = d
  idleQuiet : ∀ i ∈ s.idle, (s.inst i).calling = false

theorem Owned.init : Owned init := by constructor <;> simp [Pool.init]

theorem Owned.step {s : State} (h : Owned s) (e : Event) : Owned (step s e) := by
  obtain ⟨h1, h2, h3, h4, h5, h6⟩ := h
  cases e with
  | get c =>
    simp only [Pool.step]
    split
    · exact ⟨h1, h2, h3, h4, h5, h6⟩
    · split
      · rename_i i rest ht
        obtain ⟨-, pre, e⟩ := takeIdle_some ht
        have hn : i ∉ rest := by
          rw [e] at h1
          exact (List.nodup_cons.1 (List.nodup_append.1 h1).2.1).1
        have hr : rest.Nodup := by
          rw [e] at h1
          exact (List.nodup_cons.1 (List.nodup_append.1 h1).2.1).2
        have hsub : ∀ x ∈ rest, x ∈ s.idle := by intro x hx; rw [e]; simp [hx]
        have hi : i ∈ s.idle := by rw [e]; simp
        constructor <;> grind [upd]
      · constructor <;> grind [upd]
  | callBegin c =>
    simp only [Pool.step]
    split
    · exact ⟨h1, h2, h3, h4, h5, h6⟩
    · split <;> constructor <;> grind [upd]
  | callOk c =>
    simp only [Pool.step]
    split
    · exact ⟨h1, h2, h3, h4, h5, h6⟩
    · split <;> constructor <;> grind [upd]
  | callErr c =>
    simp only [Pool.step]
    split
    · exact ⟨h1, h2, h3, h4, h5, h6⟩
    · split <;> constructor <;> grind [upd]
  | callDropped c =>
    simp only [Pool.step]
    split
    · exact ⟨h1, h2, h3, h4, h5, h6⟩
    · split <;> constructor <;> grind [upd]
  | setRecyclable c b =>
    simp only [Pool.step]
    split
    · exact ⟨h1, h2, h3, h4, h5, h6⟩
    · constructor <;> grind [upd]
  | release c =>
    simp only [Pool.step]
    split
    · exact ⟨h1, h2, h3, h4, h5, h6⟩
    · rename_i i hi
      have hn : (s.idle ++ [i]).Nodup := by
        rw [List.nodup_append]
        refine ⟨h1, by simp, ?_⟩
        intro a ha b hb hab
        simp at hb
        subst hb; subst hab
        exact h4 c a hi ha
      constructor <;> grind [upd]

theorem Owned.run {s : State} (h : Owned s) (es : List Event) : Owned (run s es) := by
  induction es generalizing s with
  | nil => exact h
  | cons e es ih => exact ih (h.step e)

/-- Flags: an instance that is broken or being called is poisoned. -/
structure Flags (s : State) : Prop where
  broken : ∀ i, (s.inst i).broken = true → (s.inst i).poisoned = true
  calling : ∀ i, (s.inst i).calling = true → (s.inst i).poisoned = true
  new : ∀ i, s.next ≤ i → (s.inst i).broken = false

theorem Flags.init : Flags init := by constructor <;> simp [Pool.init, fresh]

theorem Flags.step {s : State} (h : Flags s) (ho : Owned s) (e : Event)
    (hw : ∀ c i, e = .callOk c → s.held c = some i → (s.inst i).calling = true → (s.inst i).broken = false) :
    Flags (step s e) := by
  obtain ⟨h1, h2, h3⟩ := h
  have hl := ho.heldLt
  cases e with
  | get c =>
    simp only [Pool.step]
    split
    · exact ⟨h1, h2, h3⟩
    · split <;> constructor <;> grind [upd, fresh]
  | _ =>
    simp only [Pool.step]
    split
    · exact ⟨h1, h2, h3⟩
    · first
      | (split <;> constructor <;> grind [upd])
      | (constructor <;> grind [upd])

theorem flags_run (es : List Event) : ∀ (s : State), Owned s → Flags s → WasmRefuses s es → Flags (run s es) := by
  induction es with
  | nil => intro s _ h _; exact h
  | cons e es ih => intro s ho h hw; exact ih _ (ho.step e) (h.step ho e hw.1) hw.2

theorem broken_step {s : State} (ho : Owned s) (e : Event) {i : Nat} (hi : i < s.next)
    (h : (s.inst i).broken = true) : ((step s e).inst i).broken = true ∧ i < (step s e).next := by
  have hl := ho.heldLt
  cases e with
  | get c =>
    simp only [step]
    split
    · exact ⟨h, hi⟩
    · split
      · exact ⟨h, hi⟩
      · constructor
        · grind [upd]
        · grind
  | _ =>
    simp only [step]
    split
    · exact ⟨h, hi⟩
    · first
      | (split <;> constructor <;> grind [upd])
      | (constructor <;> grind [upd])

theorem broken_run (es : List Event) : ∀ (s : State), Owned s → ∀ i, i < s.next → (s.inst i).broken = true →
    ((run s es).inst i).broken = true ∧ i < (run s es).next := by
  induction es with
  | nil => intro s _ i hi h; exact ⟨h, hi⟩
  | cons e es ih =>
    intro s ho i hi h
    have := broken_step ho e hi h
    exact ih _ (ho.step e) i this.2 this.1

theorem wasmRefuses_append (h₁ h₂ : List Event) : ∀ s, WasmRefuses s (h₁ ++ h₂) ↔
    WasmRefuses s h₁ ∧ WasmRefuses (run s h₁) h₂ := by
  induction h₁ with
  | nil => intro s; simp [WasmRefuses, run]
  | cons e h₁ ih => intro s; simp only [List.cons_append, WasmRefuses, ih, and_assoc]; rfl

/-- With the assertion, an instance being called is not broken. -/
structure Quiet (s : State) : Prop where
  calling : ∀ i, (s.inst i).calling = true → (s.inst i).broken = false

theorem Quiet.step {s : State} (hq : Quiet s) (hf : Flags s) (e : Event)
    (ha : ∀ c i, e = .callBegin c → s.held c = some i → (s.inst i).poisoned = false) : Quiet (step s e) := by
  obtain ⟨h1⟩ := hq
  have hb := hf.broken
  cases e with
  | get c =>
    simp only [Pool.step]
    split
    · exact ⟨h1⟩
    · split <;> constructor <;> grind [upd, fresh]
  | _ =>
    simp only [Pool.step]
    split
    · exact ⟨h1⟩
    · first
      | (split <;> constructor <;> grind [upd])
      | (constructor <;> grind [upd])

theorem refuses_of_asserted_aux (es : List Event) : ∀ (s : State), Owned s → Flags s → Quiet s → Asserted s es →
    WasmRefuses s es := by
  induction es with
  | nil => intros; trivial
  | cons e es ih =>
    intro s ho hf hq ha
    have hw : ∀ c i, e = .callOk c → s.held c = some i → (s.inst i).calling = true → (s.inst i).broken = false :=
      fun c i _ _ hc => hq.calling i hc
    exact ⟨hw, ih _ (ho.step e) (hf.step ho e hw) (hq.step hf e ha.1) ha.2⟩

/-! ## C44 -/

/-- At all times and in all histories, no instance is with two callers, and none that is with a caller is in the
pool. -/
theorem C44_exclusive (h : List Event) :
    (∀ c d i, (run init h).held c = some i → (run init h).held d = some i → c = d) ∧
    (∀ c i, (run init h).held c = some i → i ∉ (run init h).idle) :=
  have := Owned.init.run h
  ⟨this.heldUnique, this.heldIdle⟩

theorem held_lt (h : List Event) {c i : Nat} (hc : (run init h).held c = some i) : i < (run init h).next :=
  (Owned.init.run h).heldLt c i hc

theorem handedOut_ok (h : List Event) {c i : Nat} (hi : handedOut h c = some i) :
    i = (run init h).next ∨ ((run init h).inst i).ok = true := by
  unfold handedOut at hi
  split at hi
  · simp at hi
  · rename_i hn
    simp only [Option.not_isSome_iff_eq_none] at hn
    simp only [step, hn] at hi
    split at hi
    · rename_i j rest ht
      simp [upd] at hi
      subst hi
      exact .inr (takeIdle_some ht).1
    · simp [upd] at hi
      exact .inl hi.symm

/-- An instance that a caller had when a call on it failed or was abandoned is never handed out afterwards, whatever
happens in between, provided that no later call on the broken instance succeeds. -/
theorem C44_no_reuse_partial (h₁ h₂ : List Event) (hw : WasmRefuses init (h₁ ++ h₂)) (i c : Nat)
    (hi : i < (run init h₁).next) (hb : ((run init h₁).inst i).broken = true) :
    handedOut (h₁ ++ h₂) c ≠ some i := by
  intro hc
  have ho := Owned.init.run h₁
  obtain ⟨hb2, hlt⟩ := broken_run h₂ _ ho i hi hb
  rw [← run_append] at hb2 hlt
  have hf := flags_run (h₁ ++ h₂) init Owned.init Flags.init hw
  rcases handedOut_ok _ hc with h | h
  · omega
  · simp [Inst.ok, hf.broken i hb2] at h

/-- The same for histories that meet the assertion in `wasmsafe!`, with nothing assumed about wasmtime. -/
theorem C44_no_reuse_asserted_partial (h₁ h₂ : List Event) (ha : Asserted init (h₁ ++ h₂)) (i c : Nat)
    (hi : i < (run init h₁).next) (hb : ((run init h₁).inst i).broken = true) :
    handedOut (h₁ ++ h₂) c ≠ some i :=
  C44_no_reuse_partial h₁ h₂
    (refuses_of_asserted_aux _ init Owned.init Flags.init ⟨by simp [init, fresh]⟩ ha) i c hi hb

/-- A failed call, an abandoned call and a guard dropped during a call do break the instance. -/
theorem C44_breaks (h : List Event) (c i : Nat) (hc : (run init h).held c = some i)
    (hi : ((run init h).inst i).calling = true) (e : Event)
    (he : e = .callErr c ∨ e = .callDropped c ∨ e = .release c) :
    ((run init (h ++ [e])).inst i).broken = true ∧ i < (run init (h ++ [e])).next := by
  have hlt := held_lt h hc
  rw [run_append]
  show ((step (run init h) e).inst i).broken = true ∧ i < (step (run init h) e).next
  rcases he with rfl | rfl | rfl <;> simp [step, hc, hi, upd, hlt]

/-- A healthy instance goes back to the pool: it is the next one handed out once those before it are gone. -/
theorem C44_healthy_returns (h : List Event) (c i : Nat) (hc : (run init h).held c = some i)
    (hok : ((run init h).inst i).ok = true) :
    i ∈ (run init (h ++ [.release c])).idle ∧ ((run init (h ++ [.release c])).inst i).ok = true ∧
    ((∀ j ∈ (run init h).idle, ((run init h).inst j).ok = false) →
      ∀ d, (run init (h ++ [.release c])).held d = none → handedOut (h ++ [.release c]) d = some i) := by
  have hs : run init (h ++ [.release c]) = step (run init h) (.release c) := by rw [run_append]; rfl
  have hok' : ((step (run init h) (.release c)).inst i).ok = true := by
    simp only [step, hc, upd, if_true, Inst.ok] at *
    exact hok
  have hidle : (step (run init h) (.release c)).idle = (run init h).idle ++ [i] := by simp [step, hc]
  rw [hs]
  refine ⟨by simp [hidle], hok', ?_⟩
  intro hj d hd
  unfold handedOut
  rw [hs, hd]
  have hni := (Owned.init.run h).heldIdle c i hc
  have hbad : ∀ j ∈ (run init h).idle, ((step (run init h) (.release c)).inst j).ok = false := by
    intro j hj'
    have hne : j ≠ i := by rintro rfl; exact hni hj'
    have : (step (run init h) (.release c)).inst j = (run init h).inst j := by simp [step, hc, upd, hne]
    rw [this]; exact hj j hj'
  have htake : ∀ l : List Nat, (∀ j ∈ l, ((step (run init h) (.release c)).inst j).ok = false) →
      takeIdle (step (run init h) (.release c)).inst (l ++ [i]) = some (i, []) := by
    intro l
    induction l with
    | nil => intro _; simp [takeIdle, hok']
    | cons x l ih =>
      intro hl
      rw [List.cons_append, takeIdle, hl x (by simp), if_neg (by simp)]
      exact ih (fun j hj => hl j (by simp [hj]))
  have ht := htake _ hbad
  rw [← hidle] at ht
  generalize step (run init h) (.release c) = s at *
  simp [step, hd, ht, upd]

/-- Without either hypothesis the claim fails, on the path of runtime/resolver/subscription/unique.rs:33-58: the call
for the next item fails, `drop_subscription` is called on the poisoned instance and succeeds, which clears the flag,
and `recyclable` is set. The next caller gets the broken instance. -/
theorem C44_reuse_counterexample :
    ∃ (h₁ h₂ : List Event), 0 < (run init h₁).next ∧ ((run init h₁).inst 0).broken = true ∧
      handedOut (h₁ ++ h₂) 1 = some 0 :=
  ⟨[.get 0, .setRecyclable 0 false, .callBegin 0, .callOk 0, .callBegin 0, .callErr 0],
   [.callBegin 0, .callOk 0, .setRecyclable 0 true, .release 0], by decide, by decide, by decide⟩

/-- A healthy instance is discarded after a subscription of the older SDKs (field_resolver.rs:80,
runtime/subscription/unique.rs): nothing sets `recyclable` again. -/
theorem C44_healthy_counterexample :
    ∃ (h : List Event), ((run init h).inst 0).broken = false ∧ 0 ∈ (run init h).idle ∧ handedOut h 1 = some 1 :=
  ⟨[.get 0, .setRecyclable 0 false, .callBegin 0, .callOk 0, .release 0], by decide, by decide, by decide⟩

/-! ## Non-vacuity -/

def sampleHistory : List Event :=
  [.get 0, .get 1, .callBegin 0, .callBegin 1, .callErr 0, .release 0, .callOk 1, .release 1]

example : Asserted init sampleHistory := by
  simp only [sampleHistory, Asserted]
  refine ⟨?_, ?_, ?_, ?_, ?_, ?_, ?_, ?_, trivial⟩ <;> intro c i hc hi <;>
    first
    | (cases hc; done)
    | (injection hc with hc; subst hc; revert hi; simp [step, init, upd, takeIdle, fresh] <;> (rintro rfl; simp))
example : ((run init sampleHistory).inst 0).broken = true ∧ 0 < (run init sampleHistory).next := by decide
example : handedOut sampleHistory 2 = some 1 := by decide

end Verif.Pool
