import Verif.OperationLimits.Lemmas

namespace Verif.OperationLimits

/-- C05. An operation is accepted exactly when its expansion exists (all fragments known, none cyclic)
and is within every limit. -/
theorem C05_accept_iff (fs : Frags) (lim : Limits) (sels : Sels) :
    validate fs lim sels = .ok () ↔ ∃ f, Expands fs sels f ∧ WithinLimits lim f := by
  constructor
  · intro h
    unfold validate at h
    split at h; · exact nomatch h
    rename_i c hv
    obtain ⟨f, hx, rfl, hfit⟩ := visit_sound fs lim _ _ _ _ _ _ hv
      ⟨fun _ _ => Nat.zero_le _, fun _ _ => Nat.zero_le _, fun _ _ => Nat.zero_le _,
        fun _ _ => Nat.zero_le _⟩
    refine ⟨f, hx, ?_, ?_, ?_, ?_⟩
    · simpa using hfit.dp
    · simpa [Counters.add] using hfit.root
    · simpa [Counters.add] using hfit.al
    · simpa [Counters.add] using hfit.cx
  · rintro ⟨f, hx, hw⟩
    obtain ⟨h, xh⟩ := hx.bounded
    have := visit_complete (lim := lim) xh fs.length [] 0 ⟨0, 0, 0⟩ (validate_stackOk fs)
      (fun s hs => by cases hs)
    unfold validate
    split
    · rename_i e he
      rw [he] at this
      cases e <;> simp only [Explains, Counters.add, Nat.zero_add, if_true] at this
      · exact (this hw.complexity).elim
      · exact (this hw.rootFields).elim
      · exact (this hw.aliases).elim
      · exact (this hw.depth).elim
    · rfl

/-- C05. Every refusal is justified: a limit error means the named limit is exceeded by the expansion
whenever there is one, a cycle error that some reachable fragment reaches itself, and an unknown-fragment
error that some reachable fragment is not defined. `outOfFuel` is never returned: the bound of the Lean
recursion is large enough, so the recursion of the code terminates. -/
theorem C05_refusal_justified (fs : Frags) (lim : Limits) (sels : Sels) (e : Err)
    (h : validate fs lim sels = .error e) :
    match e with
    | .tooDeep => ∀ f, Expands fs sels f → ¬ AtMost f.height lim.depth
    | .tooManyRootFields => ∀ f, Expands fs sels f → ¬ AtMost f.width lim.rootFields
    | .tooManyAliases => ∀ f, Expands fs sels f → ¬ AtMost f.aliases lim.aliases
    | .tooComplex => ∀ f, Expands fs sels f → ¬ AtMost f.size lim.complexity
    | .fragmentCycle => ∃ n b, Reaches fs sels n ∧ fs.find n = some b ∧ Reaches fs b n
    | .unknownFragment => ∃ n, Reaches fs sels n ∧ fs.find n = none
    | .outOfFuel => False := by
  unfold validate at h
  split at h
  · rename_i e' hv
    cases h
    have hx : ∀ f, Expands fs sels f → Explains lim 0 ⟨0, 0, 0⟩ f (.error e) := by
      intro f hf
      obtain ⟨k, xk⟩ := hf.bounded
      have := visit_complete (lim := lim) xk fs.length [] 0 ⟨0, 0, 0⟩ (validate_stackOk fs)
        (fun s hs => by cases hs)
      rwa [hv] at this
    have hr := visit_err (root := sels) _ _ _ _ _ _ ⟨fun m hm => .direct hm, fun s hs => by cases hs⟩ hv
    have hfuel := visit_fuel (lim := lim) fs.length sels [] 0 ⟨0, 0, 0⟩ (validate_stackOk fs)
    rw [hv] at hfuel
    cases e with
    | outOfFuel => exact hfuel rfl
    | fragmentCycle => exact hr
    | unknownFragment => exact hr
    | tooDeep => intro f hf; simpa [Explains] using hx f hf
    | tooManyRootFields => intro f hf; simpa [Explains, Counters.add] using hx f hf
    | tooManyAliases => intro f hf; simpa [Explains, Counters.add] using hx f hf
    | tooComplex => intro f hf; simpa [Explains, Counters.add] using hx f hf
  · exact nomatch h

/-- C05. An operation from which a fragment that reaches itself, or an undefined one, can be reached is
refused. -/
theorem C05_bad_fragments_refused (fs : Frags) (lim : Limits) (sels : Sels) (n : Nat)
    (hr : Reaches fs sels n)
    (hbad : fs.find n = none ∨ ∃ b, fs.find n = some b ∧ Reaches fs b n) :
    validate fs lim sels ≠ .ok () := by
  intro h
  obtain ⟨f, hf, _⟩ := (C05_accept_iff fs lim sels).1 h
  obtain ⟨k, xk⟩ := hf.bounded
  obtain ⟨j, g, b, hj, hb, xb⟩ := xk.reaches hr
  rcases hbad with hn | ⟨b', hb', hcyc⟩
  · rw [hn] at hb; cases hb
  · rw [hb] at hb'; cases hb'
    have key : ∀ j g, ¬ ExpandsH fs j b g := by
      intro j
      induction j using Nat.strongRecOn with
      | ind j ih =>
        intro g xg
        obtain ⟨j', g', b', hlt, hb', xb'⟩ := xg.reaches hcyc
        rw [hb] at hb'; cases hb'
        exact ih j' hlt g' xb'
    exact key j g xb

/-! Concrete cases: `{ a { ...F } b: c }` with `fragment F { x ...G }`, `fragment G { y { z } }`. -/
def exFrags : Frags :=
  [(0, .field false .nil (.spread 1 .nil)), (1, .field false (.field false .nil .nil) .nil)]
def exOp : Sels := .field false (.spread 0 .nil) (.field true .nil .nil)

example : validate exFrags ⟨some 2, some 3, some 1, some 5⟩ exOp = .ok () := rfl
example : validate exFrags ⟨some 2, some 2, some 1, some 5⟩ exOp = .error .tooDeep := rfl
example : validate exFrags ⟨some 2, some 3, some 1, some 4⟩ exOp = .error .tooComplex := rfl
example : validate exFrags ⟨some 1, none, none, none⟩ exOp = .error .tooManyRootFields := rfl
example : validate exFrags ⟨none, none, some 0, none⟩ exOp = .error .tooManyAliases := rfl
/-- the same operation where `G` spreads `F` -/
def exCyclic : Frags := [(0, .field false .nil (.spread 1 .nil)), (1, .inline (.spread 0 .nil) .nil)]
example : validate exCyclic ⟨none, none, none, none⟩ exOp = .error .fragmentCycle := rfl
example : Reaches exCyclic exOp 0 ∧ ∃ b, exCyclic.find 0 = some b ∧ Reaches exCyclic b 0 :=
  ⟨.direct (.fieldSub .here), _, rfl,
    .step (m := 1) (.fieldRest .here) rfl (.direct (.inlineSub .here))⟩
example : validate [] ⟨none, none, none, none⟩ exOp = .error .unknownFragment := rfl

end Verif.OperationLimits
