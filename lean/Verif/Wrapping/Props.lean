import Verif.Common.GType
import Verif.Wrapping.Lemmas
/-
Properties C01 and C02.
-/
namespace Verif.Wrapping
open Verif.Common

/-! ### C01 -/

/-- C01. Any sequence of builder calls, whatever the interleaving, is refused (panics) exactly when
it pushes an eleventh list level, and otherwise everything that can be observed on the packed word is
what the GraphQL type so built says. -/
theorem C01_wrapping_roundtrip (ops : List Op) :
    match specRun ops with
    | none => run ops = none
    | some t => ∃ w, run ops = some w ∧
        readBack w.innerIsRequired w.listWrappings = t ∧
        w.innerIsRequired = t.innerRequired ∧
        w.listWrappings.length = t.depth ∧
        w.isNonNull = t.required ∧ w.isNullable = !t.required ∧
        w.isList = t.isList ∧
        w.iter = wrappers t ∧
        ∀ name, w.typeDisplay name = t.render name := by
  have h := rep_run_from rep_new ops
  have e : readBack false [] = .named := rfl
  rw [e] at h
  unfold specRun run
  cases hs : ops.foldlM specStep .named with
  | none => rw [hs] at h; exact h
  | some t =>
    rw [hs] at h
    obtain ⟨w', i', ls', e, hr, ht⟩ := h
    refine ⟨w', e, ?_, ?_, ?_, ?_, ?_, ?_, ?_, ?_⟩
    · rw [rep_inner hr, rep_listWrappings hr, ht]
    · rw [rep_inner hr, ht, readBack_innerRequired]
    · rw [rep_listWrappings hr, ht, readBack_depth]
    · rw [rep_isNonNull hr, ht]
    · rw [Wrapping.isNullable, rep_isNonNull hr, ht]
    · rw [rep_isList hr, ht]
    · rw [Wrapping.iter, rep_inner hr, rep_listWrappings hr, ht, readBack_wrappers]; rfl
    · intro name
      rw [Wrapping.typeDisplay, rep_inner hr, rep_listWrappings hr, rep_getListLength hr, ht,
        readBack_render]; rfl

/-- The hypotheses of `C01_wrapping_roundtrip` are met non-trivially: `[[X!]!]!` with a pop in between. -/
example : specRun [.nonNull, .list, .nonNull, .push .list, .nonNull, .pop, .push .listNonNull]
    = some (.nonNull (.list (.nonNull (.list (.nonNull .named))))) := by decide
example : run [.nonNull, .list, .nonNull, .push .list, .nonNull, .pop, .push .listNonNull]
    = some ⟨0b1001000000000011#16⟩ := by decide
/-- ... and the refused case exists. -/
example : specRun (List.replicate 11 .list) = none := by decide

/-- C01. Two words built by any calls are equal exactly when they describe the same type. -/
theorem C01_wrapping_injective (ops ops' : List Op) (t t' : GType) (w w' : Wrapping)
    (ht : specRun ops = some t) (ht' : specRun ops' = some t')
    (hw : run ops = some w) (hw' : run ops' = some w') : w = w' ↔ t = t' := by
  have h := rep_run_from rep_new ops
  have h' := rep_run_from rep_new ops'
  have e : readBack false [] = .named := rfl
  unfold specRun at ht ht'
  unfold run at hw hw'
  rw [e, ht] at h
  rw [e, ht'] at h'
  obtain ⟨x, i, ls, ex, hr, et⟩ := h
  obtain ⟨x', i', ls', ex', hr', et'⟩ := h'
  rw [hw] at ex; rw [hw'] at ex'
  injection ex with ex; injection ex' with ex'
  subst ex ex' et et'
  constructor
  · intro hww
    subst hww
    rw [← rep_inner hr, ← rep_inner hr', ← rep_listWrappings hr]
    rw [rep_listWrappings hr']
  · intro heq
    obtain ⟨rfl, rfl⟩ := readBack_inj heq
    exact rep_unique hr hr'

/-- C01. Every well-formed GraphQL type of at most ten list levels can be built. -/
theorem C01_wrapping_complete (t : GType) (hwf : t.WF) (hd : t.depth ≤ 10) :
    ∃ ops w, run ops = some w ∧ readBack w.innerIsRequired w.listWrappings = t := by
  have : ∀ n, ∀ t : GType, sizeOf t < n → t.WF → t.depth ≤ 10 → ∃ ops, specRun ops = some t := by
    intro n
    induction n with
    | zero => intro t ht; omega
    | succ n ih =>
      intro t ht hwf hd
      match t, hwf with
      | .named, _ => exact ⟨[], rfl⟩
      | .list t, h =>
        simp only [GType.depth] at hd
        obtain ⟨ops, e⟩ := ih t (by simp at ht; omega) h (by omega)
        refine ⟨ops ++ [.list], ?_⟩
        unfold specRun at e ⊢
        have hd' : t.depth < 10 := by omega
        simp [List.foldlM_append, e, specStep, hd']
      | .nonNull .named, _ => exact ⟨[.nonNull], rfl⟩
      | .nonNull (.list t), h =>
        simp only [GType.depth] at hd
        obtain ⟨ops, e⟩ := ih t (by simp at ht; omega) (by simpa [GType.WF] using h) (by omega)
        refine ⟨ops ++ [.listNonNull], ?_⟩
        unfold specRun at e ⊢
        have hd' : t.depth < 10 := by omega
        simp [List.foldlM_append, e, specStep, hd']
      | .nonNull (.nonNull t), h => simp [GType.WF] at h
  obtain ⟨ops, hops⟩ := this _ t (Nat.lt_succ_self _) hwf hd
  have h := C01_wrapping_roundtrip ops
  rw [hops] at h
  obtain ⟨w, hw, hr, _⟩ := h
  exact ⟨ops, w, hw, hr⟩

example : ∃ ops w, run ops = some w ∧
    readBack w.innerIsRequired w.listWrappings = .nonNull (.list (.list (.nonNull .named))) :=
  C01_wrapping_complete _ (by simp [GType.WF]) (by decide)

/-! ### C02 -/

/-- C02. For any two wrappings the API can build, the leniency check answers yes exactly when every
value of the other type is a value of this type. -/
theorem C02_lenient_iff_value_inclusion (w w' : Wrapping) (t t' : GType)
    (h : Reachable w t) (h' : Reachable w' t') :
    w.isEqualOrMoreLenientThan w' = true ↔ ∀ v, t'.Admits v → t.Admits v := by
  obtain ⟨i, ls, hr, rfl⟩ := reachable_rep h
  obtain ⟨i', ls', hr', rfl⟩ := reachable_rep h'
  rw [← lenientAbs_iff]
  unfold Wrapping.isEqualOrMoreLenientThan
  rw [rep_inner hr, rep_inner hr', rep_getListLength hr, rep_getListLength hr', rep_listWrappings hr,
    rep_listWrappings hr']
  by_cases hl : ls.length = ls'.length
  · rw [← zip_all_iff i i' ls ls' hl]
    cases i <;> cases i' <;> simp [hl]
  · have hno : ¬ lenientAbs i i' ls ls' := by
      intro hc
      apply hl
      clear hl hr hr' h h'
      induction ls generalizing ls' with
      | nil => cases ls' <;> simp_all [lenientAbs]
      | cons a ls ih => cases ls' with
        | nil => simp [lenientAbs] at hc
        | cons b ls' => simp [ih ls' hc.2]
    simp only [hno, iff_false]
    cases i <;> cases i' <;> simp [hl]

/-- Both hypotheses hold for a non-trivial pair, `[X]` and `[X!]!`, and the check says yes. -/
example : Reachable ⟨0b0000100000000000#16⟩ (.list .named) ∧
    Reachable ⟨0b1000100000000001#16⟩ (.nonNull (.list (.nonNull .named))) ∧
    Wrapping.isEqualOrMoreLenientThan ⟨0b0000100000000000#16⟩ ⟨0b1000100000000001#16⟩ = true :=
  ⟨⟨[.list], by decide, by decide⟩, ⟨[.nonNull, .listNonNull], by decide, by decide⟩, by decide⟩

end Verif.Wrapping
