import Verif.Wrapping.Lemmas
import Verif.FieldTypes.Model
/-
Characterisation of `compose` on the abstract representation.
-/
namespace Verif.FieldTypes
open Verif.Wrapping Verif.Common

theorem composeLoop_eq_len (r : Bool) (s o : LW) (a b : List LW) (h : a.length = b.length) :
    composeLoop r (some (s, o)) a b =
      if (s :: a).dropLast = (o :: b).dropLast then
        some ((o :: b).getLast (by simp) == .listNonNull) else none := by
  induction a generalizing s o b with
  | nil =>
    cases b with
    | nil => simp [composeLoop]
    | cons _ _ => simp at h
  | cons x a ih =>
    cases b with
    | nil => simp at h
    | cons y b =>
      rw [composeLoop, ih x y b (by simpa using h)]
      by_cases hso : s = o
      · subst hso; simp [List.dropLast_cons_of_ne_nil]
      · simp [hso, List.dropLast_cons_of_ne_nil]

theorem composeLoop_shorter_other (r : Bool) (s o : LW) (a b : List LW) (h : b.length + 1 < a.length) :
    composeLoop r (some (s, o)) a b = none := by
  induction b generalizing s o a with
  | nil =>
    match a, h with
    | x :: x' :: a, _ => simp [composeLoop]
  | cons y b ih =>
    cases a with
    | nil => simp at h
    | cons x a =>
      rw [composeLoop, ih x y a (by simpa using h)]; simp

theorem composeLoop_longer_other (r : Bool) (s o : LW) (a b : List LW) (h : a.length < b.length) :
    composeLoop r (some (s, o)) a b = none := by
  induction a generalizing s o b with
  | nil =>
    cases b with
    | nil => simp at h
    | cons y b => simp [composeLoop]
  | cons x a ih =>
    cases b with
    | nil => simp at h
    | cons y b =>
      rw [composeLoop, ih x y b (by simpa using h)]; simp

/-- Same type up to the outermost nullability. -/
def SameNullable (a b : FieldType) (t u : GType) : Prop :=
  a.definitionNameId = b.definitionNameId ∧ t.nullable = u.nullable

instance (a b t u) : Decidable (SameNullable a b t u) := inferInstanceAs (Decidable (_ ∧ _))

theorem readBack_nullable_nil (i : Bool) : (readBack i []).nullable = .named := by
  cases i <;> rfl

theorem readBack_nullable_snoc (i : Bool) (xs : List LW) (x : LW) :
    (readBack i (xs ++ [x])).nullable = .list (readBack i xs) := by
  rw [readBack_snoc]; cases x <;> rfl

theorem reachable_inj {w w' : Wrapping} {t : GType} (h : Reachable w t) (h' : Reachable w' t) : w = w' := by
  obtain ⟨i, ls, hr, rfl⟩ := reachable_rep h
  obtain ⟨i', ls', hr', e⟩ := reachable_rep h'
  obtain ⟨rfl, rfl⟩ := readBack_inj e
  exact rep_unique hr hr'

/-- With equal list depth `compose` accepts exactly the types equal up to the outermost nullability,
and then it says whether `other` is required (any answer would do for identical types). -/
theorem compose_eq_depth (a b : FieldType) (t u : GType)
    (ha : Reachable a.wrapping t) (hb : Reachable b.wrapping u) (hd : t.depth = u.depth) :
    (compose a b = none ↔ ¬ SameNullable a b t u) ∧
    (∀ r, compose a b = some r → a = b ∨ r = u.required) := by
  by_cases hab : a = b
  · subst hab
    have htu : t = u := by
      obtain ⟨i, ls, hr, rfl⟩ := reachable_rep ha
      obtain ⟨i', ls', hr', rfl⟩ := reachable_rep hb
      rw [← rep_inner hr, ← rep_inner hr', ← rep_listWrappings hr, ← rep_listWrappings hr']
    subst htu
    simp [compose, SameNullable]
  · have hneq : compose a b = if a.definitionNameId ≠ b.definitionNameId then none
      else
        let (peeked, x, y) := zipNext a.wrapping.listWrappings b.wrapping.listWrappings
        if peeked.isSome && (a.wrapping.innerIsRequired != b.wrapping.innerIsRequired) then none
        else composeLoop b.wrapping.isNonNull peeked x y := by
      unfold compose; rw [if_neg hab]
    by_cases hn : a.definitionNameId = b.definitionNameId
    · rw [hneq]
      simp only [hn, ne_eq, not_true_eq_false, if_false, hab, false_or]
      obtain ⟨i, ls, hr, rfl⟩ := reachable_rep ha
      obtain ⟨i', ls', hr', rfl⟩ := reachable_rep hb
      rw [readBack_depth, readBack_depth] at hd
      rw [rep_listWrappings hr, rep_listWrappings hr', rep_inner hr, rep_inner hr', rep_isNonNull hr']
      cases ls with
      | nil =>
        have : ls' = [] := List.length_eq_zero_iff.mp hd.symm
        subst this
        simp [zipNext, composeLoop, SameNullable, readBack_nullable_nil, hn]
      | cons x ls =>
        cases ls' with
        | nil => simp at hd
        | cons y ls' =>
          simp only [zipNext, Option.isSome_some, Bool.true_and]
          rw [composeLoop_eq_len _ _ _ _ _ (by simpa using hd)]
          have hx : x :: ls = (x :: ls).dropLast ++ [(x :: ls).getLast (by simp)] :=
            (List.dropLast_concat_getLast _).symm
          have hy : y :: ls' = (y :: ls').dropLast ++ [(y :: ls').getLast (by simp)] :=
            (List.dropLast_concat_getLast _).symm
          have hsn : SameNullable a b (readBack i (x :: ls)) (readBack i' (y :: ls')) ↔
              i = i' ∧ (x :: ls).dropLast = (y :: ls').dropLast := by
            unfold SameNullable
            rw [hx, hy, readBack_nullable_snoc, readBack_nullable_snoc]
            simp only [hn, true_and, GType.list.injEq, List.dropLast_concat]
            constructor
            · intro h; exact readBack_inj h
            · rintro ⟨h1, h2⟩; rw [h1, h2]
          have hreq : (readBack i' (y :: ls')).required = ((y :: ls').getLast (by simp) == .listNonNull) := by
            rw [readBack_required, List.getLast?_eq_some_getLast (by simp)]
          rw [hsn, hreq]
          by_cases hi : i = i'
          · subst hi
            by_cases hdl : (x :: ls).dropLast = (y :: ls').dropLast
            · simp [hdl]
            · simp [hdl]
          · have : (i != i') = true := by simpa using hi
            simp [this, hi]
    · rw [hneq]
      simp [hn, SameNullable]

theorem gtype_eq_of (t u : GType) (h1 : t.nullable = u.nullable) (h2 : t.required = u.required)
    (ht : t.WF) (hu : u.WF) : t = u := by
  cases t <;> cases u <;> simp_all [GType.nullable, GType.required]
  all_goals (first | rfl | skip)

theorem admits_split (t : GType) (v : Val) :
    t.Admits v ↔ (t.required = true → v ≠ .null) ∧ t.nullable.Admits v := by
  cases t <;> simp [GType.required, GType.nullable, GType.Admits]

/-- One step of the fold, for a commutative choice `pick` of requiredness. -/
def StepSpec (f : FieldType → FieldType → Option FieldType) (pick : Bool → Bool → Bool) : Prop :=
  ∀ (den : FieldType → GType) (a b : FieldType), Reachable a.wrapping (den a) → Reachable b.wrapping (den b) →
    (den a).depth = (den b).depth →
    (f a b = none ↔ ¬ SameNullable a b (den a) (den b)) ∧
    (∀ r, f a b = some r → (r = a ∨ r = b) ∧ (den r).required = pick (den a).required (den b).required)

theorem stepSpec_output : StepSpec composeForOutput (· && ·) := by
  intro den a b ha hb hd
  obtain ⟨h1, h2⟩ := compose_eq_depth a b _ _ ha hb hd
  constructor
  · rw [← h1]; unfold composeForOutput
    cases compose a b <;> simp
  · intro r hr
    unfold composeForOutput at hr
    cases hc : compose a b with
    | none => rw [hc] at hr; simp at hr
    | some x =>
      rw [hc] at hr
      simp at hr
      rcases h2 x hc with rfl | rfl
      · simp at hr; subst hr; simp
      · cases hx : (den b).required
        · rw [hx] at hr; simp at hr; subst hr; simp [hx]
        · rw [hx] at hr; simp at hr; subst hr; simp

theorem stepSpec_input : StepSpec composeForInput (· || ·) := by
  intro den a b ha hb hd
  obtain ⟨h1, h2⟩ := compose_eq_depth a b _ _ ha hb hd
  constructor
  · rw [← h1]; unfold composeForInput
    cases compose a b <;> simp
  · intro r hr
    unfold composeForInput at hr
    cases hc : compose a b with
    | none => rw [hc] at hr; simp at hr
    | some x =>
      rw [hc] at hr
      simp at hr
      rcases h2 x hc with rfl | rfl
      · simp at hr; subst hr; simp
      · cases hx : (den b).required
        · rw [hx] at hr; simp at hr; subst hr; simp
        · rw [hx] at hr; simp at hr; subst hr; simp [hx]

theorem SameNullable.symm {a b t u} (h : SameNullable a b t u) : SameNullable b a u t :=
  ⟨h.1.symm, h.2.symm⟩

theorem SameNullable.trans {a b c t u v} (h : SameNullable a b t u) (h' : SameNullable b c u v) :
    SameNullable a c t v := ⟨h.1.trans h'.1, h.2.trans h'.2⟩

/-- The fold over the subgraphs. -/
theorem fold_spec {f pick} (hf : StepSpec f pick) (den : FieldType → GType) (d : Nat) (a : FieldType)
    (rest : List FieldType) (hden : ∀ x ∈ a :: rest, Reachable x.wrapping (den x))
    (hd : ∀ x ∈ a :: rest, (den x).depth = d) :
    (rest.foldlM f a = none ↔ ∃ x ∈ rest, ¬ SameNullable a x (den a) (den x)) ∧
    (∀ r, rest.foldlM f a = some r → r ∈ a :: rest ∧ SameNullable a r (den a) (den r) ∧
      (den r).required = (rest.map (fun x => (den x).required)).foldl pick (den a).required) := by
  induction rest generalizing a with
  | nil => simp [SameNullable]
  | cons b rest ih =>
    obtain ⟨h1, h2⟩ := hf den a b (hden a (by simp)) (hden b (by simp))
      ((hd a (by simp)).trans (hd b (by simp)).symm)
    simp only [List.foldlM_cons]
    cases hc : f a b with
    | none =>
      have := h1.mp hc
      simp only [Option.bind_eq_bind, Option.bind_none, true_iff]
      exact ⟨⟨b, by simp, this⟩, by simp⟩
    | some c =>
      have hsn : SameNullable a b (den a) (den b) := by
        by_cases hs : SameNullable a b (den a) (den b)
        · exact hs
        · rw [h1.mpr hs] at hc; cases hc
      obtain ⟨hcm, hcr⟩ := h2 c hc
      have hac : SameNullable a c (den a) (den c) := by
        rcases hcm with rfl | rfl
        · exact ⟨rfl, rfl⟩
        · exact hsn
      simp only [Option.bind_eq_bind, Option.bind_some]
      have hmem : ∀ x ∈ c :: rest, x ∈ a :: b :: rest := by
        intro x hx
        rcases List.mem_cons.mp hx with rfl | hx
        · rcases hcm with rfl | rfl <;> simp
        · simp [hx]
      obtain ⟨i1, i2⟩ := ih c (fun x hx => hden x (hmem x hx)) (fun x hx => hd x (hmem x hx))
      constructor
      · rw [i1]
        constructor
        · rintro ⟨x, hx, hn⟩
          exact ⟨x, by simp [hx], fun hs => hn (hac.symm.trans hs)⟩
        · rintro ⟨x, hx, hn⟩
          rcases List.mem_cons.mp hx with rfl | hx
          · exact absurd hsn hn
          · exact ⟨x, hx, fun hs => hn (hac.trans hs)⟩
      · intro r hr
        obtain ⟨j1, j2, j3⟩ := i2 r hr
        refine ⟨hmem r j1, hac.trans j2, ?_⟩
        rw [j3, hcr]; simp

theorem foldl_and (l : List Bool) (b : Bool) : l.foldl (· && ·) b = (b && l.all id) := by
  induction l generalizing b with
  | nil => simp
  | cons x l ih => simp [ih, Bool.and_assoc]

theorem foldl_or (l : List Bool) (b : Bool) : l.foldl (· || ·) b = (b || l.any id) := by
  induction l generalizing b with
  | nil => simp
  | cons x l ih => simp [ih, Bool.or_assoc]

theorem reachable_wf {w t} (h : Reachable w t) : t.WF := by
  obtain ⟨i, ls, _, rfl⟩ := reachable_rep h
  exact readBack_wf i ls

end Verif.FieldTypes
