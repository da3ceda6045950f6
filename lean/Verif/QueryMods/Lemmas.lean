import Verif.QueryMods.Spec
/-!
# Lemmas: directives and decisions
-/
namespace Verif.QueryMods

theorem put_apply (s : Nat → Bool) (i : Nat) (b : Bool) (j : Nat) :
    put s i b j = if j = i then b else s j := rfl

/-! ## Skipping -/

theorem lets_iff {vars : Nat → Bool} {ds : List Directive} :
    ds.any (Directive.skips vars) = false ↔ Lets vars ds := by
  rw [List.any_eq_false]
  constructor
  · intro h
    refine ⟨fun c hc => ?_, fun c hc => ?_⟩
    · have := h _ hc
      simpa [Directive.skips] using this
    · have := h _ hc
      simpa [Directive.skips] using this
  · rintro ⟨h1, h2⟩ d hd
    cases d with
    | «include» c => simp [Directive.skips, h1 c hd]
    | skip c => simp [Directive.skips, h2 c hd]

structure SkipPost (b b' : Builder) (l : List PField) : Prop where
  data : ∀ i, b'.data i = true ↔ b.data i = true ∧ PField.data i ∉ l
  typ : ∀ i, b'.typenames i = true ↔ b.typenames i = true ∧ PField.typename i ∉ l
  rest : b'.errors = b.errors ∧ b'.root = b.root ∧ b'.denied = b.denied

theorem skipField_post {l : List PField} {b b' : Builder} (h : skipField b l = some b') : SkipPost b b' l := by
  induction l generalizing b with
  | nil => cases h; exact ⟨by simp, by simp, rfl, rfl, rfl⟩
  | cons x t ih =>
    cases x with
    | lookup i => simp [skipField] at h
    | typename i =>
      have := ih h
      refine ⟨?_, ?_, this.rest⟩
      · intro j; rw [this.data]; simp
      · intro j; rw [this.typ]
        by_cases hj : j = i
        · subst hj; simp [put_apply]
        · simp [put_apply, hj]
    | data i =>
      have := ih h
      refine ⟨?_, ?_, this.rest⟩
      · intro j; rw [this.data]
        by_cases hj : j = i
        · subst hj; simp [put_apply]
        · simp [put_apply, hj]
      · intro j; rw [this.typ]; simp

theorem skipField_some {l : List PField} {b : Builder} :
    (∃ b', skipField b l = some b') ↔ ∀ i, PField.lookup i ∉ l := by
  induction l generalizing b with
  | nil => simp [skipField]
  | cons x t ih =>
    cases x with
    | lookup i =>
      simp only [skipField]
      constructor
      · rintro ⟨_, h⟩; cases h
      · intro h; exact absurd (List.mem_cons_self) (h i)
    | typename i => simp only [skipField, ih]; simp
    | data i => simp only [skipField, ih]; simp

structure NativePost (vars : Nat → Bool) (ms : List Modifier) (b b' : Builder) : Prop where
  data : ∀ i, b'.data i = true ↔ b.data i = true ∧ Kept vars ms (.data i)
  typ : ∀ i, b'.typenames i = true ↔ b.typenames i = true ∧ Kept vars ms (.typename i)
  rest : b'.errors = b.errors ∧ b'.root = b.root ∧ b'.denied = b.denied

theorem kept_cons {vars : Nat → Bool} {m : Modifier} {t : List Modifier} {f : PField} {ds : List Directive}
    (hm : m.rule = .executable ds) :
    Kept vars (m :: t) f ↔ (f ∈ m.impacted → Lets vars ds) ∧ Kept vars t f := by
  unfold Kept
  constructor
  · intro h
    exact ⟨fun hf => h m (by simp) ds hm hf, fun m' hm' => h m' (by simp [hm'])⟩
  · rintro ⟨h1, h2⟩ m' hm' ds' hds hf
    rcases List.mem_cons.1 hm' with rfl | hm'
    · rw [hm] at hds; cases hds; exact h1 hf
    · exact h2 m' hm' ds' hds hf

theorem handleNative_post {vars : Nat → Bool} {ms : List Modifier} {b b' : Builder}
    (h : handleNative vars b ms = some b') : NativePost vars ms b b' := by
  induction ms generalizing b with
  | nil => cases h; exact ⟨by simp [Kept], by simp [Kept], rfl, rfl, rfl⟩
  | cons m t ih =>
    simp only [handleNative, Option.bind_eq_some_iff] at h
    obtain ⟨b1, h1, h2⟩ := h
    have p2 := ih h2
    unfold native1 at h1
    cases hm : m.rule with
    | extension => simp [hm] at h1
    | executable ds =>
      simp only [hm] at h1
      cases hs : ds.any (Directive.skips vars) with
      | true =>
        rw [if_pos hs] at h1
        have p1 := skipField_post h1
        have hl : ¬ Lets vars ds := by rw [← lets_iff]; simp [hs]
        refine ⟨?_, ?_, ?_⟩
        · intro i; rw [p2.data, p1.data, kept_cons hm]; simp [hl, and_assoc]
        · intro i; rw [p2.typ, p1.typ, kept_cons hm]; simp [hl, and_assoc]
        · exact ⟨p2.rest.1.trans p1.rest.1, p2.rest.2.1.trans p1.rest.2.1, p2.rest.2.2.trans p1.rest.2.2⟩
      | false =>
        rw [if_neg (by simp [hs])] at h1
        cases h1
        have hl : Lets vars ds := lets_iff.1 hs
        refine ⟨?_, ?_, p2.rest⟩
        · intro i; rw [p2.data, kept_cons hm]; simp [hl]
        · intro i; rw [p2.typ, kept_cons hm]; simp [hl]

/-! ## Denials -/

structure DenyPost (recs : List Modifier) (P : Nat → Nat → Prop) (b b' : Builder) : Prop where
  denied : ∀ f e, (f, e) ∈ b'.denied ↔ (f, e) ∈ b.denied ∨ ∃ j m, P j e ∧ recs[j]? = some m ∧ PField.data f ∈ m.impacted
  root : ∀ e, e ∈ b'.root ↔ e ∈ b.root ∨ ∃ j m, P j e ∧ recs[j]? = some m ∧ m.root = true
  data : b'.data = b.data
  typ : b'.typenames = b.typenames

theorem denyFields_post {e : Nat} {l : List PField} {b b' : Builder} (h : denyFields b e l = some b') :
    (∀ f e', (f, e') ∈ b'.denied ↔ (f, e') ∈ b.denied ∨ (e' = e ∧ PField.data f ∈ l)) ∧
      b'.root = b.root ∧ b'.data = b.data ∧ b'.typenames = b.typenames ∧ b'.errors = b.errors := by
  induction l generalizing b with
  | nil => cases h; simp
  | cons x t ih =>
    cases x with
    | lookup i => simp [denyFields] at h
    | typename i => simp [denyFields] at h
    | data i =>
      obtain ⟨h1, h2⟩ := ih h
      refine ⟨?_, h2⟩
      intro f e'
      rw [h1]
      simp only [List.mem_append, List.mem_singleton, Prod.mk.injEq, List.mem_cons, PField.data.injEq,
        List.not_mem_nil, or_false]
      constructor
      · rintro ((g | ⟨g1, g2⟩) | ⟨g1, g2⟩)
        · exact Or.inl g
        · exact Or.inr ⟨g2, Or.inl g1⟩
        · exact Or.inr ⟨g1, Or.inr g2⟩
      · rintro (g | ⟨g1, g2 | g2⟩)
        · exact Or.inl (Or.inl g)
        · exact Or.inl (Or.inr ⟨g2, g1⟩)
        · exact Or.inr ⟨g1, g2⟩

/-- Only data fields are concerned. -/
def OnlyData (m : Modifier) : Prop := ∀ f ∈ m.impacted, ∃ i, f = PField.data i

theorem denyFields_some {e : Nat} {l : List PField} {b : Builder} :
    (∃ b', denyFields b e l = some b') ↔ ∀ f ∈ l, ∃ i, f = PField.data i := by
  induction l generalizing b with
  | nil => simp [denyFields]
  | cons x t ih =>
    cases x with
    | lookup i => simp [denyFields]
    | typename i => simp [denyFields]
    | data i => simp only [denyFields, ih]; simp

theorem deny_some {b : Builder} {m : Modifier} {e : Nat} :
    (∃ b', deny b m e = some b') ↔ OnlyData m := by
  unfold deny OnlyData
  exact denyFields_some

theorem deny_post {b b' : Builder} {m : Modifier} {e : Nat} (h : deny b m e = some b') :
    (∀ f e', (f, e') ∈ b'.denied ↔ (f, e') ∈ b.denied ∨ (e' = e ∧ PField.data f ∈ m.impacted)) ∧
      (∀ e', e' ∈ b'.root ↔ e' ∈ b.root ∨ (e' = e ∧ m.root = true)) ∧ b'.data = b.data ∧
      b'.typenames = b.typenames ∧ b'.errors = b.errors := by
  unfold deny at h
  obtain ⟨h1, h2, h3, h4, h5⟩ := denyFields_post h
  cases hr : m.root with
  | true =>
    simp only [hr, if_true] at h1 h2 h3 h4 h5
    exact ⟨h1, by rw [h2]; simp, h3, h4, h5⟩
  | false =>
    simp only [hr, Bool.false_eq_true, if_false] at h1 h2 h3 h4 h5
    exact ⟨h1, by rw [h2]; simp, h3, h4, h5⟩

/-- The ids `start, start+1, …` of a list. -/
theorem denyEach_post {e : Nat} {l : List Modifier} {b b' : Builder} (h : denyEach b e l = some b') :
    (∀ f e', (f, e') ∈ b'.denied ↔ (f, e') ∈ b.denied ∨ (e' = e ∧ ∃ m ∈ l, PField.data f ∈ m.impacted)) ∧
      (∀ e', e' ∈ b'.root ↔ e' ∈ b.root ∨ (e' = e ∧ ∃ m ∈ l, m.root = true)) ∧ b'.data = b.data ∧
      b'.typenames = b.typenames ∧ b'.errors = b.errors := by
  induction l generalizing b with
  | nil => cases h; simp
  | cons m t ih =>
    simp only [denyEach, Option.bind_eq_some_iff] at h
    obtain ⟨b1, h1, h2⟩ := h
    obtain ⟨a1, a2, a3, a4, a5⟩ := deny_post h1
    obtain ⟨c1, c2, c3, c4, c5⟩ := ih h2
    refine ⟨?_, ?_, c3.trans a3, c4.trans a4, c5.trans a5⟩
    · intro f e'
      rw [c1, a1]
      simp only [List.mem_cons, exists_eq_or_imp]
      constructor
      · rintro ((h | ⟨rfl, h⟩) | ⟨rfl, h⟩)
        · exact Or.inl h
        · exact Or.inr ⟨rfl, Or.inl h⟩
        · exact Or.inr ⟨rfl, Or.inr h⟩
      · rintro (h | ⟨rfl, h | h⟩)
        · exact Or.inl (Or.inl h)
        · exact Or.inl (Or.inr ⟨rfl, h⟩)
        · exact Or.inr ⟨rfl, h⟩
    · intro e'
      rw [c2, a2]
      simp only [List.mem_cons, exists_eq_or_imp]
      constructor
      · rintro ((h | ⟨rfl, h⟩) | ⟨rfl, h⟩)
        · exact Or.inl h
        · exact Or.inr ⟨rfl, Or.inl h⟩
        · exact Or.inr ⟨rfl, Or.inr h⟩
      · rintro (h | ⟨rfl, h | h⟩)
        · exact Or.inl (Or.inl h)
        · exact Or.inl (Or.inr ⟨rfl, h⟩)
        · exact Or.inr ⟨rfl, h⟩

theorem denyEach_some {e : Nat} {l : List Modifier} {b : Builder} :
    (∃ b', denyEach b e l = some b') ↔ ∀ m ∈ l, OnlyData m := by
  induction l generalizing b with
  | nil => simp [denyEach]
  | cons m t ih =>
    simp only [denyEach, Option.bind_eq_some_iff, List.mem_cons, forall_eq_or_imp]
    constructor
    · rintro ⟨b', b1, h1, h2⟩
      exact ⟨deny_some.1 ⟨_, h1⟩, ih.1 ⟨_, h2⟩⟩
    · rintro ⟨h1, h2⟩
      obtain ⟨b1, h1⟩ := (deny_some (b := b) (e := e)).2 h1
      obtain ⟨b2, h2⟩ := (ih (b := b1)).2 h2
      exact ⟨b2, b1, h1, h2⟩

theorem mem_slice {l : List Modifier} {a b : Nat} {m : Modifier} :
    m ∈ (l.take b).drop a ↔ ∃ j : Nat, a ≤ j ∧ j < b ∧ l[j]? = some m := by
  rw [List.mem_iff_getElem?]
  constructor
  · rintro ⟨i, hi⟩
    rw [List.getElem?_drop, List.getElem?_take] at hi
    split at hi
    · exact ⟨a + i, by omega, by omega, hi⟩
    · cases hi
  · rintro ⟨j, h1, h2, h3⟩
    refine ⟨j - a, ?_⟩
    rw [List.getElem?_drop, List.getElem?_take, show a + (j - a) = j by omega, if_pos h2]
    exact h3

theorem errId_some {n e : Nat} : errId n = some e ↔ n < 65535 ∧ e = n := by
  unfold errId
  split
  · rename_i h; simp [h, eq_comm]
  · rename_i h; simp [h]

theorem denySome_post {recs : List Modifier} {start stop off : Nat} {els : List (Nat × Nat)} {b b' : Builder}
    (h : denySome recs start stop off b els = some b') :
    DenyPost recs (fun j e => ∃ el er, (el, er) ∈ els ∧ j = start + el ∧ e = off + er) b b' ∧
      b'.errors = b.errors := by
  induction els generalizing b with
  | nil => cases h; exact ⟨⟨by simp, by simp, rfl, rfl⟩, rfl⟩
  | cons x t ih =>
    obtain ⟨el, er⟩ := x
    simp only [denySome] at h
    split at h
    · simp only [Option.bind_eq_some_iff] at h
      obtain ⟨m, hm, e, he, b1, h1, h2⟩ := h
      obtain ⟨a1, a2, a3, a4, a5⟩ := deny_post h1
      obtain ⟨p, p5⟩ := ih h2
      obtain ⟨he0, rfl⟩ := errId_some.1 he
      refine ⟨⟨?_, ?_, p.data.trans a3, p.typ.trans a4⟩, p5.trans a5⟩
      · intro f e'
        rw [p.denied, a1]
        constructor
        · rintro ((h | ⟨rfl, h⟩) | ⟨j, m', ⟨el', er', h1, h2, h3⟩, h4, h5⟩)
          · exact Or.inl h
          · exact Or.inr ⟨_, m, ⟨el, er, by simp, rfl, rfl⟩, hm, h⟩
          · exact Or.inr ⟨j, m', ⟨el', er', by simp [h1], h2, h3⟩, h4, h5⟩
        · rintro (h | ⟨j, m', ⟨el', er', h1, h2, h3⟩, h4, h5⟩)
          · exact Or.inl (Or.inl h)
          · rcases List.mem_cons.1 h1 with h1 | h1
            · cases h1; subst h2; rw [hm] at h4; cases h4
              exact Or.inl (Or.inr ⟨h3, h5⟩)
            · exact Or.inr ⟨j, m', ⟨el', er', h1, h2, h3⟩, h4, h5⟩
      · intro e'
        rw [p.root, a2]
        constructor
        · rintro ((h | ⟨rfl, h⟩) | ⟨j, m', ⟨el', er', h1, h2, h3⟩, h4, h5⟩)
          · exact Or.inl h
          · exact Or.inr ⟨_, m, ⟨el, er, by simp, rfl, rfl⟩, hm, h⟩
          · exact Or.inr ⟨j, m', ⟨el', er', by simp [h1], h2, h3⟩, h4, h5⟩
        · rintro (h | ⟨j, m', ⟨el', er', h1, h2, h3⟩, h4, h5⟩)
          · exact Or.inl (Or.inl h)
          · rcases List.mem_cons.1 h1 with h1 | h1
            · cases h1; subst h2; rw [hm] at h4; cases h4
              exact Or.inl (Or.inr ⟨h3, h5⟩)
            · exact Or.inr ⟨j, m', ⟨el', er', h1, h2, h3⟩, h4, h5⟩
    · cases h

theorem denySome_some {recs : List Modifier} {start stop off : Nat} {els : List (Nat × Nat)} {b : Builder} :
    (∃ b', denySome recs start stop off b els = some b') ↔
      ∀ el er, (el, er) ∈ els → start + el < stop ∧ off + er < 65535 ∧
        ∃ m, recs[start + el]? = some m ∧ OnlyData m := by
  induction els generalizing b with
  | nil => simp [denySome]
  | cons x t ih =>
    obtain ⟨el, er⟩ := x
    constructor
    · rintro ⟨b', h⟩
      simp only [denySome] at h
      split at h
      · rename_i hlt
        simp only [Option.bind_eq_some_iff] at h
        obtain ⟨m, hm, e, he, b1, h1, h2⟩ := h
        intro el' er' hmem
        rcases List.mem_cons.1 hmem with hmem | hmem
        · cases hmem
          exact ⟨hlt, (errId_some.1 he).1, m, hm, deny_some.1 ⟨_, h1⟩⟩
        · exact ih.1 ⟨_, h2⟩ el' er' hmem
      · cases h
    · intro h
      obtain ⟨h1, h2, m, hm, hd⟩ := h el er (by simp)
      obtain ⟨b1, hb1⟩ := (deny_some (b := b) (e := off + er)).2 hd
      obtain ⟨b2, hb2⟩ := (ih (b := b1)).2 (fun el' er' hmem => h el' er' (by simp [hmem]))
      refine ⟨b2, ?_⟩
      simp only [denySome, if_pos h1, hm, Option.bind_some, errId, if_pos h2, hb1, hb2]

theorem decide1_post {recs : List Modifier} {start stop : Nat} {d : Decisions} {b b' : Builder}
    (h : decide1 recs b start stop d = some b') :
    DenyPost recs (fun j e => Denies1 b.errors.length start stop j e d) b b' ∧
      b'.errors = b.errors ++ errorsOf d := by
  cases d with
  | grantAll => cases h; exact ⟨⟨by simp [Denies1], by simp [Denies1], rfl, rfl⟩, by simp [errorsOf]⟩
  | denyAll err =>
    simp only [decide1, Option.bind_eq_some_iff] at h
    obtain ⟨e, he, h⟩ := h
    obtain ⟨-, rfl⟩ := errId_some.1 he
    obtain ⟨a1, a2, a3, a4, a5⟩ := denyEach_post h
    refine ⟨⟨?_, ?_, a3, a4⟩, by rw [a5]; rfl⟩
    · intro f e'
      rw [a1]
      constructor
      · rintro (h | ⟨rfl, m, hm, hf⟩)
        · exact Or.inl h
        · obtain ⟨j, h1, h2, h3⟩ := mem_slice.1 hm
          exact Or.inr ⟨j, m, ⟨rfl, h1, h2⟩, h3, hf⟩
      · rintro (h | ⟨j, m, ⟨h0, h1, h2⟩, h3, hf⟩)
        · exact Or.inl h
        · exact Or.inr ⟨h0, m, mem_slice.2 ⟨j, h1, h2, h3⟩, hf⟩
    · intro e'
      rw [a2]
      constructor
      · rintro (h | ⟨rfl, m, hm, hf⟩)
        · exact Or.inl h
        · obtain ⟨j, h1, h2, h3⟩ := mem_slice.1 hm
          exact Or.inr ⟨j, m, ⟨rfl, h1, h2⟩, h3, hf⟩
      · rintro (h | ⟨j, m, ⟨h0, h1, h2⟩, h3, hf⟩)
        · exact Or.inl h
        · exact Or.inr ⟨h0, m, mem_slice.2 ⟨j, h1, h2, h3⟩, hf⟩
  | denySome els errs =>
    simp only [decide1] at h
    obtain ⟨p, p5⟩ := denySome_post h
    exact ⟨⟨p.denied, p.root, p.data, p.typ⟩, p5⟩

/-- A decision that does not make the engine panic. -/
def Fine1 (recs : List Modifier) (off start stop : Nat) : Decisions → Prop
  | .grantAll => True
  | .denyAll _ => off < 65535 ∧ ∀ j m, start ≤ j → j < stop → recs[j]? = some m → OnlyData m
  | .denySome els _ => ∀ el er, (el, er) ∈ els → start + el < stop ∧ off + er < 65535 ∧
      ∃ m, recs[start + el]? = some m ∧ OnlyData m

theorem decide1_some {recs : List Modifier} {start stop : Nat} {d : Decisions} {b : Builder} :
    (∃ b', decide1 recs b start stop d = some b') ↔ Fine1 recs b.errors.length start stop d := by
  cases d with
  | grantAll => simp [decide1, Fine1]
  | denyAll err =>
    simp only [decide1, Fine1, Option.bind_eq_some_iff]
    constructor
    · rintro ⟨b', e, he, h⟩
      refine ⟨(errId_some.1 he).1, ?_⟩
      intro j m h1 h2 h3
      exact denyEach_some.1 ⟨_, h⟩ m (mem_slice.2 ⟨j, h1, h2, h3⟩)
    · rintro ⟨h1, h2⟩
      obtain ⟨b', hb'⟩ := (denyEach_some (e := b.errors.length) (l := (recs.take stop).drop start)
        (b := { b with errors := b.errors ++ [err] })).2 (by
          intro m hm
          obtain ⟨j, a, b, c⟩ := mem_slice.1 hm
          exact h2 j m a b c)
      exact ⟨b', _, errId_some.2 ⟨h1, rfl⟩, hb'⟩
  | denySome els errs => simp only [decide1, Fine1, denySome_some]

theorem errorsOf_length (d : Decisions) : (errorsOf d).length = errorCount d := by cases d <;> rfl

theorem decideAll_post {recs : List Modifier} {ds : List (Nat × Nat × Decisions)} {b b' : Builder}
    (h : decideAll recs b ds = some b') :
    DenyPost recs (fun j e => Denies ds b.errors.length j e) b b' ∧
      b'.errors = b.errors ++ ds.flatMap (fun d => errorsOf d.2.2) := by
  induction ds generalizing b with
  | nil =>
    cases h
    refine ⟨⟨?_, ?_, rfl, rfl⟩, by simp⟩
    · intro f e; simp [Denies]
    · intro e; simp [Denies]
  | cons x t ih =>
    obtain ⟨start, stop, d⟩ := x
    simp only [decideAll, Option.bind_eq_some_iff] at h
    obtain ⟨b1, h1, h2⟩ := h
    obtain ⟨p, p5⟩ := decide1_post h1
    obtain ⟨q, q5⟩ := ih h2
    have key : ∀ j e, Denies ((start, stop, d) :: t) b.errors.length j e ↔
        Denies1 b.errors.length start stop j e d ∨ Denies t b1.errors.length j e := by
      intro j e
      have hlen : b1.errors.length = b.errors.length + errorCount d := by
        rw [p5, List.length_append, errorsOf_length]
      constructor
      · rintro ⟨before, s, s', d', after, heq, hd⟩
        cases before with
        | nil =>
          simp only [List.nil_append, List.cons.injEq, Prod.mk.injEq] at heq
          obtain ⟨⟨rfl, rfl, rfl⟩, rfl⟩ := heq
          exact Or.inl (by simpa [offset] using hd)
        | cons y before =>
          simp only [List.cons_append, List.cons.injEq] at heq
          obtain ⟨rfl, rfl⟩ := heq
          refine Or.inr ⟨before, s, s', d', after, rfl, ?_⟩
          rw [hlen, Nat.add_assoc]
          simpa [offset] using hd
      · rintro (h | ⟨before, s, s', d', after, rfl, hd⟩)
        · exact ⟨[], start, stop, d, t, rfl, by simpa [offset] using h⟩
        · refine ⟨(start, stop, d) :: before, s, s', d', after, rfl, ?_⟩
          rw [hlen, Nat.add_assoc] at hd
          simpa [offset] using hd
    refine ⟨⟨?_, ?_, q.data.trans p.data, q.typ.trans p.typ⟩, by rw [q5, p5]; simp⟩
    · intro f e
      rw [q.denied, p.denied]
      constructor
      · rintro ((h | ⟨j, m, a, b, c⟩) | ⟨j, m, a, b, c⟩)
        · exact Or.inl h
        · exact Or.inr ⟨j, m, (key j e).2 (Or.inl a), b, c⟩
        · exact Or.inr ⟨j, m, (key j e).2 (Or.inr a), b, c⟩
      · rintro (h | ⟨j, m, a, b, c⟩)
        · exact Or.inl (Or.inl h)
        · rcases (key j e).1 a with a | a
          · exact Or.inl (Or.inr ⟨j, m, a, b, c⟩)
          · exact Or.inr ⟨j, m, a, b, c⟩
    · intro e
      rw [q.root, p.root]
      constructor
      · rintro ((h | ⟨j, m, a, b, c⟩) | ⟨j, m, a, b, c⟩)
        · exact Or.inl h
        · exact Or.inr ⟨j, m, (key j e).2 (Or.inl a), b, c⟩
        · exact Or.inr ⟨j, m, (key j e).2 (Or.inr a), b, c⟩
      · rintro (h | ⟨j, m, a, b, c⟩)
        · exact Or.inl (Or.inl h)
        · rcases (key j e).1 a with a | a
          · exact Or.inl (Or.inr ⟨j, m, a, b, c⟩)
          · exact Or.inr ⟨j, m, a, b, c⟩

theorem decideAll_some {recs : List Modifier} {ds : List (Nat × Nat × Decisions)} {b : Builder} :
    (∃ b', decideAll recs b ds = some b') ↔
      ∀ before start stop d after, ds = before ++ (start, stop, d) :: after →
        Fine1 recs (b.errors.length + offset before) start stop d := by
  induction ds generalizing b with
  | nil => simp [decideAll]
  | cons x t ih =>
    obtain ⟨start, stop, d⟩ := x
    simp only [decideAll, Option.bind_eq_some_iff]
    constructor
    · rintro ⟨b', b1, h1, h2⟩ before s s' d' after heq
      have hlen : b1.errors.length = b.errors.length + errorCount d := by
        rw [(decide1_post h1).2, List.length_append, errorsOf_length]
      cases before with
      | nil =>
        simp only [List.nil_append, List.cons.injEq, Prod.mk.injEq] at heq
        obtain ⟨⟨rfl, rfl, rfl⟩, rfl⟩ := heq
        simpa [offset] using decide1_some.1 ⟨_, h1⟩
      | cons y before =>
        simp only [List.cons_append, List.cons.injEq] at heq
        obtain ⟨rfl, rfl⟩ := heq
        have := ih.1 ⟨_, h2⟩ before s s' d' after rfl
        rw [hlen, Nat.add_assoc] at this
        simpa [offset] using this
    · intro h
      obtain ⟨b1, h1⟩ := (decide1_some (b := b)).2 (by simpa [offset] using h [] start stop d t rfl)
      have hlen : b1.errors.length = b.errors.length + errorCount d := by
        rw [(decide1_post h1).2, List.length_append, errorsOf_length]
      obtain ⟨b2, h2⟩ := (ih (b := b1)).2 (by
        intro before s s' d' after heq
        have := h ((start, stop, d) :: before) s s' d' after (by rw [heq]; rfl)
        rw [hlen, Nat.add_assoc]
        simpa [offset] using this)
      exact ⟨b2, b1, h1, h2⟩

end Verif.QueryMods
