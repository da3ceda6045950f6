import Verif.FieldSets.Spec

namespace Verif.FieldSets

/-! ## Names -/

theorem find_some {α : Type} (name : α → Name) {l : List α} {n : Name} {x : α} :
    l.find? (fun y => decide (name y = n)) = some x ↔ Named name l n x := by
  rw [List.find?_eq_some_iff_append]
  unfold Named
  simp only [decide_eq_true_iff, Bool.not_eq_eq_eq_not, Bool.not_true, decide_eq_false_iff_not, ne_eq]
  constructor
  · rintro ⟨h, b, a, e, hb⟩
    exact ⟨b, a, e, h, hb⟩
  · rintro ⟨b, a, e, h, hb⟩
    exact ⟨h, b, a, e, hb⟩

theorem find_none {α : Type} (name : α → Name) {l : List α} {n : Name} :
    l.find? (fun y => decide (name y = n)) = none ↔ Absent name l n := by
  rw [List.find?_eq_none]
  unfold Absent
  simp

theorem named_unique {α : Type} {name : α → Name} {l : List α} {n : Name} {x y : α} (h : Named name l n x) (k : Named name l n y) :
    x = y := by
  have := (find_some name).mpr h
  rw [(find_some name).mpr k] at this
  exact (Option.some.inj this).symm

theorem named_not_absent {α : Type} {name : α → Name} {l : List α} {n : Name} {x : α} (h : Named name l n x) : ¬ Absent name l n := by
  intro k
  rw [← find_none, (find_some name).mpr h] at k
  cases k

theorem present {α : Type} {name : α → Name} {l : List α} {n : Name} : ¬ Absent name l n ↔ ∃ x, Named name l n x := by
  rw [← find_none]
  cases h : l.find? (fun y => decide (name y = n)) with
  | none =>
    simp only [not_true_eq_false, false_iff]
    rintro ⟨x, hx⟩
    rw [(find_some name).mpr hx] at h
    cases h
  | some x => exact ⟨fun _ => ⟨x, (find_some name).mp h⟩, fun _ h => by cases h⟩

theorem named_name {α : Type} {name : α → Name} {l : List α} {n : Name} {x : α} (h : Named name l n x) : name x = n := by
  obtain ⟨_, _, _, h, _⟩ := h
  exact h

theorem sfind {s : Schema} {n : Name} {d : Definition} : s.find n = some d ↔ Named (·.name) s n d := find_some _
theorem sfind_none {s : Schema} {n : Name} : s.find n = none ↔ Absent (·.name) s n := find_none _
theorem ffind {d : Definition} {n : Name} {f : Field} : d.field n = some f ↔ Named (·.name) d.fields n f := find_some _
theorem ffind_none {d : Definition} {n : Name} : d.field n = none ↔ Absent (·.name) d.fields n := find_none _
theorem afind {f : Field} {n : Name} {a : Arg} : f.arg n = some a ↔ Named (·.name) f.args n a := find_some _
theorem afind_none {f : Field} {n : Name} : f.arg n = none ↔ Absent (·.name) f.args n := find_none _

theorem core_iff (t : Ty) (n : Name) : Core t n ↔ t.name = n := by
  induction t with
  | named m r =>
    constructor
    · intro h; cases h; rfl
    · rintro rfl; exact .named
  | list t r ih =>
    constructor
    · intro h
      cases h with
      | list h => exact ih.mp h
    · intro h
      exact .list (ih.mpr h)

/-! ## Arguments -/

mutual
theorem matches_iff (s : Schema) (t : Ty) : ∀ v : Value, matchesType s t v = true ↔ Taken s t v
  | .string x => by
    rw [matchesType, decide_eq_true_iff, ← core_iff]
    exact ⟨.string, fun h => by cases h; assumption⟩
  | .int x => by
    rw [matchesType, decide_eq_true_iff, ← core_iff]
    exact ⟨.int, fun h => by cases h; assumption⟩
  | .float x => by
    rw [matchesType, decide_eq_true_iff, ← core_iff]
    exact ⟨.float, fun h => by cases h; assumption⟩
  | .boolean x => by
    rw [matchesType, decide_eq_true_iff, ← core_iff]
    exact ⟨.boolean, fun h => by cases h; assumption⟩
  | .enum v => by
    rw [matchesType]
    cases hf : s.find t.name with
    | none =>
      simp only [Bool.false_eq_true, false_iff]
      intro h
      cases h with
      | enum hc hn _ =>
        rw [core_iff] at hc
        subst hc
        have := sfind.mpr hn
        rw [hf] at this
        cases this
    | some d =>
      have hn := sfind.mp hf
      simp only [List.contains_iff_mem]
      constructor
      · intro h
        exact .enum ((core_iff _ _).mpr rfl) hn h
      · intro h
        cases h with
        | enum hc hn' hm =>
          rw [core_iff] at hc
          subst hc
          rw [named_unique hn hn']
          exact hm
  | .object fs => by
    rw [matchesType]
    cases hf : s.find t.name with
    | none =>
      simp only [Bool.false_eq_true, false_iff]
      intro h
      cases h with
      | object hc hn _ _ =>
        rw [core_iff] at hc
        subst hc
        have := sfind.mpr hn
        rw [hf] at this
        cases this
    | some d =>
      have hn := sfind.mp hf
      simp only
      rw [fields_iff s d fs]
      constructor
      · intro h
        exact .object ((core_iff _ _).mpr rfl) hn
          (fun x hx => let ⟨f, h1, _⟩ := h x hx; named_not_absent h1)
          (fun x hx f hf => let ⟨f', h1, h2⟩ := h x hx; named_unique h1 hf ▸ h2)
      · intro h
        cases h with
        | object hc hn' hm hv =>
          rw [core_iff] at hc
          subst hc
          rw [named_unique hn hn']
          intro x hx
          obtain ⟨f, hf⟩ := present.mp (hm x hx)
          exact ⟨f, hf, hv x hx f hf⟩
  | .list vs => by
    rw [matchesType, Bool.and_eq_true, items_iff s t vs]
    constructor
    · rintro ⟨h, hv⟩
      cases t with
      | named n r => cases h
      | list t r => exact .list hv
    · intro h
      cases h with
      | list hv => exact ⟨rfl, hv⟩
  | .null => by
    rw [matchesType]
    simp only [Bool.false_eq_true, false_iff]
    intro h
    cases h

theorem fields_iff (s : Schema) (d : Definition) : ∀ fs : List (Name × Value), matchesFields s d fs = true ↔
    ∀ x ∈ fs, ∃ f, Named (·.name) d.fields x.1 f ∧ Taken s f.type x.2
  | [] => by simp [matchesFields]
  | (n, v) :: fs => by
    rw [matchesFields, Bool.and_eq_true, fields_iff s d fs]
    simp only [List.mem_cons, forall_eq_or_imp]
    refine and_congr_left (fun _ => ?_)
    cases hf : d.field n with
    | none =>
      simp only [Bool.false_eq_true, false_iff]
      rintro ⟨f, hn, _⟩
      have := ffind.mpr hn
      rw [hf] at this
      cases this
    | some f =>
      have hn := ffind.mp hf
      simp only
      rw [matches_iff s f.type v]
      constructor
      · intro h
        exact ⟨f, hn, h⟩
      · rintro ⟨f', hn', h⟩
        rw [named_unique hn hn']
        exact h

theorem items_iff (s : Schema) (t : Ty) : ∀ vs : List Value, matchesItems s t vs = true ↔ ∀ v ∈ vs, Taken s t v
  | [] => by simp [matchesItems]
  | v :: vs => by
    rw [matchesItems, Bool.and_eq_true, items_iff s t vs, matches_iff s t v]
    simp
end

theorem argsTaken_cons {s : Schema} {f : Field} {n : Name} {v : Value} {args : List (Name × Value)} :
    ArgsTaken s f ((n, v) :: args) ↔ (∃ a, Named (·.name) f.args n a ∧ Taken s a.type v) ∧ ArgsTaken s f args := by
  unfold ArgsTaken
  simp

/-- The first argument which is wrong. -/
inductive FirstWrong (s : Schema) (t : Name) (f : Field) : List (Name × Value) → Diag → Prop where
  | noArg {k : Name} {v : Value} {before after : List (Name × Value)} : ArgsTaken s f before → Absent (·.name) f.args k →
      FirstWrong s t f (before ++ (k, v) :: after) (.noArg t f.name k)
  | badArg {k : Name} {v : Value} {before after : List (Name × Value)} {a : Arg} : ArgsTaken s f before →
      Named (·.name) f.args k a → ¬ Taken s a.type v → FirstWrong s t f (before ++ (k, v) :: after) (.badArg t f.name k)

theorem wrongArg_none (s : Schema) (t : Name) (f : Field) : ∀ args, wrongArg s t f args = none ↔ ArgsTaken s f args
  | [] => by simp [wrongArg, ArgsTaken]
  | (n, v) :: args => by
    rw [wrongArg, argsTaken_cons]
    cases ha : f.arg n with
    | none =>
      have := afind_none.mp ha
      simp only [reduceCtorEq, false_iff]
      rintro ⟨⟨a, hn, _⟩, _⟩
      exact named_not_absent hn this
    | some a =>
      have hn := afind.mp ha
      simp only
      by_cases hm : matchesType s a.type v = true
      · rw [if_pos hm, wrongArg_none s t f args]
        exact ⟨fun h => ⟨⟨a, hn, (matches_iff _ _ _).mp hm⟩, h⟩, fun h => h.2⟩
      · rw [if_neg hm]
        simp only [reduceCtorEq, false_iff]
        rintro ⟨⟨a', hn', h⟩, _⟩
        rw [named_unique hn' hn] at h
        exact hm ((matches_iff _ _ _).mpr h)

theorem wrongArg_some (s : Schema) (t : Name) (f : Field) (x : Diag) : ∀ args, wrongArg s t f args = some x ↔
    FirstWrong s t f args x
  | [] => by
    simp only [wrongArg, reduceCtorEq, false_iff]
    intro h
    generalize hl : ([] : List (Name × Value)) = l at h
    cases h <;> simp at hl
  | (n, v) :: args => by
    rw [wrongArg]
    have split : ∀ {x : Diag}, FirstWrong s t f ((n, v) :: args) x →
        (Absent (·.name) f.args n ∧ x = .noArg t f.name n) ∨
        (∃ a, Named (·.name) f.args n a ∧ ¬ Taken s a.type v ∧ x = .badArg t f.name n) ∨
        (∃ a, Named (·.name) f.args n a ∧ Taken s a.type v ∧ FirstWrong s t f args x) := by
      intro x h
      generalize hl : (n, v) :: args = l at h
      cases h with
      | @noArg k w before after hb ha =>
        cases before with
        | nil =>
          simp only [List.nil_append, List.cons.injEq, Prod.mk.injEq] at hl
          obtain ⟨⟨rfl, rfl⟩, rfl⟩ := hl
          exact Or.inl ⟨ha, rfl⟩
        | cons y before =>
          simp only [List.cons_append, List.cons.injEq] at hl
          obtain ⟨rfl, rfl⟩ := hl
          obtain ⟨⟨a, h1, h2⟩, h3⟩ := argsTaken_cons.mp hb
          exact Or.inr (Or.inr ⟨a, h1, h2, .noArg h3 ha⟩)
      | @badArg k w before after a hb ha hv =>
        cases before with
        | nil =>
          simp only [List.nil_append, List.cons.injEq, Prod.mk.injEq] at hl
          obtain ⟨⟨rfl, rfl⟩, rfl⟩ := hl
          exact Or.inr (Or.inl ⟨a, ha, hv, rfl⟩)
        | cons y before =>
          simp only [List.cons_append, List.cons.injEq] at hl
          obtain ⟨rfl, rfl⟩ := hl
          obtain ⟨⟨a', h1, h2⟩, h3⟩ := argsTaken_cons.mp hb
          exact Or.inr (Or.inr ⟨a', h1, h2, .badArg h3 ha hv⟩)
    have more : ∀ {x : Diag} {a : Arg}, Named (·.name) f.args n a → Taken s a.type v → FirstWrong s t f args x →
        FirstWrong s t f ((n, v) :: args) x := by
      intro x a hn hv h
      cases h with
      | noArg hb ha => exact .noArg (before := (n, v) :: _) (argsTaken_cons.mpr ⟨⟨a, hn, hv⟩, hb⟩) ha
      | badArg hb ha hw => exact .badArg (before := (n, v) :: _) (argsTaken_cons.mpr ⟨⟨a, hn, hv⟩, hb⟩) ha hw
    cases ha : f.arg n with
    | none =>
      have hab := afind_none.mp ha
      simp only [Option.some.injEq]
      constructor
      · rintro rfl
        exact .noArg (before := []) (by simp [ArgsTaken]) hab
      · intro h
        rcases split h with ⟨_, rfl⟩ | ⟨a, hn, _⟩ | ⟨a, hn, _⟩
        · rfl
        · exact absurd hab (named_not_absent hn)
        · exact absurd hab (named_not_absent hn)
    | some a =>
      have hn := afind.mp ha
      simp only
      by_cases hm : matchesType s a.type v = true
      · rw [if_pos hm, wrongArg_some s t f x args]
        constructor
        · exact more hn ((matches_iff _ _ _).mp hm)
        · intro h
          rcases split h with ⟨hab, rfl⟩ | ⟨a', hn', hw, _⟩ | ⟨_, _, _, h⟩
          · exact absurd hab (named_not_absent hn)
          · rw [named_unique hn' hn] at hw
            exact absurd ((matches_iff _ _ _).mp hm) hw
          · exact h
      · rw [if_neg hm]
        simp only [Option.some.injEq]
        constructor
        · rintro rfl
          exact .badArg (before := []) (by simp [ArgsTaken]) hn (fun h => hm ((matches_iff _ _ _).mpr h))
        · intro h
          rcases split h with ⟨hab, rfl⟩ | ⟨a', hn', hw, rfl⟩ | ⟨a', hn', hw, _⟩
          · exact absurd hab (named_not_absent hn)
          · rfl
          · rw [named_unique hn' hn] at hw
            exact absurd ((matches_iff _ _ _).mpr hw) hm

theorem nonNull_iff (t : Ty) : t.isRequired = true ↔ NonNull t := by
  cases t with
  | named n r =>
    constructor
    · intro h; cases h; exact .named
    · intro h; cases h; rfl
  | list t r =>
    constructor
    · intro h; cases h; exact .list
    · intro h; cases h; rfl

theorem missing_mem (t : Name) (f : Field) (args : List (Name × Value)) (x : Diag) : x ∈ missingArgs t f args ↔
    ∃ a ∈ f.args, NonNull a.type ∧ a.hasDefault = false ∧ (∀ y ∈ args, y.1 ≠ a.name) ∧ x = .missing t f.name a.name := by
  unfold missingArgs
  simp only [List.mem_map, List.mem_filter, Bool.and_eq_true, Bool.not_eq_true', List.all_eq_true, decide_eq_true_iff, nonNull_iff]
  constructor
  · rintro ⟨a, ⟨⟨h1, h2, h3⟩, h4⟩, rfl⟩
    exact ⟨a, h1, h2, h3, h4, rfl⟩
  · rintro ⟨a, h1, h2, h3, h4, rfl⟩
    exact ⟨a, ⟨⟨h1, h2, h3⟩, h4⟩, rfl⟩

/-! ## Selections -/

theorem andThen_none (a b : Option (List Diag)) : andThen a b = none ↔ a = none ∨ ∃ x, a = some x ∧ b = none := by
  cases a <;> cases b <;> simp [andThen]

theorem andThen_some (a b : Option (List Diag)) (r : List Diag) : andThen a b = some r ↔
    ∃ x y, a = some x ∧ b = some y ∧ r = x ++ y := by
  cases a <;> cases b <;> simp [andThen, eq_comm]

/-- What is wrong with a selection itself, for one whose field is known. -/
theorem wrong_field {s : Schema} {d : Definition} {n : Name} {args : List (Name × Value)} {sub : List Selection} {b : Bool} {f : Field}
    (hn : n ≠ "__typename") (hf : Named (·.name) d.fields n f) (x : Diag) : Wrong s d (.field n args sub b) x ↔
      x ∈ missingArgs d.name f args ∨ FirstWrong s d.name f args x := by
  have hname : f.name = n := named_name hf
  constructor
  · intro h
    cases h with
    | typenameArgs _ => exact absurd rfl hn
    | typenameSub _ => exact absurd rfl hn
    | noField _ ha => exact absurd ha (named_not_absent hf)
    | missing _ hf' h1 h2 h3 h4 =>
      rw [named_unique hf' hf] at h1
      exact Or.inl ((missing_mem _ _ _ _).mpr ⟨_, h1, h2, h3, h4, by rw [hname]⟩)
    | noArg _ hf' h1 h2 =>
      rw [named_unique hf' hf] at h1 h2
      right
      rw [← hname]
      exact .noArg h1 h2
    | badArg _ hf' h1 h2 h3 =>
      rw [named_unique hf' hf] at h1 h2
      right
      rw [← hname]
      exact .badArg h1 h2 h3
  · rintro (h | h)
    · obtain ⟨a, h1, h2, h3, h4, rfl⟩ := (missing_mem _ _ _ _).mp h
      rw [hname]
      exact .missing hn hf h1 h2 h3 h4
    · cases h with
      | noArg h1 h2 => rw [hname]; exact .noArg hn hf h1 h2
      | badArg h1 h2 h3 => rw [hname]; exact .badArg hn hf h1 h2 h3

theorem firstWrong_not_taken {s : Schema} {t : Name} {f : Field} {args : List (Name × Value)} {x : Diag}
    (h : FirstWrong s t f args x) : ¬ ArgsTaken s f args := by
  intro k
  have := (wrongArg_some s t f x args).mpr h
  rw [(wrongArg_none s t f args).mpr k] at this
  cases this

/-- A selection looked at in one of several is looked at in one of them. -/
theorem seen_split {s : Schema} {d e : Definition} {xs : List Selection} {y : Selection} (h : Seen s d xs e y) :
    ∃ x ∈ xs, Seen s d [x] e y := by
  cases h with
  | here hx => exact ⟨y, hx, .here (List.mem_singleton.mpr rfl)⟩
  | field hx h1 h2 h3 h4 h5 h6 => exact ⟨_, hx, .field (List.mem_singleton.mpr rfl) h1 h2 h3 h4 h5 h6⟩
  | fragment hx h1 h2 => exact ⟨_, hx, .fragment (List.mem_singleton.mpr rfl) h1 h2⟩

theorem seen_join {s : Schema} {d e : Definition} {xs : List Selection} {x y : Selection} (hx : x ∈ xs) (h : Seen s d [x] e y) :
    Seen s d xs e y := by
  cases h with
  | here hy => rw [List.mem_singleton.mp hy]; exact .here hx
  | field hy h1 h2 h3 h4 h5 h6 => rw [← List.mem_singleton.mp hy] at hx; exact .field hx h1 h2 h3 h4 h5 h6
  | fragment hy h1 h2 => rw [← List.mem_singleton.mp hy] at hx; exact .fragment hx h1 h2

/-- The answer is that of a specification: a panic for a lost selection, else all mistakes. -/
def Right (s : Schema) (d : Definition) (xs : List Selection) (r : Option (List Diag)) : Prop :=
  (r = none ↔ ∃ e y, Seen s d xs e y ∧ Lost s e y) ∧
  ∀ l, r = some l → ∀ x, x ∈ l ↔ ∃ e y, Seen s d xs e y ∧ Wrong s e y x

theorem right_cons {s : Schema} {d : Definition} {x : Selection} {xs : List Selection} {r r' : Option (List Diag)}
    (h : Right s d [x] r) (h' : Right s d xs r') : Right s d (x :: xs) (andThen r r') := by
  constructor
  · rw [andThen_none]
    constructor
    · rintro (hr | ⟨_, _, hr⟩)
      · obtain ⟨e, y, h1, h2⟩ := h.1.mp hr
        exact ⟨e, y, seen_join List.mem_cons_self h1, h2⟩
      · obtain ⟨e, y, h1, h2⟩ := h'.1.mp hr
        obtain ⟨z, hz, h1⟩ := seen_split h1
        exact ⟨e, y, seen_join (List.mem_cons_of_mem _ hz) h1, h2⟩
    · rintro ⟨e, y, h1, h2⟩
      obtain ⟨z, hz, h3⟩ := seen_split h1
      clear h1
      rcases List.mem_cons.mp hz with rfl | hz
      · exact Or.inl (h.1.mpr ⟨e, y, h3, h2⟩)
      · cases hr : r with
        | none => exact Or.inl rfl
        | some l => exact Or.inr ⟨l, rfl, h'.1.mpr ⟨e, y, seen_join hz h3, h2⟩⟩
  · intro l hl w
    obtain ⟨a, b, ha, hb, rfl⟩ := (andThen_some _ _ _).mp hl
    rw [List.mem_append, h.2 a ha w, h'.2 b hb w]
    constructor
    · rintro (⟨e, y, h1, h2⟩ | ⟨e, y, h1, h2⟩)
      · exact ⟨e, y, seen_join List.mem_cons_self h1, h2⟩
      · obtain ⟨z, hz, h1⟩ := seen_split h1
        exact ⟨e, y, seen_join (List.mem_cons_of_mem _ hz) h1, h2⟩
    · rintro ⟨e, y, h1, h2⟩
      obtain ⟨z, hz, h3⟩ := seen_split h1
      clear h1
      rcases List.mem_cons.mp hz with rfl | hz
      · exact Or.inl ⟨e, y, h3, h2⟩
      · exact Or.inr ⟨e, y, seen_join hz h3, h2⟩

/-- Nothing more is looked at: what is reported is what is wrong here. -/
theorem right_here {s : Schema} {d : Definition} {x : Selection} {l : List Diag} (hseen : ∀ e y, Seen s d [x] e y → e = d ∧ y = x)
    (hlost : ¬ Lost s d x) (hw : ∀ w, w ∈ l ↔ Wrong s d x w) : Right s d [x] (some l) := by
  constructor
  · simp only [reduceCtorEq, false_iff]
    rintro ⟨e, y, h1, h2⟩
    obtain ⟨rfl, rfl⟩ := hseen e y h1
    exact hlost h2
  · intro l' hl w
    cases hl
    rw [hw]
    constructor
    · intro h
      exact ⟨d, x, .here (List.mem_singleton.mpr rfl), h⟩
    · rintro ⟨e, y, h1, h2⟩
      obtain ⟨rfl, rfl⟩ := hseen e y h1
      exact h2

mutual
theorem validate_right (s : Schema) (d : Definition) : ∀ x : Selection, Right s d [x] (validate s d x)
  | .field n args sub b => by
    rw [validate]
    by_cases hn : n = "__typename"
    · rw [if_pos hn]
      subst hn
      apply right_here
      · intro e y h
        cases h with
        | here h => exact ⟨rfl, List.mem_singleton.mp h⟩
        | field h hne =>
          have := List.mem_singleton.mp h
          injection this with h1
          exact absurd h1 hne
        | fragment h => cases List.mem_singleton.mp h
      · rintro ⟨n, args, sub, b, f, c, h, hne, _⟩
        injection h with h1
        exact hne h1.symm
      · intro w
        unfold typename
        cases args with
        | nil =>
          cases sub with
          | nil =>
            simp only [List.isEmpty_nil, Bool.true_eq_false, if_false, List.not_mem_nil, false_iff]
            intro h
            generalize he : Selection.field "__typename" [] [] b = z at h
            cases h with
            | typenameArgs h => injection he with _ h1; exact h h1.symm
            | typenameSub h => injection he with _ _ h1; exact h h1.symm
            | noField h => injection he with h1; exact h h1.symm
            | missing h => injection he with h1; exact h h1.symm
            | noArg h => injection he with h1; exact h h1.symm
            | badArg h => injection he with h1; exact h h1.symm
            | badCondition => cases he
          | cons z zs =>
            simp only [List.isEmpty_nil, Bool.true_eq_false, if_false, List.isEmpty_cons, if_true, List.mem_singleton]
            constructor
            · rintro rfl
              exact .typenameSub (by simp)
            · intro h
              generalize he : Selection.field "__typename" [] (z :: zs) b = y at h
              cases h with
              | typenameArgs h => injection he with _ h1; exact absurd h1.symm h
              | typenameSub h => rfl
              | noField h => injection he with h1; exact absurd h1.symm h
              | missing h => injection he with h1; exact absurd h1.symm h
              | noArg h => injection he with h1; exact absurd h1.symm h
              | badArg h => injection he with h1; exact absurd h1.symm h
              | badCondition => cases he
        | cons a as =>
          simp only [List.isEmpty_cons, if_true, List.mem_singleton]
          constructor
          · rintro rfl
            exact .typenameArgs (by simp)
          · intro h
            generalize he : Selection.field "__typename" (a :: as) sub b = y at h
            cases h with
            | typenameArgs h => rfl
            | typenameSub h => injection he with _ h1; cases h1
            | noField h => injection he with h1; exact absurd h1.symm h
            | missing h => injection he with h1; exact absurd h1.symm h
            | noArg h => injection he with h1; exact absurd h1.symm h
            | badArg h => injection he with h1; exact absurd h1.symm h
            | badCondition => cases he
    · rw [if_neg hn]
      cases hf : d.field n with
      | none =>
        have hab := ffind_none.mp hf
        simp only
        apply right_here
        · intro e y h
          cases h with
          | here h => exact ⟨rfl, List.mem_singleton.mp h⟩
          | field h _ hf' =>
            have := List.mem_singleton.mp h
            injection this with h1
            subst h1
            exact absurd hab (named_not_absent hf')
          | fragment h => cases List.mem_singleton.mp h
        · rintro ⟨n, args, sub, b, f, c, h, _, hf', _⟩
          injection h with h1
          subst h1
          exact absurd hab (named_not_absent hf')
        · intro w
          rw [List.mem_singleton]
          constructor
          · rintro rfl
            exact .noField hn hab
          · intro h
            cases h with
            | typenameArgs _ => exact absurd rfl hn
            | typenameSub _ => exact absurd rfl hn
            | noField _ _ => rfl
            | missing _ hf' => exact absurd hab (named_not_absent hf')
            | noArg _ hf' => exact absurd hab (named_not_absent hf')
            | badArg _ hf' => exact absurd hab (named_not_absent hf')
      | some f =>
        have hnf := ffind.mp hf
        simp only
        cases hw : wrongArg s d.name f args with
        | some x =>
          have hx := (wrongArg_some s d.name f x args).mp hw
          have hnt := firstWrong_not_taken hx
          simp only
          apply right_here
          · intro e y h
            cases h with
            | here h => exact ⟨rfl, List.mem_singleton.mp h⟩
            | field h _ hf' ht =>
              have := List.mem_singleton.mp h
              injection this with h1 h2
              subst h1 h2
              rw [named_unique hf' hnf] at ht
              exact absurd ht hnt
            | fragment h => cases List.mem_singleton.mp h
          · rintro ⟨n, args, sub, b, f, c, h, _, hf', ht, _⟩
            injection h with h1 h2
            subst h1 h2
            rw [named_unique hf' hnf] at ht
            exact absurd ht hnt
          · intro w
            rw [wrong_field hn hnf, List.mem_append, List.mem_singleton]
            refine or_congr_right ⟨?_, ?_⟩
            · rintro rfl
              exact hx
            · intro h
              have := (wrongArg_some s d.name f w args).mpr h
              rw [hw] at this
              exact (Option.some.inj this).symm
        | none =>
          have ht := (wrongArg_none s d.name f args).mp hw
          simp only
          by_cases hs : sub.isEmpty = true
          · rw [if_pos hs]
            have hs' : sub = [] := by simpa using hs
            subst hs'
            apply right_here
            · intro e y h
              cases h with
              | here h => exact ⟨rfl, List.mem_singleton.mp h⟩
              | field h _ _ _ _ _ h6 =>
                have := List.mem_singleton.mp h
                injection this with _ _ h1
                subst h1
                obtain ⟨z, hz, _⟩ := seen_split h6
                cases hz
              | fragment h => cases List.mem_singleton.mp h
            · rintro ⟨n, args, sub, b, f, c, h, _, _, _, hne, _⟩
              injection h with _ _ h1
              exact hne h1.symm
            · intro w
              rw [wrong_field hn hnf]
              constructor
              · exact Or.inl
              · rintro (h | h)
                · exact h
                · exact absurd ht (firstWrong_not_taken h)
          · rw [if_neg hs]
            have hs' : sub ≠ [] := by simpa using hs
            cases ht' : s.find f.type.name with
            | none =>
              have hab := sfind_none.mp ht'
              simp only
              constructor
              · simp only [true_iff]
                exact ⟨d, _, .here (List.mem_singleton.mpr rfl), n, args, sub, b, f, f.type.name, rfl, hn, hnf, ht, hs',
                  (core_iff _ _).mpr rfl, hab⟩
              · intro l h
                cases h
            | some t =>
              have hnt := sfind.mp ht'
              have ih := validateAll_right s t sub
              simp only
              have hseen : ∀ e y, Seen s d [.field n args sub b] e y ↔ (e = d ∧ y = .field n args sub b) ∨ Seen s t sub e y := by
                intro e y
                constructor
                · intro h
                  cases h with
                  | here h => exact Or.inl ⟨rfl, List.mem_singleton.mp h⟩
                  | field h _ hf' _ hc hnt' h6 =>
                    have := List.mem_singleton.mp h
                    injection this with h1 h2 h3
                    subst h1 h2 h3
                    rw [named_unique hf' hnf, core_iff] at hc
                    subst hc
                    rw [named_unique hnt' hnt] at h6
                    exact Or.inr h6
                  | fragment h => cases List.mem_singleton.mp h
                · rintro (⟨rfl, rfl⟩ | h)
                  · exact .here (List.mem_singleton.mpr rfl)
                  · exact .field (List.mem_singleton.mpr rfl) hn hnf ht ((core_iff _ _).mpr rfl) hnt h
              have hlost : ¬ Lost s d (.field n args sub b) := by
                rintro ⟨n', args', sub', b', f', c', h, _, hf', _, _, hc, hab⟩
                injection h with h1
                subst h1
                rw [named_unique hf' hnf, core_iff] at hc
                subst hc
                exact named_not_absent hnt hab
              constructor
              · rw [andThen_none]
                simp only [reduceCtorEq, false_or, Option.some.injEq, exists_eq_left']
                rw [ih.1]
                constructor
                · rintro ⟨e, y, h1, h2⟩
                  exact ⟨e, y, (hseen e y).mpr (Or.inr h1), h2⟩
                · rintro ⟨e, y, h1, h2⟩
                  rcases (hseen e y).mp h1 with ⟨rfl, rfl⟩ | h1
                  · exact absurd h2 hlost
                  · exact ⟨e, y, h1, h2⟩
              · intro l hl w
                obtain ⟨a, c, ha, hb, rfl⟩ := (andThen_some _ _ _).mp hl
                cases ha
                rw [List.mem_append, ih.2 c hb w]
                constructor
                · rintro (h | ⟨e, y, h1, h2⟩)
                  · exact ⟨d, _, .here (List.mem_singleton.mpr rfl), (wrong_field hn hnf w).mpr (Or.inl h)⟩
                  · exact ⟨e, y, (hseen e y).mpr (Or.inr h1), h2⟩
                · rintro ⟨e, y, h1, h2⟩
                  rcases (hseen e y).mp h1 with ⟨rfl, rfl⟩ | h1
                  · rcases (wrong_field hn hnf w).mp h2 with h | h
                    · exact Or.inl h
                    · exact absurd ht (firstWrong_not_taken h)
                  · exact Or.inr ⟨e, y, h1, h2⟩
  | .fragment on sub b => by
    rw [validate]
    cases ht : s.find on with
    | none =>
      have hab := sfind_none.mp ht
      simp only
      apply right_here
      · intro e y h
        cases h with
        | here h => exact ⟨rfl, List.mem_singleton.mp h⟩
        | field h => cases List.mem_singleton.mp h
        | fragment h hn =>
          have := List.mem_singleton.mp h
          injection this with h1
          subst h1
          exact absurd hab (named_not_absent hn)
      · rintro ⟨n, args, sub, b, f, c, h, _⟩
        cases h
      · intro w
        rw [List.mem_singleton]
        constructor
        · rintro rfl
          exact .badCondition hab
        · intro h
          cases h
          rfl
    | some t =>
      have hnt := sfind.mp ht
      have ih := validateAll_right s t sub
      simp only
      have hseen : ∀ e y, Seen s d [.fragment on sub b] e y ↔ (e = d ∧ y = .fragment on sub b) ∨ Seen s t sub e y := by
        intro e y
        constructor
        · intro h
          cases h with
          | here h => exact Or.inl ⟨rfl, List.mem_singleton.mp h⟩
          | field h => cases List.mem_singleton.mp h
          | fragment h hn h6 =>
            have := List.mem_singleton.mp h
            injection this with h1 h2
            subst h1 h2
            rw [named_unique hn hnt] at h6
            exact Or.inr h6
        · rintro (⟨rfl, rfl⟩ | h)
          · exact .here (List.mem_singleton.mpr rfl)
          · exact .fragment (List.mem_singleton.mpr rfl) hnt h
      constructor
      · rw [ih.1]
        constructor
        · rintro ⟨e, y, h1, h2⟩
          exact ⟨e, y, (hseen e y).mpr (Or.inr h1), h2⟩
        · rintro ⟨e, y, h1, h2⟩
          rcases (hseen e y).mp h1 with ⟨rfl, rfl⟩ | h1
          · obtain ⟨n, args, sub, b, f, c, h, _⟩ := h2
            cases h
          · exact ⟨e, y, h1, h2⟩
      · intro l hl w
        rw [ih.2 l hl w]
        constructor
        · rintro ⟨e, y, h1, h2⟩
          exact ⟨e, y, (hseen e y).mpr (Or.inr h1), h2⟩
        · rintro ⟨e, y, h1, h2⟩
          rcases (hseen e y).mp h1 with ⟨rfl, rfl⟩ | h1
          · cases h2 with
            | badCondition hab => exact absurd hab (named_not_absent hnt)
          · exact ⟨e, y, h1, h2⟩

theorem validateAll_right (s : Schema) (d : Definition) : ∀ xs : List Selection, Right s d xs (validateAll s d xs)
  | [] => by
    rw [validateAll]
    constructor
    · simp only [reduceCtorEq, false_iff]
      rintro ⟨e, y, h, _⟩
      obtain ⟨z, hz, _⟩ := seen_split h
      cases hz
    · intro l hl w
      cases hl
      simp only [List.not_mem_nil, false_iff]
      rintro ⟨e, y, h, _⟩
      obtain ⟨z, hz, _⟩ := seen_split h
      cases hz
  | x :: xs => by
    rw [validateAll]
    exact right_cons (validate_right s d x) (validateAll_right s d xs)
end

/-! ## Directives in `@provides` -/

theorem within_split {xs : List Selection} {y : Selection} (h : Within xs y) : ∃ x ∈ xs, Within [x] y := by
  cases h with
  | here hx => exact ⟨y, hx, .here (List.mem_singleton.mpr rfl)⟩
  | field hx h => exact ⟨_, hx, .field (List.mem_singleton.mpr rfl) h⟩
  | fragment hx h => exact ⟨_, hx, .fragment (List.mem_singleton.mpr rfl) h⟩

theorem within_join {xs : List Selection} {x y : Selection} (hx : x ∈ xs) (h : Within [x] y) : Within xs y := by
  cases h with
  | here hy => rw [List.mem_singleton.mp hy]; exact .here hx
  | field hy h => rw [← List.mem_singleton.mp hy] at hx; exact .field hx h
  | fragment hy h => rw [← List.mem_singleton.mp hy] at hx; exact .fragment hx h

mutual
theorem provided_iff : ∀ (x : Selection) (w : Diag), w ∈ provided x ↔ w = .directives ∧ ∃ y, Within [x] y ∧ HasDirectives y
  | .field n args sub b, w => by
    rw [provided]
    cases b with
    | true =>
      simp only [if_true, List.mem_singleton]
      exact ⟨fun h => ⟨h, _, .here (List.mem_singleton.mpr rfl), rfl⟩, fun h => h.1⟩
    | false =>
      simp only [Bool.false_eq_true, if_false]
      rw [providedAll_iff sub w]
      refine and_congr_right (fun _ => ⟨?_, ?_⟩)
      · rintro ⟨y, h1, h2⟩
        exact ⟨y, .field (List.mem_singleton.mpr rfl) h1, h2⟩
      · rintro ⟨y, h1, h2⟩
        cases h1 with
        | here h => rw [List.mem_singleton.mp h] at h2; cases h2
        | field h h1 =>
          have := List.mem_singleton.mp h
          injection this with _ _ e
          subst e
          exact ⟨y, h1, h2⟩
        | fragment h => cases List.mem_singleton.mp h
  | .fragment n sub b, w => by
    rw [provided]
    cases b with
    | true =>
      simp only [if_true, List.mem_singleton]
      exact ⟨fun h => ⟨h, _, .here (List.mem_singleton.mpr rfl), rfl⟩, fun h => h.1⟩
    | false =>
      simp only [Bool.false_eq_true, if_false]
      rw [providedAll_iff sub w]
      refine and_congr_right (fun _ => ⟨?_, ?_⟩)
      · rintro ⟨y, h1, h2⟩
        exact ⟨y, .fragment (List.mem_singleton.mpr rfl) h1, h2⟩
      · rintro ⟨y, h1, h2⟩
        cases h1 with
        | here h => rw [List.mem_singleton.mp h] at h2; cases h2
        | field h h1 => cases List.mem_singleton.mp h
        | fragment h h1 =>
          have := List.mem_singleton.mp h
          injection this with _ e
          subst e
          exact ⟨y, h1, h2⟩

theorem providedAll_iff : ∀ (xs : List Selection) (w : Diag), w ∈ providedAll xs ↔
    w = .directives ∧ ∃ y, Within xs y ∧ HasDirectives y
  | [], w => by
    simp only [providedAll, List.not_mem_nil, false_iff]
    rintro ⟨_, y, h, _⟩
    obtain ⟨z, hz, _⟩ := within_split h
    cases hz
  | x :: xs, w => by
    rw [providedAll, List.mem_append, provided_iff x w, providedAll_iff xs w]
    constructor
    · rintro (⟨h, y, h1, h2⟩ | ⟨h, y, h1, h2⟩)
      · exact ⟨h, y, within_join List.mem_cons_self h1, h2⟩
      · obtain ⟨z, hz, h1⟩ := within_split h1
        exact ⟨h, y, within_join (List.mem_cons_of_mem _ hz) h1, h2⟩
    · rintro ⟨h, y, h1, h2⟩
      obtain ⟨z, hz, h3⟩ := within_split h1
      clear h1
      rcases List.mem_cons.mp hz with rfl | hz
      · exact Or.inl ⟨h, y, h3, h2⟩
      · exact Or.inr ⟨h, y, within_join hz h3, h2⟩
end

/-! ## Valid selections -/

theorem exact_taken {s : Schema} : ∀ {t : Ty} {v : Value}, Exact s t v → ∀ t' : Ty, t'.name = t.name →
    (t.isList = true → t'.isList = true) → Taken s t' v := by
  intro t v h
  induction h with
  | string => exact fun t' h _ => .string ((core_iff _ _).mpr h)
  | int => exact fun t' h _ => .int ((core_iff _ _).mpr h)
  | float => exact fun t' h _ => .float ((core_iff _ _).mpr h)
  | boolean => exact fun t' h _ => .boolean ((core_iff _ _).mpr h)
  | enum hn _ hv => exact fun t' h _ => .enum ((core_iff _ _).mpr h) hn hv
  | object hn _ hp _ ih =>
    intro t' h _
    exact .object ((core_iff _ _).mpr h) hn hp (fun x hx f hf => ih x hx f hf f.type rfl (fun h => h))
  | @list t r items hi ih =>
    intro t' h hl
    cases t' with
    | named n r' => cases hl rfl
    | list u r' =>
      refine .list (fun v hv => ih v hv (.list u r') h (fun _ => rfl))

theorem valid_fine {s : Schema} {d : Definition} {x : Selection} (h : Valid s d x) :
    ∀ e y, Seen s d [x] e y → (∀ w, ¬ Wrong s e y w) ∧ ¬ Lost s e y := by
  induction h with
  | @typename d b =>
    intro e y h
    cases h with
    | here h =>
      rw [List.mem_singleton.mp h]
      constructor
      · intro w hw
        generalize he : Selection.field "__typename" [] [] b = z at hw
        cases hw with
        | typenameArgs h => injection he with _ h1; exact h h1.symm
        | typenameSub h => injection he with _ _ h1; exact h h1.symm
        | noField h => injection he with h1; exact h h1.symm
        | missing h => injection he with h1; exact h h1.symm
        | noArg h => injection he with h1; exact h h1.symm
        | badArg h => injection he with h1; exact h h1.symm
        | badCondition => cases he
      · rintro ⟨n, args, sub, b, f, c, h, hne, _⟩
        injection h with h1
        exact hne h1.symm
    | field h hne =>
      have := List.mem_singleton.mp h
      injection this with h1
      exact absurd h1 hne
    | fragment h => cases List.mem_singleton.mp h
  | @leaf d n c args b f hn hf ha hr hc _ =>
    have ht : ArgsTaken s f args := by
      intro x hx
      obtain ⟨a, h1, h2⟩ := ha x hx
      exact ⟨a, h1, exact_taken h2 _ rfl (fun h => h)⟩
    intro e y h
    cases h with
    | here h =>
      rw [List.mem_singleton.mp h]
      constructor
      · intro w hw
        rcases (wrong_field hn hf w).mp hw with h | h
        · obtain ⟨a, h1, h2, h3, h4, _⟩ := (missing_mem _ _ _ _).mp h
          obtain ⟨x, hx, e⟩ := hr a h1 h2 h3
          exact h4 x hx e
        · exact firstWrong_not_taken h ht
      · rintro ⟨n, args, sub, b, f, c, h, _, _, _, hne, _⟩
        injection h with _ _ h1
        exact hne h1.symm
    | field h _ _ _ _ _ h6 =>
      have := List.mem_singleton.mp h
      injection this with _ _ h1
      subst h1
      obtain ⟨z, hz, _⟩ := seen_split h6
      cases hz
    | fragment h => cases List.mem_singleton.mp h
  | @nested d t n c args sub b f hn hf ha hr hc hnt _ hne _ ih =>
    have ht : ArgsTaken s f args := by
      intro x hx
      obtain ⟨a, h1, h2⟩ := ha x hx
      exact ⟨a, h1, exact_taken h2 _ rfl (fun h => h)⟩
    intro e y h
    cases h with
    | here h =>
      rw [List.mem_singleton.mp h]
      constructor
      · intro w hw
        rcases (wrong_field hn hf w).mp hw with h | h
        · obtain ⟨a, h1, h2, h3, h4, _⟩ := (missing_mem _ _ _ _).mp h
          obtain ⟨x, hx, e⟩ := hr a h1 h2 h3
          exact h4 x hx e
        · exact firstWrong_not_taken h ht
      · rintro ⟨n', args', sub', b', f', c', h, _, hf', _, _, hc', hab⟩
        injection h with h1
        subst h1
        rw [named_unique hf' hf, core_iff] at hc'
        rw [core_iff] at hc
        rw [← hc', hc] at hab
        exact named_not_absent hnt hab
    | field h _ hf' _ hc' hnt' h6 =>
      have := List.mem_singleton.mp h
      injection this with h1 h2 h3
      subst h1 h2 h3
      rw [named_unique hf' hf, core_iff] at hc'
      rw [core_iff] at hc
      rw [← hc', hc] at hnt'
      rw [named_unique hnt' hnt] at h6
      obtain ⟨z, hz, h7⟩ := seen_split h6
      exact ih z hz _ _ h7
    | fragment h => cases List.mem_singleton.mp h
  | @fragment d t n sub b hnt _ _ _ ih =>
    intro e y h
    cases h with
    | here h =>
      rw [List.mem_singleton.mp h]
      constructor
      · intro w hw
        cases hw with
        | badCondition hab => exact named_not_absent hnt hab
      · rintro ⟨n, args, sub, b, f, c, h, _⟩
        cases h
    | field h => cases List.mem_singleton.mp h
    | fragment h hn' h6 =>
      have := List.mem_singleton.mp h
      injection this with h1 h2
      subst h1 h2
      rw [named_unique hn' hnt] at h6
      obtain ⟨z, hz, h7⟩ := seen_split h6
      exact ih z hz _ _ h7

end Verif.FieldSets
