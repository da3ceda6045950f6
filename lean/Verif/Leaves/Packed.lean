import Verif.Leaves.Seeds

/-!
# Lists of numbers and fields
-/
namespace Verif.Leaves

/-- The leaf is one whose required items are packed. -/
def IsNumber (leaf : Leaf) : Prop := leaf = .int ∨ leaf = .float

theorem notEmpty_iff {j : Json} {c : Ctx} {leaf : Leaf} : packedSeed c leaf j = .hard ↔ NotEmpty j := by
  cases j with
  | num n =>
    cases n with
    | int i => cases leaf <;> simp [packedSeed, NotEmpty] <;> split <;> simp
    | float q => cases leaf <;> simp [packedSeed, NotEmpty] <;> split <;> simp
  | list js => cases js <;> simp [packedSeed, NotEmpty]
  | map js => cases js <;> simp [packedSeed, NotEmpty]
  | _ => simp [packedSeed, NotEmpty]

/-- What is read of an item of a list of numbers. -/
theorem packed_item {c : Ctx} {leaf : Leaf} {p : List Nat} {j : Json} (hl : IsNumber leaf) (hf : NumbersFit leaf j)
    (h : ¬NotEmpty j) :
    (leaf = .int ∧ ∃ n, packedSeed c leaf j = .int n ∧ complete c.asF64 leaf (.base true) p j = (some (.int n), [])) ∨
    (leaf = .float ∧ ∃ q, packedSeed c leaf j = .float q ∧ complete c.asF64 leaf (.base true) p j = (some (.float q), [])) ∨
    (packedSeed c leaf j = .unexpected ∧ complete c.asF64 leaf (.base true) p j = (none, [p])) := by
  cases j with
  | num n =>
    cases n with
    | int i =>
      rcases hl with rfl | rfl
      · by_cases h : fitsI32 i = true
        · left
          refine ⟨rfl, i, by simp [packedSeed, h], ?_⟩
          rw [complete_base (by simp), coerce, if_pos ((fitsI32_iff i).mp h)]
        · right; right
          refine ⟨by simp [packedSeed, h], ?_⟩
          rw [complete_base (by simp), coerce, if_neg (fun h' => h ((fitsI32_iff i).mpr h'))]
          rfl
      · right; left
        exact ⟨rfl, _, rfl, rfl⟩
    | float q =>
      rcases hl with rfl | rfl
      · rcases int_of_float (q := q) hf with ⟨h1, h2, h3⟩ | ⟨h1, h2⟩
        · left
          refine ⟨rfl, q.num, by simp [packedSeed, h1, h3], ?_⟩
          rw [complete_base (by simp), coerce, if_pos h2]
        · right; right
          refine ⟨by simp [packedSeed, h1], ?_⟩
          rw [complete_base (by simp), coerce, if_neg h2]
          rfl
      · right; left
        exact ⟨rfl, _, rfl, rfl⟩
  | list js =>
    right; right
    cases js with
    | nil => rcases hl with rfl | rfl <;> exact ⟨rfl, rfl⟩
    | cons => exact absurd trivial h
  | map es =>
    right; right
    cases es with
    | nil => rcases hl with rfl | rfl <;> exact ⟨rfl, rfl⟩
    | cons => exact absurd trivial h
  | _ => right; right; rcases hl with rfl | rfl <;> exact ⟨rfl, rfl⟩

theorem floatsAreList_mem {P : Rat → Prop} : ∀ {js : List Json}, FloatsAreList P js → ∀ j ∈ js, FloatsAre P j
  | [], _, j, hj => by simp at hj
  | x :: js, h, j, hj => by
    rcases List.mem_cons.mp hj with rfl | hj
    · exact h.1
    · exact floatsAreList_mem h.2 j hj

theorem numbersFit_mem {leaf : Leaf} {js : List Json} (h : NumbersFit leaf (.list js)) : ∀ j ∈ js, NumbersFit leaf j := by
  cases leaf with
  | int => exact floatsAreList_mem h
  | _ => intros; trivial

theorem hard_iff {c : Ctx} {leaf : Leaf} {p : List Step} : ∀ (js : List Json) (i : Nat),
    (packedLoop c leaf p i js).hard = true ↔ ∃ j ∈ js, NotEmpty j
  | [], i => by simp [packedLoop]
  | j :: js, i => by
    have ih := hard_iff (c := c) (leaf := leaf) (p := p) js (i + 1)
    have hj := notEmpty_iff (j := j) (c := c) (leaf := leaf)
    rw [packedLoop]
    cases hs : packedSeed c leaf j with
    | hard => simp [hj.mp hs]
    | _ =>
      have : ¬NotEmpty j := fun h => by rw [hj.mpr h] at hs; cases hs
      simp [ih, this]

/-- What the loop of a list of numbers is to leave. -/
structure GoodPacked (c : Ctx) (leaf : Leaf) (p : List Step) (l : Loop) (rs : List (Option Out × List (List Nat))) : Prop where
  errs : l.errs = rs.flatMap (·.2)
  there : ∀ os, collect (rs.map (·.1)) = some os →
    l.bad = false ∧ l.marks = [] ∧ (leaf = .int → os = l.ints.map .int) ∧ (leaf = .float → os = l.floats.map .float)
  escapes : collect (rs.map (·.1)) = none → l.bad = true ∧ propagate c.fieldNullable p ∈ l.marks
  all : ∀ m ∈ l.marks, m = propagate c.fieldNullable p

theorem good_packed {c : Ctx} {leaf : Leaf} {p : List Step} (hv : c.vis = true) (hl : IsNumber leaf) :
    ∀ (js : List Json) (i : Nat), (∀ j ∈ js, NumbersFit leaf j) → (∀ j ∈ js, ¬NotEmpty j) →
    GoodPacked c leaf p (packedLoop c leaf p i js) (eachItem (complete c.asF64 leaf (.base true)) (indices p) i js)
  | [], i, _, _ => by
    refine ⟨rfl, ?_, fun h => (by cases h), (by simp [packedLoop])⟩
    intro os h
    injection h with h
    subst h
    simp [packedLoop]
  | j :: js, i, hf, hn => by
    have ih := good_packed (p := p) hv hl js (i + 1) (fun x hx => hf x (List.mem_cons_of_mem _ hx))
      (fun x hx => hn x (List.mem_cons_of_mem _ hx))
    rw [packedLoop, eachItem]
    rcases packed_item (c := c) (p := i :: indices p) hl (hf j List.mem_cons_self) (hn j List.mem_cons_self) with
      ⟨rfl, n, h1, h2⟩ | ⟨rfl, q, h1, h2⟩ | ⟨h1, h2⟩
    · rw [h1, h2]
      refine ⟨by simp [ih.errs], ?_, ?_, ih.all⟩
      · intro os ho
        rw [List.map_cons] at ho
        obtain ⟨x, ys, hx, hy, rfl⟩ := collect_cons_some ho
        injection hx with hx
        subst hx
        obtain ⟨a, b, d, _⟩ := ih.there ys hy
        exact ⟨a, b, fun _ => by rw [d rfl]; rfl, fun h => by cases h⟩
      · intro hc
        rw [List.map_cons] at hc
        rcases collect_cons_eq_none hc with h | h
        · cases h
        · exact ih.escapes h
    · rw [h1, h2]
      refine ⟨by simp [ih.errs], ?_, ?_, ih.all⟩
      · intro os ho
        rw [List.map_cons] at ho
        obtain ⟨x, ys, hx, hy, rfl⟩ := collect_cons_some ho
        injection hx with hx
        subst hx
        obtain ⟨a, b, _, d⟩ := ih.there ys hy
        exact ⟨a, b, fun h => (by cases h), fun _ => by rw [d rfl]; rfl⟩
      · intro hc
        rw [List.map_cons] at hc
        rcases collect_cons_eq_none hc with h | h
        · cases h
        · exact ih.escapes h
    · rw [h1, h2]
      have hu : unexpected c true (⟨i, false⟩ :: p) = ⟨some .unexpected, [i :: indices p], [propagate c.fieldNullable p]⟩ := by
        simp [unexpected, hv, propagate, indices]
      simp only [hu]
      refine ⟨by simp [ih.errs], ?_, ?_, ?_⟩
      · intro os ho
        rw [List.map_cons] at ho
        obtain ⟨x, ys, hx, _⟩ := collect_cons_some ho
        cases hx
      · intro _
        exact ⟨rfl, by simp⟩
      · intro m hm
        rcases List.mem_append.mp hm with h | h
        · exact List.mem_singleton.mp h
        · exact ih.all m h

theorem isPacked_iff {leaf : Leaf} {inner : Ty} : isPacked leaf inner = true ↔ IsNumber leaf ∧ inner = .base true := by
  cases leaf <;> simp [isPacked, IsNumber]

/-- The list of numbers. -/
theorem good_packedList {c : Ctx} {leaf : Leaf} {r : Bool} {p : List Step} {js : List Json} (hv : c.vis = true)
    (hl : IsNumber leaf) (hh : HeadOk c (.list r (.base true)) p) (hf : ∀ j ∈ js, NumbersFit leaf j)
    (hn : ∀ j ∈ js, ¬NotEmpty j) : ∃ v, (packedList c leaf p js).val = some v ∧
      Good c (.list r (.base true)) p (packedList c leaf p js) v
        (complete c.asF64 leaf (.list r (.base true)) (indices p) (.list js)) := by
  have g := good_packed (p := p) hv hl js 0 hf hn
  have hh' : (packedLoop c leaf p 0 js).hard = false := by
    rw [Bool.eq_false_iff]
    intro h
    obtain ⟨j, hj, he⟩ := (hard_iff js 0).mp h
    exact hn j hj he
  unfold packedList
  simp only [hh', Bool.false_eq_true, if_false]
  cases hb : (packedLoop c leaf p 0 js).bad with
  | true =>
    simp only [if_true]
    refine ⟨_, rfl, good_list hh g.errs ?_ (fun h => (g.escapes h).2) (fun m hm => Or.inl (g.all m hm))⟩
    intro os ho
    have := (g.there os ho).1
    rw [hb] at this
    cases this
  | false =>
    simp only [Bool.false_eq_true, if_false]
    have hx : collect ((eachItem (complete c.asF64 leaf (.base true)) (indices p) 0 js).map (·.1)) = none →
        propagate c.fieldNullable p ∈ (packedLoop c leaf p 0 js).marks := fun h => (g.escapes h).2
    rcases hl with rfl | rfl
    · refine ⟨_, rfl, good_list hh g.errs ?_ hx (fun m hm => Or.inl (g.all m hm))⟩
      intro os ho
      obtain ⟨_, b, d, _⟩ := g.there os ho
      rw [b]
      refine ⟨by simp, fun M hM => ?_⟩
      have : some (indices p) ∉ M := fun h => by simpa using (hM _ List.suffix_rfl).mp h
      simp [render, this, d rfl]
    · refine ⟨_, rfl, good_list hh g.errs ?_ hx (fun m hm => Or.inl (g.all m hm))⟩
      intro os ho
      obtain ⟨_, b, _, d⟩ := g.there os ho
      rw [b]
      refine ⟨by simp, fun M hM => ?_⟩
      have : some (indices p) ∉ M := fun h => by simpa using (hM _ List.suffix_rfl).mp h
      simp [render, this, d rfl]

/-! ## When the deserialisation fails -/

theorem leaf_val {c : Ctx} {leaf : Leaf} {r : Bool} {p : List Step} (j : Json) : (leafSeed c leaf r p j).val ≠ none := by
  have hu : ∀ r p, (unexpected c r p).val ≠ none := by intro r p; rw [unexpected_val]; simp
  cases j with
  | null => simp only [leafSeed, visitNull]; split; exact hu _ _; simp [ok]
  | bool b => cases leaf <;> simp only [leafSeed] <;> first | exact hu _ _ | simp [ok]
  | str s =>
    cases leaf <;> simp only [leafSeed] <;> first | exact hu _ _ | simp [ok] | skip
    unfold visitEnum
    split
    · split
      · split <;> simp [ok]
      · simp [ok]
    · exact hu _ _
  | num n =>
    cases n <;> cases leaf <;> simp only [leafSeed, visitNum] <;> first | exact hu _ _ | (simp [ok]; done) | skip
    all_goals
      split
      · simp [ok]
      · exact hu _ _
  | list js => cases leaf <;> simp only [leafSeed] <;> first | exact hu _ _ | simp [ok]
  | map es => cases leaf <;> simp only [leafSeed] <;> first | exact hu _ _ | simp [ok]

theorem loop_none {seed : List Step → Json → Res} {n : Bool} {p : List Step} : ∀ (js : List Json) (i : Nat),
    (listLoop seed n p i js).1 = none ↔ ∃ (k : Nat) (j : Json), js[k]? = some j ∧ (seed (⟨i + k, n⟩ :: p) j).val = none
  | [], i => by simp [listLoop]
  | j :: js, i => by
    have ih := loop_none (seed := seed) (n := n) (p := p) js (i + 1)
    rw [listLoop]
    cases hv : (seed (⟨i, n⟩ :: p) j).val with
    | none => simp only [true_iff]; exact ⟨0, j, rfl, hv⟩
    | some v =>
      simp only [Option.map_eq_none_iff, ih]
      constructor
      · rintro ⟨k, x, h1, h2⟩
        exact ⟨k + 1, x, h1, by rw [show i + (k + 1) = i + 1 + k by omega]; exact h2⟩
      · rintro ⟨k, x, h1, h2⟩
        cases k with
        | zero =>
          simp only [List.getElem?_cons_zero, Option.some.injEq] at h1
          subst h1
          rw [Nat.add_zero, hv] at h2
          cases h2
        | succ k => exact ⟨k, x, h1, by rw [show i + 1 + k = i + (k + 1) by omega]; exact h2⟩

theorem packed_none {c : Ctx} {leaf : Leaf} {p : List Step} {js : List Json} :
    (packedList c leaf p js).val = none ↔ ∃ j ∈ js, NotEmpty j := by
  rw [← hard_iff (c := c) (leaf := leaf) (p := p) js 0]
  unfold packedList
  simp only
  split
  · rename_i h; simp [h]
  · rename_i h
    split
    · simp [h]
    · cases leaf <;> simp [h]

theorem field_none {c : Ctx} {leaf : Leaf} : ∀ (ty : Ty) (p : List Step) (j : Json),
    (fieldSeed c leaf ty p j).val = none ↔ Nested leaf ty j
  | .base r, p, j => by
    rw [fieldSeed]
    constructor
    · intro h; exact absurd h (leaf_val j)
    · intro h; cases h
  | .list r inner, p, j => by
    have hu : ∀ r p, (unexpected c r p).val ≠ none := by intro r p; rw [unexpected_val]; simp
    rw [fieldSeed.eq_def]
    cases j with
    | list js =>
      simp only
      by_cases hp : isPacked leaf inner = true
      · rw [if_pos hp, packed_none]
        obtain ⟨hl, rfl⟩ := isPacked_iff.mp hp
        constructor
        · rintro ⟨j, hj, hn⟩
          exact .here hl hj hn
        · intro h
          cases h with
          | here _ hj hn => exact ⟨_, hj, hn⟩
          | item _ hn => cases hn
      · rw [if_neg hp]
        simp only [Option.map_eq_none_iff, loop_none]
        constructor
        · rintro ⟨k, x, h1, h2⟩
          exact .item (List.mem_of_getElem? h1) ((field_none inner _ x).mp h2)
        · intro h
          cases h with
          | here hl _ _ => exact absurd (isPacked_iff.mpr ⟨hl, rfl⟩) hp
          | item hj hn =>
            obtain ⟨k, hk⟩ := List.mem_iff_getElem?.mp hj
            exact ⟨k, _, hk, (field_none inner _ _).mpr hn⟩
    | null =>
      simp only [visitNull]
      constructor
      · intro h
        split at h
        · exact absurd h (hu _ _)
        · cases h
      · intro h; cases h
    | _ =>
      constructor
      · intro h; exact absurd h (hu _ _)
      · intro h; cases h

theorem good_field {c : Ctx} {leaf : Leaf} (hv : c.vis = true) (hn : NamesOnce leaf) : ∀ (ty : Ty) (p : List Step) (j : Json),
    HeadOk c ty p → NumbersFit leaf j → ∀ v, (fieldSeed c leaf ty p j).val = some v →
    Good c ty p (fieldSeed c leaf ty p j) v (complete c.asF64 leaf ty (indices p) j)
  | .base r, p, j, hh, hf, v, h => by
    rw [fieldSeed] at h ⊢
    obtain ⟨v', h', g⟩ := good_leaf (r := r) (p := p) hv hh hn hf
    rw [h] at h'
    injection h' with h'
    subst h'
    exact g
  | .list r inner, p, j, hh, hf, v, h => by
    have hu : complete c.asF64 leaf (.list r inner) (indices p) j = (orNull r, [indices p]) →
        ∀ v, (unexpected c r p).val = some v →
        Good c (.list r inner) p (unexpected c r p) v (complete c.asF64 leaf (.list r inner) (indices p) j) := by
      intro e v h
      rw [unexpected_val] at h
      injection h with h
      subst h
      rw [e]
      exact good_unexpected (ty := .list r inner) hv
    rw [fieldSeed.eq_def] at h ⊢
    cases j with
    | null =>
      obtain ⟨v', h', g⟩ := good_null (c := c) (ty := .list r inner) (p := p) hv leaf
      simp only at h
      have e : some v = some v' := h.symm.trans h'
      injection e with e
      subst e
      exact g
    | list js =>
      simp only at h ⊢
      by_cases hp : isPacked leaf inner = true
      · rw [if_pos hp] at h ⊢
        obtain ⟨hl, rfl⟩ := isPacked_iff.mp hp
        have hne : ∀ j ∈ js, ¬NotEmpty j := by
          intro j hj hne
          have := packed_none (c := c) (leaf := leaf) (p := p) (js := js) |>.mpr ⟨j, hj, hne⟩
          rw [h] at this
          cases this
        obtain ⟨v', h', g⟩ := good_packedList hv hl hh (numbersFit_mem hf) hne
        rw [h] at h'
        injection h' with h'
        subst h'
        exact g
      · rw [if_neg hp] at h ⊢
        have hnn : ∀ j ∈ js, ∀ k, (fieldSeed c leaf inner (⟨k, !inner.required⟩ :: p) j).val ≠ none := by
          intro j hj k hne
          obtain ⟨i, hi⟩ := List.mem_iff_getElem?.mp hj
          have h1 := (field_none inner _ j).mp hne
          have h2 := (field_none (c := c) inner (⟨0 + i, !inner.required⟩ :: p) j).mpr h1
          have := (loop_none (seed := fieldSeed c leaf inner) (n := !inner.required) (p := p) js 0).mpr ⟨i, j, hi, h2⟩
          rw [this] at h
          cases h
        obtain ⟨vs, hvs, gl⟩ := good_loop (c := c) (inner := inner) (p := p) (seed := fieldSeed c leaf inner)
          (f := complete c.asF64 leaf inner) js 0 hnn
          (fun j hj k v hv' => good_field hv hn inner (⟨k, !inner.required⟩ :: p) j rfl (numbersFit_mem hf j hj) v hv')
        rw [hvs] at h ⊢
        injection h with h
        subst h
        refine good_list hh gl.errs ?_ (fun hc => (gl.escapes hc).2) gl.all
        intro os ho
        obtain ⟨m1, r1⟩ := gl.there os ho
        refine ⟨?_, ?_⟩
        · intro m hm
          obtain ⟨q, k, h1, _, h3⟩ := m1 m hm
          exact ⟨q, h1, (suffix_cons_self k _).trans h3⟩
        · intro M hM
          have hno : some (indices p) ∉ M := by
            intro hm
            obtain ⟨q, k, h1, _, h3⟩ := m1 _ ((hM _ List.suffix_rfl).mp hm)
            injection h1 with h1
            have := h3.length_le
            rw [← h1, List.length_cons] at this
            omega
          rw [render]
          have : M.contains (some (indices p)) = false := by simpa using hno
          simp only [this, Bool.false_eq_true, if_false]
          rw [r1 M (fun k _ q hq => hM q ((suffix_cons_self k _).trans hq))]
    | _ => exact hu rfl v h

/-- Nothing is reported for fields that are not. -/
theorem quiet_unexpected {c : Ctx} (hv : c.vis = false) (r : Bool) (p : List Step) :
    (unexpected c r p).errs = [] ∧ (unexpected c r p).marks = [] := by simp [unexpected, hv]

theorem quiet_leaf {c : Ctx} {leaf : Leaf} {r : Bool} {p : List Step} (hv : c.vis = false) (j : Json) :
    (leafSeed c leaf r p j).errs = [] ∧ (leafSeed c leaf r p j).marks = [] := by
  have hu := quiet_unexpected hv
  cases j with
  | null => simp only [leafSeed, visitNull]; split; exact hu _ _; simp [ok]
  | bool b => cases leaf <;> simp only [leafSeed] <;> first | exact hu _ _ | simp [ok]
  | str s =>
    cases leaf <;> simp only [leafSeed] <;> first | exact hu _ _ | (simp [ok]; done) | skip
    unfold visitEnum
    split
    · simp [hv, ok]
    · exact hu _ _
  | num n =>
    cases n <;> cases leaf <;> simp only [leafSeed, visitNum] <;> first | exact hu _ _ | (simp [ok]; done) | skip
    all_goals
      split
      · simp [ok]
      · exact hu _ _
  | list js => cases leaf <;> simp only [leafSeed] <;> first | exact hu _ _ | simp [ok]
  | map es => cases leaf <;> simp only [leafSeed] <;> first | exact hu _ _ | simp [ok]

theorem quiet_packed {c : Ctx} {leaf : Leaf} {p : List Step} (hv : c.vis = false) : ∀ (js : List Json) (i : Nat),
    (packedLoop c leaf p i js).errs = [] ∧ (packedLoop c leaf p i js).marks = []
  | [], _ => ⟨rfl, rfl⟩
  | j :: js, i => by
    have ih := quiet_packed (leaf := leaf) (p := p) hv js (i + 1)
    rw [packedLoop]
    cases packedSeed c leaf j <;> simp [ih, hv, quiet_unexpected hv]

theorem quiet_loop {seed : List Step → Json → Res} {n : Bool} {p : List Step}
    (h : ∀ p j, (seed p j).errs = [] ∧ (seed p j).marks = []) : ∀ (js : List Json) (i : Nat),
    (listLoop seed n p i js).2.1 = [] ∧ (listLoop seed n p i js).2.2 = []
  | [], _ => ⟨rfl, rfl⟩
  | j :: js, i => by
    have ih := quiet_loop (n := n) (p := p) h js (i + 1)
    rw [listLoop]
    cases hv : (seed (⟨i, n⟩ :: p) j).val <;> simp [ih, h]

theorem quiet_field {c : Ctx} {leaf : Leaf} (hv : c.vis = false) : ∀ (ty : Ty) (p : List Step) (j : Json),
    (fieldSeed c leaf ty p j).errs = [] ∧ (fieldSeed c leaf ty p j).marks = []
  | .base r, p, j => by rw [fieldSeed]; exact quiet_leaf hv j
  | .list r inner, p, j => by
    rw [fieldSeed.eq_def]
    cases j with
    | null => simp only [visitNull]; split; exact quiet_unexpected hv _ _; simp [ok]
    | list js =>
      simp only
      split
      · have := quiet_packed (leaf := leaf) (p := p) hv js 0
        unfold packedList
        simp only
        split
        · exact this
        · split
          · exact this
          · cases leaf <;> exact this
      · exact quiet_loop (quiet_field hv inner) js 0
    | _ => exact quiet_unexpected hv _ _

end Verif.Leaves
