import Verif.SchemaRules.Spec

/-!
# Maps, repeated names and the first pass
-/
namespace Verif.SchemaRules

theorem get_put {β : Type} (m : List (Name × β)) (k : Name) (v : β) (n : Name) :
    get (put m k v) n = if k = n then some v else get m n := by
  induction m with
  | nil => simp [put, get]
  | cons e m ih =>
    obtain ⟨j, w⟩ := e
    simp only [put]
    by_cases hj : j = k
    · subst hj
      simp only [if_true, get]
      by_cases hn : j = n <;> simp [hn]
    · simp only [hj, if_false, get, ih]
      by_cases hn : j = n
      · subst hn
        simp [Ne.symm hj]
      · simp [hn]

theorem get_push {β : Type} (m : List (Name × List β)) (k : Name) (vs : List β) (n : Name) :
    (get (push m k vs) n).getD [] = (get m n).getD [] ++ (if k = n then vs else []) := by
  unfold push
  rw [get_put]
  by_cases h : k = n
  · subst h; simp
  · simp [h]

/-- Consecutive occurrences of a name. -/
def Pair (l : List Name) (p j : Nat) : Prop :=
  p < j ∧ ∃ n, l[p]? = some n ∧ l[j]? = some n ∧ ∀ q, p < q → q < j → l[q]? ≠ some n

theorem mem_dupsFrom (names : List Name) : ∀ (pre : List Name) (buf : List (Name × Nat)),
    (∀ n p, get buf n = some p ↔ (pre[p]? = some n ∧ ∀ q, p < q → pre[q]? ≠ some n)) → ∀ p j,
    ((p, j) ∈ dupsFrom pre.length buf names ↔ pre.length ≤ j ∧ Pair (pre ++ names) p j) := by
  induction names with
  | nil =>
    intro pre buf hb p j
    simp only [dupsFrom, List.not_mem_nil, List.append_nil, false_iff]
    rintro ⟨hle, _, n, _, hj, _⟩
    rw [List.getElem?_eq_none (by omega)] at hj
    cases hj
  | cons n rest ih =>
    intro pre buf hb p j
    have hb' : ∀ m q, get (put buf n pre.length) m = some q ↔
        ((pre ++ [n])[q]? = some m ∧ ∀ r, q < r → (pre ++ [n])[r]? ≠ some m) := by
      intro m q
      rw [get_put]
      by_cases hnm : n = m
      · subst hnm
        simp only [if_true, Option.some.injEq]
        constructor
        · rintro rfl
          refine ⟨by simp, ?_⟩
          intro r hr
          rw [List.getElem?_eq_none (by simp; omega)]
          simp
        · rintro ⟨h1, h2⟩
          have hq : q < (pre ++ [n]).length := (List.getElem?_eq_some_iff.mp h1).1
          simp at hq
          by_cases hlt : q < pre.length
          · exact absurd (by simp) (h2 pre.length hlt)
          · omega
      · simp only [hnm, if_false, hb m q]
        constructor
        · rintro ⟨h1, h2⟩
          have hq : q < pre.length := (List.getElem?_eq_some_iff.mp h1).1
          refine ⟨by rw [List.getElem?_append_left hq]; exact h1, ?_⟩
          intro r hr he
          by_cases hrl : r < pre.length
          · rw [List.getElem?_append_left hrl] at he
            exact h2 r hr he
          · rw [List.getElem?_append_right (by omega)] at he
            cases hd : r - pre.length with
            | zero => simp [hd] at he; exact hnm he
            | succ d => simp [hd] at he
        · rintro ⟨h1, h2⟩
          have hq : q < pre.length := by
            by_cases hq : q < pre.length
            · exact hq
            · rw [List.getElem?_append_right (by omega)] at h1
              cases hd : q - pre.length with
              | zero => simp [hd] at h1; exact absurd h1 hnm
              | succ d => simp [hd] at h1
          rw [List.getElem?_append_left hq] at h1
          refine ⟨h1, ?_⟩
          intro r hr he
          have hrl : r < pre.length := (List.getElem?_eq_some_iff.mp he).1
          exact h2 r hr (by rw [List.getElem?_append_left hrl]; exact he)
    have hrec := ih (pre ++ [n]) (put buf n pre.length) hb' p j
    simp only [List.length_append, List.length_cons, List.length_nil, List.append_assoc, List.cons_append,
      List.nil_append, Nat.zero_add] at hrec
    have hat : (pre ++ n :: rest)[pre.length]? = some n := by simp
    have hsplit : ((p, j) ∈ dupsFrom pre.length buf (n :: rest)) ↔
        (j = pre.length ∧ get buf n = some p) ∨ (p, j) ∈ dupsFrom (pre.length + 1) (put buf n pre.length) rest := by
      simp only [dupsFrom]
      cases hg : get buf n with
      | none => simp
      | some p' =>
        simp only [List.mem_cons, Prod.mk.injEq, Option.some.injEq]
        constructor
        · rintro (⟨h1, h2⟩ | h)
          · exact .inl ⟨h2, h1.symm⟩
          · exact .inr h
        · rintro (⟨h1, h2⟩ | h)
          · exact .inl ⟨h2.symm, h1⟩
          · exact .inr h
    rw [hsplit, hrec]
    constructor
    · rintro (⟨hj, hg⟩ | ⟨hle, hp⟩)
      · subst hj
        obtain ⟨h1, h2⟩ := (hb n p).mp hg
        have hp : p < pre.length := (List.getElem?_eq_some_iff.mp h1).1
        refine ⟨Nat.le_refl _, hp, n, by rw [List.getElem?_append_left hp]; exact h1, hat, ?_⟩
        intro q h3 h4 he
        rw [List.getElem?_append_left h4] at he
        exact h2 q h3 he
      · exact ⟨by omega, hp⟩
    · rintro ⟨hle, hp⟩
      by_cases hj : j = pre.length
      · subst hj
        refine .inl ⟨rfl, ?_⟩
        obtain ⟨hlt, m, h1, h2, h3⟩ := hp
        rw [hat] at h2
        injection h2 with h2
        subst h2
        rw [List.getElem?_append_left hlt] at h1
        refine (hb n p).mpr ⟨h1, ?_⟩
        intro q hq he
        have hql : q < pre.length := (List.getElem?_eq_some_iff.mp he).1
        exact h3 q hq hql (by rw [List.getElem?_append_left hql]; exact he)
      · exact .inr ⟨by omega, hp⟩

theorem mem_dups (l : List Name) (p j : Nat) : (p, j) ∈ dups l ↔ Pair l p j := by
  have := mem_dupsFrom l [] [] (by simp [get]) p j
  simpa [dups] using this

/-- From two occurrences, consecutive ones after the first. -/
theorem pair_of {l : List Name} {n : Name} : ∀ (d i j : Nat), j - i ≤ d → i < j → l[i]? = some n → l[j]? = some n →
    ∃ p, i ≤ p ∧ Pair l p j := by
  intro d
  induction d with
  | zero => intro i j h1 h2; omega
  | succ d ih =>
    intro i j h1 h2 h3 h4
    by_cases hq : ∃ q, i < q ∧ q < j ∧ l[q]? = some n
    · obtain ⟨q, h5, h6, h7⟩ := hq
      obtain ⟨p, h8, h9⟩ := ih q j (by omega) h6 h7 h4
      exact ⟨p, by omega, h9⟩
    · exact ⟨i, Nat.le_refl _, h2, n, h3, h4, fun q h5 h6 h7 => hq ⟨q, h5, h6, h7⟩⟩

theorem not_nodup_iff (l : List Name) : ¬ l.Nodup ↔ ∃ (i j : Nat) (n : Name), i < j ∧ l[i]? = some n ∧ l[j]? = some n := by
  induction l with
  | nil => simp
  | cons a l ih =>
    rw [List.nodup_cons, Decidable.not_and_iff_or_not]
    constructor
    · rintro (h | h)
      · have h : a ∈ l := Decidable.not_not.mp h
        obtain ⟨j, hj⟩ := List.mem_iff_getElem?.mp h
        exact ⟨0, j + 1, a, by omega, by simp, by simpa using hj⟩
      · obtain ⟨i, j, n, h1, h2, h3⟩ := ih.mp h
        exact ⟨i + 1, j + 1, n, by omega, by simpa using h2, by simpa using h3⟩
    · rintro ⟨i, j, n, h1, h2, h3⟩
      cases i with
      | zero =>
        simp at h2
        subst h2
        obtain ⟨j', rfl⟩ : ∃ j', j = j' + 1 := ⟨j - 1, by omega⟩
        left
        intro hn
        exact hn (List.mem_iff_getElem?.mpr ⟨j', by simpa using h3⟩)
      | succ i =>
        obtain ⟨j', rfl⟩ : ∃ j', j = j' + 1 := ⟨j - 1, by omega⟩
        right
        exact ih.mpr ⟨i, j', n, by omega, by simpa using h2, by simpa using h3⟩

theorem dups_nil (l : List Name) : dups l = [] ↔ l.Nodup := by
  constructor
  · intro h
    apply Decidable.not_not.mp
    intro hn
    obtain ⟨i, j, n, h1, h2, h3⟩ := (not_nodup_iff l).mp hn
    obtain ⟨p, _, hp⟩ := pair_of (j - i) i j (Nat.le_refl _) h1 h2 h3
    have := (mem_dups l p j).mpr hp
    rw [h] at this
    simp at this
  · intro h
    cases hd : dups l with
    | nil => rfl
    | cons e es =>
      obtain ⟨p, j⟩ := e
      have : (p, j) ∈ dups l := by rw [hd]; simp
      obtain ⟨h1, n, h2, h3, _⟩ := (mem_dups l p j).mp this
      exact absurd h ((not_nodup_iff l).mpr ⟨p, j, n, h1, h2, h3⟩)

/-- The names found more than once. -/
theorem dups_names (l : List Name) (n : Name) : (∃ p ∈ dups l, nameAt l p.1 = n) ↔ 2 ≤ l.count n := by
  have hc : 2 ≤ l.count n ↔ ∃ (i j : Nat), i < j ∧ l[i]? = some n ∧ l[j]? = some n := by
    induction l with
    | nil => simp
    | cons a l ih =>
      rw [List.count_cons]
      constructor
      · intro h
        by_cases ha : a = n
        · subst ha
          have h : 2 ≤ l.count a + 1 := by simpa using h
          have : a ∈ l := List.count_pos_iff.mp (by omega)
          obtain ⟨j, hj⟩ := List.mem_iff_getElem?.mp this
          exact ⟨0, j + 1, by omega, by simp, by simpa using hj⟩
        · simp [ha] at h
          obtain ⟨i, j, h1, h2, h3⟩ := ih.mp (by omega)
          exact ⟨i + 1, j + 1, by omega, by simpa using h2, by simpa using h3⟩
      · rintro ⟨i, j, h1, h2, h3⟩
        obtain ⟨j', rfl⟩ : ∃ j', j = j' + 1 := ⟨j - 1, by omega⟩
        simp at h3
        cases i with
        | zero =>
          simp at h2
          subst h2
          have := List.count_pos_iff.mpr (List.mem_iff_getElem?.mpr ⟨j', h3⟩)
          have h2 : 2 ≤ l.count a + 1 := by omega
          simpa using h2
        | succ i =>
          have := ih.mpr ⟨i, j', by omega, by simpa using h2, h3⟩
          exact Nat.le_trans this (Nat.le_add_right _ _)
  rw [hc]
  constructor
  · rintro ⟨⟨p, j⟩, hp, hn⟩
    obtain ⟨h1, m, h2, h3, _⟩ := (mem_dups l p j).mp hp
    simp [nameAt, h2] at hn
    subst hn
    exact ⟨p, j, h1, h2, h3⟩
  · rintro ⟨i, j, h1, h2, h3⟩
    obtain ⟨p, _, hp⟩ := pair_of (j - i) i j (Nat.le_refl _) h1 h2 h3
    refine ⟨(p, j), (mem_dups l p j).mpr hp, ?_⟩
    obtain ⟨_, m, h4, h5, _⟩ := hp
    rw [h3] at h5
    injection h5 with h5
    subst h5
    simp [nameAt, h4]

/-- Repetitions after the first `k` names. -/
theorem dups_after (l : List Name) (k : Nat) : (∃ p ∈ dups l, k ≤ p.1) ↔ ¬ (l.drop k).Nodup := by
  rw [not_nodup_iff]
  constructor
  · rintro ⟨⟨p, j⟩, hp, hk⟩
    obtain ⟨h1, m, h2, h3, _⟩ := (mem_dups l p j).mp hp
    simp only at hk
    refine ⟨p - k, j - k, m, by omega, ?_, ?_⟩
    · rw [List.getElem?_drop, show k + (p - k) = p by omega]; exact h2
    · rw [List.getElem?_drop, show k + (j - k) = j by omega]; exact h3
  · rintro ⟨i, j, n, h1, h2, h3⟩
    rw [List.getElem?_drop] at h2 h3
    obtain ⟨p, h4, hp⟩ := pair_of (j - i) (k + i) (k + j) (by omega) (by omega) h2 h3
    exact ⟨(p, k + j), (mem_dups l p _).mpr hp, by simp only; omega⟩

theorem dups_bound (l : List Name) (p j : Nat) (h : (p, j) ∈ dups l) : p < l.length := by
  obtain ⟨_, n, h2, _, _⟩ := (mem_dups l p j).mp h
  exact (List.getElem?_eq_some_iff.mp h2).1

theorem reservedName_iff (n : Name) : reservedName n = true ↔ Reserved n := by
  unfold reservedName Reserved
  match n with
  | [] => simp
  | [a] => simp
  | a :: b :: m =>
    simp only [List.isPrefixOf, Bool.and_true, Bool.and_eq_true, beq_iff_eq]
    constructor
    · rintro ⟨h1, h2⟩
      subst h1 h2
      exact ⟨m, rfl⟩
    · rintro ⟨m', h⟩
      injection h with h1 h2
      injection h2 with h2 h3
      exact ⟨h1.symm, h2.symm⟩

theorem isBuiltin_iff (n : Name) : isBuiltin n = true ↔ Builtin n := by
  simp [isBuiltin, Builtin]

/-! ## The first pass -/

theorem defined_cons_type (t : TypeDef) (ds : List Definition) :
    defined (.type t :: ds) = if t.extend then defined ds else t :: defined ds := by
  by_cases h : t.extend = true <;> simp [defined, h]

theorem extensions_cons_type (t : TypeDef) (ds : List Definition) :
    extensions (.type t :: ds) = if t.extend then t :: extensions ds else extensions ds := by
  by_cases h : t.extend = true <;> simp [extensions, h]

theorem definition_cons (t : TypeDef) (ds : List Definition) (n : Name) :
    definition (.type t :: ds) n =
      if t.extend then definition ds n else (definition ds n).or (if t.name = n then some t else none) := by
  unfold definition
  rw [defined_cons_type]
  by_cases h : t.extend = true
  · simp [h]
  · rw [if_neg h, if_neg h, List.reverse_cons, List.find?_append]
    by_cases hn : t.name = n <;> simp [hn]

theorem extensionsOf_cons (t : TypeDef) (ds : List Definition) (n : Name) :
    extensionsOf (.type t :: ds) n =
      (if t.extend = true ∧ t.name = n then [t] else []) ++ extensionsOf ds n := by
  unfold extensionsOf
  rw [extensions_cons_type]
  by_cases h : t.extend = true
  · by_cases hn : t.name = n <;> simp [h, hn]
  · simp [h]

/-- The context holds what has been found in the document, after what it held. -/
structure Adds (c : Ctx) (ds : List Definition) (c' : Ctx) : Prop where
  opts : c'.opts = c.opts
  defs : ∀ n, get c'.defs n = (definition ds n).or (get c.defs n)
  dirs : ∀ n, get c'.dirs n = (directiveOf ds n).or (get c.dirs n)
  exts : ∀ n, (get c'.exts n).getD [] = (get c.exts n).getD [] ++ extensionsOf ds n
  fields : ∀ n, (get c'.extFields n).getD [] = (get c.extFields n).getD [] ++ (extensionsOf ds n).flatMap (·.kind.fields)
  impls : ∀ n, (get c'.extImpls n).getD [] = (get c.extImpls n).getD [] ++ (extensionsOf ds n).flatMap (·.kind.implements)
  unions : ∀ n, (get c'.extUnions n).getD [] = (get c.extUnions n).getD [] ++ (extensionsOf ds n).flatMap (·.kind.members)
  enums : ∀ n, (get c'.extEnums n).getD [] = (get c.extEnums n).getD [] ++ (extensionsOf ds n).flatMap (·.kind.values)

theorem or_assoc {α : Type} (a b c : Option α) : (a.or b).or c = a.or (b.or c) := by
  cases a <;> simp

theorem firstPass_adds (ds : List Definition) : ∀ c, Adds c ds (firstPass c ds).1 := by
  induction ds with
  | nil =>
    intro c
    constructor <;> simp [firstPass, definition, defined, directiveOf, directiveDefs, extensionsOf, extensions]
  | cons d ds ih =>
    intro c
    cases d with
    | schema s =>
      have := ih c
      simp only [firstPass]
      exact ⟨this.opts, this.defs, this.dirs, this.exts, this.fields, this.impls, this.unions, this.enums⟩
    | directive d =>
      have := ih (firstDirective c d).1
      simp only [firstPass]
      refine ⟨this.opts, this.defs, ?_, this.exts, this.fields, this.impls, this.unions, this.enums⟩
      intro n
      rw [this.dirs n]
      simp only [firstDirective, get_put, directiveOf, directiveDefs, List.filterMap_cons, List.reverse_cons,
        List.find?_append, or_assoc]
      congr 1
      by_cases hn : d.name = n <;> simp [hn]
    | type t =>
      have := ih (firstType c t).1
      simp only [firstPass]
      by_cases h : t.extend = true
      · cases hk : t.kind <;>
        · simp only [firstType, h, hk] at this ⊢
          refine ⟨by rw [this.opts]; rfl, ?_, ?_, ?_, ?_, ?_, ?_, ?_⟩
          · intro n; rw [this.defs n, definition_cons]; simp [h]
          · intro n; rw [this.dirs n]; rfl
          · intro n
            rw [this.exts n, extensionsOf_cons]
            simp only [if_true, get_push]
            by_cases hn : t.name = n <;> simp [h, hn]
          · intro n
            rw [this.fields n, extensionsOf_cons]
            by_cases hn : t.name = n <;> simp [h, hn, hk, get_push, Kind.fields]
          · intro n
            rw [this.impls n, extensionsOf_cons]
            by_cases hn : t.name = n <;> simp [h, hn, hk, get_push, Kind.implements]
          · intro n
            rw [this.unions n, extensionsOf_cons]
            by_cases hn : t.name = n <;> simp [h, hn, hk, get_push, Kind.members]
          · intro n
            rw [this.enums n, extensionsOf_cons]
            by_cases hn : t.name = n <;> simp [h, hn, hk, get_push, Kind.values]
      · have h : t.extend = false := by simpa using h
        have hf : (firstType c t).1 = { c with defs := put c.defs t.name t } := by simp [firstType, h]
        rw [hf] at this ⊢
        refine ⟨by rw [this.opts], ?_, ?_, ?_, ?_, ?_, ?_, ?_⟩
        · intro n
          rw [this.defs n, definition_cons]
          rw [if_neg (by simp [h]), or_assoc, get_put]
          congr 1
          by_cases hn : t.name = n <;> simp [hn]
        · intro n; rw [this.dirs n]; rfl
        · intro n; rw [this.exts n, extensionsOf_cons]; simp [h]
        · intro n; rw [this.fields n, extensionsOf_cons]; simp [h]
        · intro n; rw [this.impls n, extensionsOf_cons]; simp [h]
        · intro n; rw [this.unions n, extensionsOf_cons]; simp [h]
        · intro n; rw [this.enums n, extensionsOf_cons]; simp [h]

theorem isScalar_iff (k : Kind) : (match k with | .scalar => true | _ => false) = true ↔ k = .scalar := by
  cases k <;> simp

theorem firstPass_errors (ds : List Definition) : ∀ c, (firstPass c ds).2 = [] ↔
    ((defined ds).map (·.name)).Nodup ∧ (∀ t ∈ defined ds, get c.defs t.name = none) ∧
    (∀ t, (t ∈ defined ds ∨ t ∈ extensions ds) → ¬ Reserved t.name) ∧
    (∀ t ∈ defined ds, Builtin t.name → t.kind = .scalar) ∧ ∀ d ∈ directiveDefs ds, ¬ Reserved d.name := by
  induction ds with
  | nil => intro c; simp [firstPass, defined, extensions, directiveDefs]
  | cons d ds ih =>
    intro c
    cases d with
    | schema s =>
      simp only [firstPass]
      rw [ih c]
      rfl
    | directive d =>
      simp only [firstPass, List.append_eq_nil_iff]
      rw [ih]
      simp only [firstDirective]
      have h1 : defined (.directive d :: ds) = defined ds := rfl
      have h2 : extensions (.directive d :: ds) = extensions ds := rfl
      have h3 : directiveDefs (.directive d :: ds) = d :: directiveDefs ds := rfl
      rw [h1, h2, h3]
      simp only [List.mem_cons, forall_eq_or_imp, ← reservedName_iff d.name]
      by_cases hr : reservedName d.name = true
      · simp [hr]
      · simp [hr]
    | type t =>
      simp only [firstPass, List.append_eq_nil_iff]
      rw [ih, defined_cons_type, extensions_cons_type]
      have h3 : directiveDefs (.type t :: ds) = directiveDefs ds := rfl
      rw [h3]
      by_cases h : t.extend = true
      · have hd : (firstType c t).1.defs = c.defs := by
          simp only [firstType, h, if_true]
          cases t.kind <;> rfl
        rw [hd]
        have he : (firstType c t).2 = if reservedName t.name then [.reserved t.name] else [] := by
          simp [firstType, h]
        rw [he, if_pos h, if_pos h]
        have hr : ((if reservedName t.name then [Err.reserved t.name] else []) = []) ↔ ¬ Reserved t.name := by
          rw [← reservedName_iff]
          by_cases hr : reservedName t.name = true <;> simp [hr]
        rw [hr]
        simp only [List.mem_cons]
        constructor
        · rintro ⟨h1, h2, h3, h4, h5, h6⟩
          refine ⟨h2, h3, ?_, h5, h6⟩
          rintro u (hu | rfl | hu)
          · exact h4 u (.inl hu)
          · exact h1
          · exact h4 u (.inr hu)
        · rintro ⟨h2, h3, h4, h5, h6⟩
          refine ⟨h4 t (.inr (.inl rfl)), h2, h3, ?_, h5, h6⟩
          rintro u (hu | hu)
          · exact h4 u (.inl hu)
          · exact h4 u (.inr (.inr hu))
      · have hx : t.extend = false := by simpa using h
        have hf : (firstType c t).1.defs = put c.defs t.name t := by simp [firstType, hx]
        have he : (firstType c t).2 = [] ↔ (Builtin t.name → t.kind = .scalar) ∧ ¬ Reserved t.name ∧
            get c.defs t.name = none := by
          simp only [firstType, hx, Bool.false_eq_true, if_false, List.append_eq_nil_iff, Bool.not_false, Bool.true_and,
            and_assoc]
          refine and_congr ?_ (and_congr ?_ ?_)
          · rw [← isBuiltin_iff, ← isScalar_iff]
            cases isBuiltin t.name <;> cases t.kind <;> simp
          · rw [← reservedName_iff]
            cases reservedName t.name <;> simp
          · cases get c.defs t.name <;> simp
        rw [he, hf, if_neg h, if_neg h]
        simp only [List.map_cons, List.nodup_cons, List.mem_map, List.mem_cons, get_put]
        constructor
        · rintro ⟨⟨h1, h2, h3⟩, h4, h5, h6, h7, h8⟩
          have hne : ∀ u ∈ defined ds, t.name ≠ u.name := by
            intro u hu e
            have := h5 u hu
            simp [e] at this
          refine ⟨⟨?_, h4⟩, ?_, ?_, ?_, h8⟩
          · rintro ⟨u, hu, e⟩
            exact hne u hu e.symm
          · rintro u (rfl | hu)
            · exact h3
            · have := h5 u hu
              simpa [hne u hu] using this
          · rintro u ((rfl | hu) | hu)
            · exact h2
            · exact h6 u (.inl hu)
            · exact h6 u (.inr hu)
          · rintro u (rfl | hu)
            · exact h1
            · exact h7 u hu
        · rintro ⟨⟨h1, h2⟩, h3, h4, h5, h6⟩
          refine ⟨⟨h5 t (.inl rfl), h4 t (.inl (.inl rfl)), h3 t (.inl rfl)⟩, h2, ?_, ?_, fun u hu => h5 u (.inr hu), h6⟩
          · intro u hu
            have hne : t.name ≠ u.name := fun e => h1 ⟨u, hu, e.symm⟩
            simpa [hne] using h3 u (.inr hu)
          · rintro u (hu | hu)
            · exact h4 u (.inl (.inr hu))
            · exact h4 u (.inr hu)

end Verif.SchemaRules
