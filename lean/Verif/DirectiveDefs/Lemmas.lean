import Verif.DirectiveDefs.Spec

namespace Verif.DirectiveDefs

def named (n : Nat) (l : List Definition) : List Definition := l.filter (fun d => decide (d.name = n))

theorem chunks_spec : ∀ {l : List Definition}, l.Pairwise (fun a b => a.name ≤ b.name) →
    ∃ ns : List Nat, ns.Pairwise (· < ·) ∧ (∀ n, n ∈ ns ↔ ∃ d ∈ l, d.name = n) ∧ chunks l = ns.map (fun n => named n l)
  | [], _ => ⟨[], List.Pairwise.nil, by simp, rfl⟩
  | [d], _ => ⟨[d.name], by simp, by simp [eq_comm], by simp [chunks, named]⟩
  | d :: e :: l, h => by
    have h' := List.pairwise_cons.mp h
    obtain ⟨ns, hs, hm, hc⟩ := chunks_spec h'.2
    have hle : ∀ n ∈ ns, e.name ≤ n := by
      intro n hn
      obtain ⟨x, hx, rfl⟩ := (hm n).mp hn
      rcases List.mem_cons.mp hx with rfl | hx
      · exact Nat.le_refl _
      · exact (List.pairwise_cons.mp h'.2).1 x hx
    have he : e.name ∈ ns := (hm _).mpr ⟨e, List.mem_cons_self, rfl⟩
    cases ns with
    | nil => cases he
    | cons n ns =>
      have hn : n = e.name := by
        rcases List.mem_cons.mp he with h1 | h1
        · exact h1.symm
        · have h2 := (List.pairwise_cons.mp hs).1 _ h1
          have h3 := hle n List.mem_cons_self
          omega
      subst hn
      have hfirst : named e.name (e :: l) = e :: named e.name l := by simp [named]
      have hde := h'.1 e List.mem_cons_self
      by_cases heq : d.name = e.name
      · refine ⟨e.name :: ns, hs, ?_, ?_⟩
        · intro k
          rw [hm]
          constructor
          · rintro ⟨x, hx, hk⟩
            exact ⟨x, List.mem_cons_of_mem _ hx, hk⟩
          · rintro ⟨x, hx, hk⟩
            rcases List.mem_cons.mp hx with rfl | hx
            · exact ⟨e, List.mem_cons_self, heq.symm.trans hk⟩
            · exact ⟨x, hx, hk⟩
        · rw [chunks.eq_def]
          simp only
          rw [hc, List.map_cons, List.map_cons, hfirst]
          simp only
          rw [if_pos heq]
          have e1 : named e.name (d :: e :: l) = d :: e :: named e.name l := by simp [named, heq]
          rw [e1]
          congr 1
          refine List.map_congr_left (fun k hk => ?_)
          have := (List.pairwise_cons.mp hs).1 k hk
          unfold named
          rw [List.filter_cons_of_neg (a := d) (by simp; omega)]
      · refine ⟨d.name :: e.name :: ns, ?_, ?_, ?_⟩
        · rw [List.pairwise_cons]
          refine ⟨fun k hk => ?_, hs⟩
          have := hle k hk
          omega
        · intro k
          rw [List.mem_cons, hm]
          constructor
          · rintro (rfl | ⟨x, hx, hk⟩)
            · exact ⟨d, List.mem_cons_self, rfl⟩
            · exact ⟨x, List.mem_cons_of_mem _ hx, hk⟩
          · rintro ⟨x, hx, hk⟩
            rcases List.mem_cons.mp hx with rfl | hx
            · exact Or.inl hk.symm
            · exact Or.inr ⟨x, hx, hk⟩
        · rw [chunks.eq_def]
          simp only
          rw [hc, List.map_cons, hfirst]
          simp only
          rw [if_neg heq, List.map_cons, List.map_cons]
          have e1 : named d.name (d :: e :: l) = [d] := by
            unfold named
            rw [List.filter_cons_of_pos (by simp)]
            congr 1
            rw [List.filter_eq_nil_iff]
            intro x hx
            have : e.name ≤ x.name := by
              rcases List.mem_cons.mp hx with rfl | hx
              · exact Nat.le_refl _
              · exact (List.pairwise_cons.mp h'.2).1 x hx
            simp
            omega
          have e2 : ∀ k ∈ e.name :: ns, named k (d :: e :: l) = named k (e :: l) := by
            intro k hk
            have := hle k hk
            unfold named
            rw [List.filter_cons_of_neg (a := d) (by simp; omega)]
          rw [e1, e2 _ List.mem_cons_self, hfirst]
          congr 2
          exact List.map_congr_left (fun k hk => (e2 k (List.mem_cons_of_mem _ hk)).symm)

/-! ## Locations -/

theorem allLocations_from (k : Nat) : ∀ (ds : List Definition) (l : Nat),
    (ds.foldl (fun l d => l ||| d.locations) l).testBit k = true ↔ l.testBit k = true ∨ ∃ d ∈ ds, d.locations.testBit k = true
  | [], l => by simp
  | d :: ds, l => by
    rw [List.foldl_cons, allLocations_from k ds, Nat.testBit_or, Bool.or_eq_true_iff, or_assoc]
    simp

theorem allLocations_iff (ds : List Definition) (k : Nat) :
    (allLocations ds).testBit k = true ↔ ∃ d ∈ ds, d.locations.testBit k = true := by
  unfold allLocations
  rw [allLocations_from]
  simp

/-! ## Arguments -/

/-- Two arguments of the same name are the same. -/
def Same (a b : Arg) : Prop := a.name = b.name → a.type = b.type ∧ a.default = b.default

theorem Same.symm {a b : Arg} (h : Same a b) : Same b a := fun e => ⟨(h e.symm).1.symm, (h e.symm).2.symm⟩

/-- The arguments so far agree. -/
def AllSame (acc : List Arg) : Prop := ∀ a ∈ acc, ∀ b ∈ acc, Same a b

theorem clash_iff {acc : List Arg} (h : AllSame acc) (ix : Nat) (a : Arg) : clash acc ix a = false ↔
    (∀ b ∈ acc, Same b a) ∧ (a.type.nonNull = true → ix ≠ 0 → ∃ b ∈ acc, b.name = a.name) := by
  unfold clash
  cases hf : acc.find? (fun b => decide (b.name = a.name)) with
  | none =>
    have hno : ∀ b ∈ acc, b.name ≠ a.name := by
      intro b hb
      have := List.find?_eq_none.mp hf b hb
      simpa using this
    simp only [Bool.and_eq_false_iff, decide_eq_false_iff_not, ne_eq, Decidable.not_not]
    constructor
    · intro h1
      refine ⟨fun b hb e => absurd e (hno b hb), fun h2 h3 => ?_⟩
      rcases h1 with h1 | h1
      · rw [h1] at h2; cases h2
      · exact absurd h1 h3
    · rintro ⟨_, h1⟩
      by_cases hix : ix = 0
      · exact Or.inr hix
      · left
        cases hn : a.type.nonNull with
        | false => rfl
        | true =>
          obtain ⟨b, hb, e⟩ := h1 hn hix
          exact absurd e (hno b hb)
  | some b =>
    have hb := List.mem_of_find?_eq_some hf
    have hn : b.name = a.name := by simpa using List.find?_some hf
    simp only [decide_eq_false_iff_not, not_or, ne_eq, Decidable.not_not]
    constructor
    · rintro ⟨h1, h2⟩
      refine ⟨fun c hc e => ?_, fun _ _ => ⟨b, hb, hn⟩⟩
      have := h c hc b hb (e.trans hn.symm)
      exact ⟨this.1.trans h1, this.2.trans h2⟩
    · rintro ⟨h1, _⟩
      exact h1 b hb hn

theorem allSame_append {acc : List Arg} (h : AllSame acc) {a : Arg} (ha : ∀ b ∈ acc, Same b a) : AllSame (acc ++ [a]) := by
  intro x hx y hy
  rcases List.mem_append.mp hx with hx | hx <;> rcases List.mem_append.mp hy with hy | hy
  · exact h x hx y hy
  · rw [List.mem_singleton.mp hy]; exact ha x hx
  · rw [List.mem_singleton.mp hx]; exact (ha y hy).symm
  · rw [List.mem_singleton.mp hx, List.mem_singleton.mp hy]; exact fun _ => ⟨rfl, rfl⟩

/-- What is added is the arguments as they are, if they agree and are known when required. -/
theorem addArgs_iff (ix : Nat) : ∀ (as acc : List Arg), AllSame acc → ∀ r, addArgs ix acc as = some r ↔
    r = acc ++ as ∧ AllSame (acc ++ as) ∧ (ix ≠ 0 → ∀ a ∈ as, a.type.nonNull = true → ∃ b ∈ acc, b.name = a.name)
  | [], acc, h, r => by
    simp only [addArgs, Option.some.injEq, List.append_nil, List.not_mem_nil, false_imp_iff, implies_true, and_true]
    constructor
    · rintro rfl
      exact ⟨rfl, h⟩
    · rintro ⟨rfl, _⟩
      rfl
  | a :: as, acc, h, r => by
    rw [addArgs]
    have e0 : acc ++ a :: as = (acc ++ [a]) ++ as := by simp
    by_cases hc : clash acc ix a = true
    · rw [if_pos hc]
      simp only [reduceCtorEq, false_iff]
      rintro ⟨_, hs, hr⟩
      have : clash acc ix a = false := by
        rw [clash_iff h]
        refine ⟨fun b hb => hs b (List.mem_append_left _ hb) a (by simp), fun h1 h2 => hr h2 a List.mem_cons_self h1⟩
      rw [hc] at this
      cases this
    · have hc' : clash acc ix a = false := by simpa using hc
      rw [if_neg hc]
      obtain ⟨h1, h2⟩ := (clash_iff h ix a).mp hc'
      rw [addArgs_iff ix as _ (allSame_append h h1), ← e0]
      refine and_congr_right (fun _ => and_congr_right (fun hs => ?_))
      constructor
      · intro hr hix b hb hn
        rcases List.mem_cons.mp hb with rfl | hb
        · exact h2 hn hix
        · obtain ⟨c, hc, e⟩ := hr hix b hb hn
          rcases List.mem_append.mp hc with hc | hc
          · exact ⟨c, hc, e⟩
          · rw [List.mem_singleton.mp hc] at e
            have := hs a (by simp) b (by simp [hb]) e
            obtain ⟨c', hc', e'⟩ := h2 (by rw [this.1]; exact hn) hix
            exact ⟨c', hc', e'.trans e⟩
      · intro hr hix b hb hn
        obtain ⟨c, hc, e⟩ := hr hix b (List.mem_cons_of_mem _ hb) hn
        exact ⟨c, List.mem_append_left _ hc, e⟩

def argsOf (ds : List Definition) : List Arg := ds.flatMap (·.arguments)

/-- All of them, after the first one. -/
theorem addDefs_iff (first : Definition) : ∀ (ds : List Definition) (ix : Nat) (acc : List Arg), AllSame acc → ix ≠ 0 → ∀ r,
    (addDefs first ix acc ds).2 = some r ↔
      r = acc ++ argsOf ds ∧ AllSame (acc ++ argsOf ds) ∧ (∀ d ∈ ds, d.repeatable = first.repeatable) ∧
        ∀ a ∈ argsOf ds, a.type.nonNull = true → ∃ b ∈ acc, b.name = a.name
  | [], ix, acc, h, hix, r => by
    simp only [addDefs, argsOf, Option.some.injEq, List.flatMap_nil, List.append_nil, List.not_mem_nil, false_imp_iff,
      implies_true, and_true]
    constructor
    · rintro rfl
      exact ⟨rfl, h⟩
    · rintro ⟨rfl, _⟩
      rfl
  | d :: ds, ix, acc, h, hix, r => by
    rw [addDefs]
    have e0 : argsOf (d :: ds) = d.arguments ++ argsOf ds := rfl
    cases ha : addArgs ix acc d.arguments with
    | none =>
      simp only [reduceCtorEq, false_iff]
      rintro ⟨_, hs, _, hr⟩
      have : addArgs ix acc d.arguments = some (acc ++ d.arguments) := by
        rw [addArgs_iff ix _ _ h]
        refine ⟨rfl, ?_, fun _ a ha => hr a (by rw [e0]; exact List.mem_append_left _ ha)⟩
        intro x hx y hy
        rw [e0, ← List.append_assoc] at hs
        exact hs x (List.mem_append_left _ hx) y (List.mem_append_left _ hy)
      rw [ha] at this
      cases this
    | some acc' =>
      obtain ⟨rfl, hs1, hr1⟩ := (addArgs_iff ix _ _ h _).mp ha
      simp only
      by_cases hrep : d.repeatable = first.repeatable
      · rw [if_neg (by simpa using hrep)]
        simp only
        rw [addDefs_iff first ds (ix + 1) _ hs1 (by omega), e0, List.append_assoc]
        constructor
        · rintro ⟨rfl, h1, h2, h3⟩
          refine ⟨rfl, h1, ?_, ?_⟩
          · intro x hx
            rcases List.mem_cons.mp hx with rfl | hx
            · exact hrep
            · exact h2 x hx
          · intro a ha' hn
            rcases List.mem_append.mp ha' with ha' | ha'
            · exact hr1 hix a ha' hn
            · obtain ⟨b, hb, e⟩ := h3 a ha' hn
              rcases List.mem_append.mp hb with hb | hb
              · exact ⟨b, hb, e⟩
              · have := h1 b (by simp [hb]) a (by simp [ha']) e
                obtain ⟨c, hc, e'⟩ := hr1 hix b hb (by rw [this.1]; exact hn)
                exact ⟨c, hc, e'.trans e⟩
        · rintro ⟨rfl, h1, h2, h3⟩
          refine ⟨rfl, h1, fun x hx => h2 x (List.mem_cons_of_mem _ hx), fun a ha' hn => ?_⟩
          obtain ⟨b, hb, e⟩ := h3 a (List.mem_append_right _ ha') hn
          exact ⟨b, List.mem_append_left _ hb, e⟩
      · rw [if_pos (by simpa using hrep)]
        simp only [reduceCtorEq, false_iff]
        rintro ⟨_, _, h2, _⟩
        exact hrep (h2 d List.mem_cons_self)

/-- A chunk is composed exactly when its definitions agree and the first has the required arguments. -/
theorem composeChunk_iff (first : Definition) (others : List Definition) (c : Composed) :
    (composeChunk (first :: others)).2 = some c ↔
      c = ⟨first.name, allLocations (first :: others), argsOf (first :: others), first.repeatable⟩ ∧
      AllSame (argsOf (first :: others)) ∧ (∀ d ∈ others, d.repeatable = first.repeatable) ∧
      ∀ a ∈ argsOf others, a.type.nonNull = true → ∃ b ∈ first.arguments, b.name = a.name := by
  unfold composeChunk
  simp only
  rw [addDefs, Option.map_eq_some_iff]
  have e0 : argsOf (first :: others) = first.arguments ++ argsOf others := rfl
  have hnil : AllSame [] := fun a ha => by cases ha
  cases ha : addArgs 0 [] first.arguments with
  | none =>
    simp only [reduceCtorEq, false_and, exists_false, false_iff]
    rintro ⟨_, hs, _⟩
    have : addArgs 0 [] first.arguments = some ([] ++ first.arguments) := by
      rw [addArgs_iff 0 _ _ hnil]
      refine ⟨rfl, ?_, fun h => absurd rfl h⟩
      intro x hx y hy
      rw [e0] at hs
      exact hs x (List.mem_append_left _ hx) y (List.mem_append_left _ hy)
    rw [ha] at this
    cases this
  | some acc' =>
    obtain ⟨rfl, hs1, _⟩ := (addArgs_iff 0 _ _ hnil _).mp ha
    simp only [ne_eq, not_true_eq_false, if_false]
    simp only [addDefs_iff first others (0 + 1) _ hs1 (by omega)]
    rw [e0]
    simp only [List.nil_append]
    constructor
    · rintro ⟨as, ⟨rfl, h⟩, rfl⟩
      exact ⟨rfl, h⟩
    · rintro ⟨rfl, h⟩
      exact ⟨_, ⟨rfl, h⟩, rfl⟩

/-! ## What is reported -/

def Fatal : Diag → Prop
  | .incompatible _ _ _ => True
  | .repeatable _ _ _ => True
  | _ => False

theorem addDefs_fatal (first : Definition) : ∀ (ds : List Definition) (ix : Nat) (acc : List Arg),
    (∃ x ∈ (addDefs first ix acc ds).1, Fatal x) ↔ (addDefs first ix acc ds).2 = none
  | [], ix, acc => by simp [addDefs]
  | d :: ds, ix, acc => by
    rw [addDefs]
    cases addArgs ix acc d.arguments with
    | none => simp [Fatal]
    | some acc' =>
      simp only
      split
      · simp [Fatal]
      · simp only [List.mem_append]
        rw [← addDefs_fatal first ds (ix + 1) acc']
        constructor
        · rintro ⟨x, hx | hx, hf⟩
          · split at hx
            · rw [List.mem_singleton] at hx
              subst hx
              cases hf
            · cases hx
          · exact ⟨x, hx, hf⟩
        · rintro ⟨x, hx, hf⟩
          exact ⟨x, Or.inr hx, hf⟩

/-- The name a diagnostic is about. -/
def Diag.name : Diag → Nat
  | .locations n _ _ => n
  | .incompatible n _ _ => n
  | .arguments n _ _ => n
  | .repeatable n _ _ => n

theorem addDefs_name (first : Definition) : ∀ (ds : List Definition) (ix : Nat) (acc : List Arg),
    ∀ x ∈ (addDefs first ix acc ds).1, x.name = first.name
  | [], ix, acc => by simp [addDefs]
  | d :: ds, ix, acc => by
    rw [addDefs]
    cases addArgs ix acc d.arguments with
    | none => simp [Diag.name]
    | some acc' =>
      simp only
      split
      · intro x hx
        rcases List.mem_append.mp hx with hx | hx
        · split at hx
          · rw [List.mem_singleton.mp hx]; rfl
          · cases hx
        · rw [List.mem_singleton.mp hx]; rfl
      · intro x hx
        rcases List.mem_append.mp hx with hx | hx
        · split at hx
          · rw [List.mem_singleton.mp hx]; rfl
          · cases hx
        · exact addDefs_name first ds _ _ x hx

theorem addDefs_warnings (first : Definition) : ∀ (ds : List Definition) (ix : Nat) (acc r : List Arg),
    (addDefs first ix acc ds).2 = some r →
    (addDefs first ix acc ds).1 = (ds.filter (fun d => decide (d.arguments ≠ first.arguments))).map
      (fun d => Diag.arguments first.name first.sg d.sg)
  | [], ix, acc, r => by simp [addDefs]
  | d :: ds, ix, acc, r => by
    rw [addDefs]
    cases addArgs ix acc d.arguments with
    | none => simp
    | some acc' =>
      simp only
      split
      · simp
      · intro h
        simp only at h ⊢
        rw [addDefs_warnings first ds _ _ r h, List.filter_cons]
        by_cases ha : d.arguments = first.arguments
        · simp [ha]
        · simp [ha]

theorem locationDiags_mem (first : Definition) (others : List Definition) (x : Diag) : x ∈ locationDiags first others ↔
    ∃ d ∈ others, d.locations ≠ first.locations ∧ x = .locations first.name first.sg d.sg := by
  unfold locationDiags
  simp only [List.mem_map, List.mem_filter, decide_eq_true_iff]
  constructor
  · rintro ⟨d, ⟨hd, hl⟩, rfl⟩
    exact ⟨d, hd, hl, rfl⟩
  · rintro ⟨d, hd, hl, rfl⟩
    exact ⟨d, ⟨hd, hl⟩, rfl⟩

theorem addDefs_not_locations (first : Definition) (a b c : Nat) : ∀ (ds : List Definition) (ix : Nat) (acc : List Arg),
    Diag.locations a b c ∉ (addDefs first ix acc ds).1
  | [], ix, acc => by simp [addDefs]
  | d :: ds, ix, acc => by
    rw [addDefs]
    cases addArgs ix acc d.arguments with
    | none => simp
    | some acc' =>
      simp only
      split
      · split <;> simp
      · simp only [List.mem_append, not_or]
        refine ⟨?_, addDefs_not_locations first a b c ds _ _⟩
        split <;> simp

/-! ## All -/

section
variable {sort : List Definition → List Definition} {asked : Nat → Nat → Bool} {definitions : List Definition}

def group (sort : List Definition → List Definition) (asked : Nat → Nat → Bool) (definitions : List Definition) (n : Nat) :
    List Definition := named n (sort (definitions.filter (fun d => asked d.sg d.name)))

theorem mem_group (hs : Sorts sort) (n : Nat) (d : Definition) :
    d ∈ group sort asked definitions n ↔ Wanted asked definitions n d := by
  unfold group named Wanted
  rw [List.mem_filter, (hs _).1.mem_iff, List.mem_filter, decide_eq_true_iff, and_assoc]

theorem compose_eq (hs : Sorts sort) : ∃ ns : List Nat, ns.Pairwise (· < ·) ∧
    (∀ n, n ∈ ns ↔ ∃ d, Wanted asked definitions n d) ∧
    compose sort asked definitions =
      (ns.flatMap (fun n => (composeChunk (group sort asked definitions n)).1),
        ns.filterMap (fun n => (composeChunk (group sort asked definitions n)).2)) := by
  obtain ⟨ns, h1, h2, h3⟩ := chunks_spec (hs (definitions.filter (fun d => asked d.sg d.name))).2
  refine ⟨ns, h1, fun n => ?_, ?_⟩
  · rw [h2]
    constructor
    · rintro ⟨d, hd, hn⟩
      exact ⟨d, (mem_group hs n d).mp (List.mem_filter.mpr ⟨hd, by simpa using hn⟩)⟩
    · rintro ⟨d, hd⟩
      have := List.mem_filter.mp ((mem_group hs n d).mpr hd)
      exact ⟨d, this.1, by simpa using this.2⟩
  · unfold compose
    simp only
    rw [h3, List.map_map, List.flatMap_map, List.filterMap_map]
    rfl

theorem first_iff (n : Nat) (d : Definition) :
    First sort asked definitions n d ↔ ∃ rest, group sort asked definitions n = d :: rest := by
  unfold First group named
  generalize sort (definitions.filter (fun d => asked d.sg d.name)) = l
  induction l with
  | nil => simp
  | cons e l ih =>
    rw [List.filter_cons]
    by_cases he : e.name = n
    · rw [if_pos (by simpa using he)]
      constructor
      · rintro ⟨b, a, h, hn, hb⟩
        cases b with
        | nil =>
          simp only [List.nil_append, List.cons.injEq] at h
          exact ⟨_, by rw [h.1]⟩
        | cons x b =>
          simp only [List.cons_append, List.cons.injEq] at h
          exact absurd (h.1 ▸ he) (hb x List.mem_cons_self)
      · rintro ⟨rest, h⟩
        simp only [List.cons.injEq] at h
        exact ⟨[], l, by rw [h.1]; rfl, h.1 ▸ he, by simp⟩
    · rw [if_neg (by simpa using he), ← ih]
      constructor
      · rintro ⟨b, a, h, hn, hb⟩
        cases b with
        | nil =>
          simp only [List.nil_append, List.cons.injEq] at h
          exact absurd (h.1 ▸ hn) he
        | cons x b =>
          simp only [List.cons_append, List.cons.injEq] at h
          exact ⟨b, a, h.2, hn, fun y hy => hb y (List.mem_cons_of_mem _ hy)⟩
      · rintro ⟨b, a, h, hn, hb⟩
        refine ⟨e :: b, a, by rw [h]; rfl, hn, ?_⟩
        intro y hy
        rcases List.mem_cons.mp hy with rfl | hy
        · exact he
        · exact hb y hy

theorem group_cons (hs : Sorts sort) {n : Nat} {d : Definition} (h : Wanted asked definitions n d) :
    ∃ first rest, group sort asked definitions n = first :: rest := by
  have := (mem_group hs n d).mpr h
  cases hg : group sort asked definitions n with
  | nil => rw [hg] at this; cases this
  | cons f r => exact ⟨f, r, rfl⟩

theorem group_name (hs : Sorts sort) {n : Nat} {first : Definition} {rest : List Definition}
    (h : group sort asked definitions n = first :: rest) : first.name = n :=
  ((mem_group hs n first).mp (by rw [h]; exact List.mem_cons_self)).2.2

theorem composed_name (hs : Sorts sort) {n : Nat} {c : Composed} (h : (composeChunk (group sort asked definitions n)).2 = some c) :
    c.name = n := by
  cases hg : group sort asked definitions n with
  | nil => rw [hg] at h; cases h
  | cons f r =>
    rw [hg] at h
    rw [((composeChunk_iff f r c).mp h).1]
    exact group_name hs hg

theorem mem_compose (hs : Sorts sort) (c : Composed) : c ∈ (compose sort asked definitions).2 ↔
    (composeChunk (group sort asked definitions c.name)).2 = some c := by
  obtain ⟨ns, _, hm, he⟩ := compose_eq (asked := asked) (definitions := definitions) hs
  rw [he]
  simp only [List.mem_filterMap]
  constructor
  · rintro ⟨n, _, h⟩
    rw [composed_name hs h]
    exact h
  · intro h
    refine ⟨c.name, (hm _).mpr ?_, h⟩
    cases hg : group sort asked definitions c.name with
    | nil => rw [hg] at h; cases h
    | cons f r => exact ⟨f, (mem_group hs _ f).mp (by rw [hg]; exact List.mem_cons_self)⟩

theorem mem_diags (hs : Sorts sort) (x : Diag) : x ∈ (compose sort asked definitions).1 ↔
    x ∈ (composeChunk (group sort asked definitions x.name)).1 := by
  obtain ⟨ns, _, hm, he⟩ := compose_eq (asked := asked) (definitions := definitions) hs
  rw [he]
  simp only [List.mem_flatMap]
  have hname : ∀ n, x ∈ (composeChunk (group sort asked definitions n)).1 → x.name = n := by
    intro n h
    cases hg : group sort asked definitions n with
    | nil => rw [hg] at h; cases h
    | cons f r =>
      rw [hg] at h
      rw [← group_name hs hg]
      unfold composeChunk at h
      rcases List.mem_append.mp h with h | h
      · obtain ⟨d, _, _, rfl⟩ := (locationDiags_mem f r x).mp h
        rfl
      · exact addDefs_name f _ _ _ x h
  constructor
  · rintro ⟨n, _, h⟩
    rw [hname n h]
    exact h
  · intro h
    refine ⟨x.name, (hm _).mpr ?_, h⟩
    cases hg : group sort asked definitions x.name with
    | nil => rw [hg] at h; cases h
    | cons f r => exact ⟨f, (mem_group hs _ f).mp (by rw [hg]; exact List.mem_cons_self)⟩

end

end Verif.DirectiveDefs
