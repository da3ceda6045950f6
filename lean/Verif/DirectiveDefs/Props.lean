import Verif.DirectiveDefs.Lemmas

/-!
# C81: the definitions of composed directives
-/
namespace Verif.DirectiveDefs

variable {sort : List Definition → List Definition} {asked : Nat → Nat → Bool} {definitions : List Definition}

/-- A directive is defined at most once. -/
theorem C81_once (hs : Sorts sort) : ((compose sort asked definitions).2.map (·.name)).Pairwise (· < ·) := by
  obtain ⟨ns, hp, hm, he⟩ := compose_eq (asked := asked) (definitions := definitions) hs
  rw [he]
  simp only
  clear he hm
  induction ns with
  | nil => simp
  | cons n ns ih =>
    rw [List.pairwise_cons] at hp
    rw [List.filterMap_cons]
    cases hc : (composeChunk (group sort asked definitions n)).2 with
    | none => exact ih hp.2
    | some c =>
      simp only [List.map_cons]
      rw [List.pairwise_cons]
      refine ⟨?_, ih hp.2⟩
      intro k hk
      obtain ⟨x, hx, rfl⟩ := List.mem_map.mp hk
      obtain ⟨m, hm, hx'⟩ := List.mem_filterMap.mp hx
      rw [composed_name hs hc, composed_name hs hx']
      exact hp.1 m hm

/-- A directive is defined exactly when a subgraph defines it and asks for it, the definitions agree, and the first of them
has all the arguments the others require. -/
theorem C81_defined (hs : Sorts sort) (n : Nat) : (∃ c ∈ (compose sort asked definitions).2, c.name = n) ↔
    Agree (Wanted asked definitions n) ∧ ∃ d, First sort asked definitions n d ∧ Covers d (Wanted asked definitions n) := by
  constructor
  · rintro ⟨c, hc, rfl⟩
    have h := (mem_compose hs c).mp hc
    cases hg : group sort asked definitions c.name with
    | nil => rw [hg] at h; cases h
    | cons f r =>
      rw [hg] at h
      obtain ⟨_, h1, h2, h3⟩ := (composeChunk_iff f r c).mp h
      have hw : ∀ d, Wanted asked definitions c.name d ↔ d ∈ f :: r := fun d => by rw [← mem_group hs, hg]
      refine ⟨⟨?_, ?_⟩, f, (first_iff _ _).mpr ⟨r, hg⟩, ?_⟩
      · intro d hd e he a ha b hb
        exact h1 a (List.mem_flatMap.mpr ⟨d, (hw d).mp hd, ha⟩) b (List.mem_flatMap.mpr ⟨e, (hw e).mp he, hb⟩)
      · have : ∀ d, Wanted asked definitions c.name d → d.repeatable = f.repeatable := by
          intro d hd
          rcases List.mem_cons.mp ((hw d).mp hd) with rfl | hd
          · rfl
          · exact h2 d hd
        intro d hd e he
        rw [this d hd, this e he]
      · intro e he a ha hn
        rcases List.mem_cons.mp ((hw e).mp he) with rfl | he
        · exact ⟨a, ha, rfl⟩
        · exact h3 a (List.mem_flatMap.mpr ⟨e, he, ha⟩) hn
  · rintro ⟨ha, d, hf, hcov⟩
    obtain ⟨r, hg⟩ := (first_iff _ _).mp hf
    have hw : ∀ e, Wanted asked definitions n e ↔ e ∈ d :: r := fun e => by rw [← mem_group hs, hg]
    have hn : d.name = n := group_name hs hg
    refine ⟨⟨d.name, allLocations (d :: r), argsOf (d :: r), d.repeatable⟩, ?_, hn⟩
    rw [mem_compose hs]
    simp only
    rw [hn, hg, composeChunk_iff]
    refine ⟨by rw [hn], ?_, ?_, ?_⟩
    · intro a h1 b h2
      obtain ⟨x, hx, hxa⟩ := List.mem_flatMap.mp h1
      obtain ⟨y, hy, hyb⟩ := List.mem_flatMap.mp h2
      exact ha.arguments x ((hw x).mpr hx) y ((hw y).mpr hy) a hxa b hyb
    · intro e he
      exact ha.repeatable e ((hw e).mpr (List.mem_cons_of_mem _ he)) d ((hw d).mpr List.mem_cons_self)
    · intro a h1 h2
      obtain ⟨x, hx, hxa⟩ := List.mem_flatMap.mp h1
      exact hcov x ((hw x).mpr (List.mem_cons_of_mem _ hx)) a hxa h2

/-- The definition has the locations of all of them, is repeatable as they are, and has their arguments. -/
theorem C81_made_of (hs : Sorts sort) {c : Composed} (hc : c ∈ (compose sort asked definitions).2) :
    (∀ k, c.locations.testBit k = true ↔ ∃ d, Wanted asked definitions c.name d ∧ d.locations.testBit k = true) ∧
    (∀ d, Wanted asked definitions c.name d → d.repeatable = c.repeatable) ∧
    (∀ a, a ∈ c.arguments ↔ ∃ d, Wanted asked definitions c.name d ∧ a ∈ d.arguments) := by
  have h := (mem_compose hs c).mp hc
  cases hg : group sort asked definitions c.name with
  | nil => rw [hg] at h; cases h
  | cons f r =>
    rw [hg] at h
    obtain ⟨he, _, h2, _⟩ := (composeChunk_iff f r c).mp h
    have hw : ∀ d, Wanted asked definitions c.name d ↔ d ∈ f :: r := fun d => by rw [← mem_group hs, hg]
    refine ⟨fun k => ?_, fun d hd => ?_, fun a => ?_⟩
    · rw [he, ← he]
      have : c.locations = allLocations (f :: r) := by rw [he]
      rw [this, allLocations_iff]
      exact exists_congr (fun d => by rw [hw])
    · have : c.repeatable = f.repeatable := by rw [he]
      rw [this]
      rcases List.mem_cons.mp ((hw d).mp hd) with rfl | hd
      · rfl
      · exact h2 d hd
    · have : c.arguments = argsOf (f :: r) := by rw [he]
      rw [this]
      unfold argsOf
      rw [List.mem_flatMap]
      exact exists_congr (fun d => by rw [hw])

/-- Each argument is there once when one definition alone is asked for. What is missing: with more definitions it is not so,
see `C81_twice`. -/
theorem C81_arguments_once_partial (hs : Sorts sort) {c : Composed} (hc : c ∈ (compose sort asked definitions).2) {d : Definition}
    (hd : ∀ x, Wanted asked definitions c.name x → x = d) (hnd : (definitions.filter (fun x => decide (x = d))).length ≤ 1)
    (h1 : (d.arguments.map (·.name)).Nodup) : (c.arguments.map (·.name)).Nodup := by
  have h := (mem_compose hs c).mp hc
  cases hg : group sort asked definitions c.name with
  | nil => rw [hg] at h; cases h
  | cons f r =>
    rw [hg] at h
    obtain ⟨he, _, _, _⟩ := (composeChunk_iff f r c).mp h
    have hall : ∀ x ∈ f :: r, x = d := fun x hx => hd x ((mem_group hs _ x).mp (by rw [hg]; exact hx))
    have hlen : (f :: r).length ≤ 1 := by
      have e1 : (f :: r).filter (fun x => decide (x = d)) = f :: r :=
        List.filter_eq_self.mpr (fun x hx => by simpa using hall x hx)
      rw [← e1, ← hg]
      unfold group named
      rw [List.filter_filter]
      refine Nat.le_trans ?_ hnd
      have hp := (hs (definitions.filter (fun d => asked d.sg d.name))).1
      rw [(hp.filter _).length_eq, List.filter_filter]
      rw [← List.countP_eq_length_filter, ← List.countP_eq_length_filter]
      apply List.countP_mono_left
      intro x _ hx
      simp only [Bool.and_eq_true] at hx
      exact hx.1.1
    have hr : r = [] := by
      cases r with
      | nil => rfl
      | cons _ _ => simp at hlen
    have : c.arguments = argsOf (f :: r) := by rw [he]
    rw [this, hr, hall f List.mem_cons_self]
    simpa [argsOf] using h1

/-- An argument which two definitions have is in the composed definition twice. -/
theorem C81_twice (hs : Sorts sort) {c : Composed} (hc : c ∈ (compose sort asked definitions).2) {d e : Definition}
    (hd : Wanted asked definitions c.name d) (he : Wanted asked definitions c.name e) (hne : d ≠ e) {a b : Arg}
    (ha : a ∈ d.arguments) (hb : b ∈ e.arguments) (hab : a.name = b.name) : ¬ (c.arguments.map (·.name)).Nodup := by
  have h := (mem_compose hs c).mp hc
  cases hg : group sort asked definitions c.name with
  | nil => rw [hg] at h; cases h
  | cons f r =>
    rw [hg] at h
    obtain ⟨hce, _, _, _⟩ := (composeChunk_iff f r c).mp h
    have hargs : c.arguments = argsOf (f :: r) := by rw [hce]
    have hd' : d ∈ f :: r := by rw [← hg]; exact (mem_group hs _ d).mpr hd
    have he' : e ∈ f :: r := by rw [← hg]; exact (mem_group hs _ e).mpr he
    rw [hargs]
    generalize f :: r = l at hd' he'
    clear hg h hargs hce
    unfold argsOf
    rw [List.map_flatMap]
    have key : ∀ (l : List Definition) (d e : Definition), d ∈ l → e ∈ l → d ≠ e → ∀ a ∈ d.arguments, ∀ b ∈ e.arguments,
        a.name = b.name → ¬ (l.flatMap (fun d => d.arguments.map (·.name))).Nodup := by
      intro l
      induction l with
      | nil => intro d e h; cases h
      | cons x l ih =>
        intro d e hd he hne a ha b hb hab hn
        rw [List.flatMap_cons, List.nodup_append] at hn
        have cross : ∀ z ∈ l, ∀ a ∈ x.arguments, ∀ b ∈ z.arguments, a.name ≠ b.name := by
          intro z hz a ha b hb
          exact hn.2.2 _ (List.mem_map.mpr ⟨a, ha, rfl⟩) _
            (List.mem_flatMap.mpr ⟨z, hz, List.mem_map.mpr ⟨b, hb, rfl⟩⟩)
        rcases List.mem_cons.mp hd with hd1 | hd1 <;> rcases List.mem_cons.mp he with he1 | he1
        · exact hne (hd1.trans he1.symm)
        · subst hd1
          exact cross e he1 a ha b hb hab
        · subst he1
          exact cross d hd1 b hb a ha hab.symm
        · exact ih d e hd1 he1 hne a ha b hb hab hn.2.1
    exact key l d e hd' he' hne a ha b hb hab

/-- The composition fails for a directive exactly when it is asked for and not defined. -/
theorem C81_fails (hs : Sorts sort) (n : Nat) : (∃ x ∈ (compose sort asked definitions).1, Fatal x ∧ x.name = n) ↔
    (∃ d, Wanted asked definitions n d) ∧ ¬ ∃ c ∈ (compose sort asked definitions).2, c.name = n := by
  have hout : (∃ c ∈ (compose sort asked definitions).2, c.name = n) ↔
      (composeChunk (group sort asked definitions n)).2 ≠ none := by
    constructor
    · rintro ⟨c, hc, rfl⟩
      rw [(mem_compose hs c).mp hc]
      simp
    · intro h
      obtain ⟨c, hc⟩ := Option.ne_none_iff_exists'.mp h
      have := composed_name hs hc
      exact ⟨c, (mem_compose hs c).mpr (by rw [this]; exact hc), this⟩
  rw [hout]
  have hx : (∃ x ∈ (compose sort asked definitions).1, Fatal x ∧ x.name = n) ↔
      ∃ x ∈ (composeChunk (group sort asked definitions n)).1, Fatal x ∧ x.name = n := by
    constructor
    · rintro ⟨x, hx, hf, rfl⟩
      exact ⟨x, (mem_diags hs x).mp hx, hf, rfl⟩
    · rintro ⟨x, hx, hf, rfl⟩
      exact ⟨x, (mem_diags hs x).mpr hx, hf, rfl⟩
  rw [hx]
  cases hg : group sort asked definitions n with
  | nil =>
    constructor
    · rintro ⟨x, hx, _⟩
      cases hx
    · rintro ⟨⟨d, hd⟩, _⟩
      have := (mem_group hs n d).mpr hd
      rw [hg] at this
      cases this
  | cons f r =>
    have hn := group_name hs hg
    have hw : ∃ d, Wanted asked definitions n d := ⟨f, (mem_group hs n f).mp (by rw [hg]; exact List.mem_cons_self)⟩
    simp only [hw, true_and, ne_eq, Decidable.not_not]
    unfold composeChunk
    simp only [Option.map_eq_none_iff]
    rw [← addDefs_fatal]
    constructor
    · rintro ⟨x, hx, hf, hxn⟩
      rcases List.mem_append.mp hx with hx | hx
      · obtain ⟨d, _, _, rfl⟩ := (locationDiags_mem f r x).mp hx
        cases hf
      · exact ⟨x, hx, hf⟩
    · rintro ⟨x, hx, hf⟩
      exact ⟨x, List.mem_append_right _ hx, hf, (addDefs_name f _ _ _ x hx).trans hn⟩

/-- Definitions with other locations than the first one are reported. -/
theorem C81_locations (hs : Sorts sort) {n : Nat} {first : Definition} (hf : First sort asked definitions n first) (s t : Nat) :
    Diag.locations n s t ∈ (compose sort asked definitions).1 ↔
      s = first.sg ∧ ∃ d, Wanted asked definitions n d ∧ d.locations ≠ first.locations ∧ d.sg = t := by
  obtain ⟨r, hg⟩ := (first_iff _ _).mp hf
  have hw : ∀ d, Wanted asked definitions n d ↔ d ∈ first :: r := fun d => by rw [← mem_group hs, hg]
  rw [mem_diags hs]
  show _ ∈ (composeChunk (group sort asked definitions n)).1 ↔ _
  rw [hg]
  unfold composeChunk
  simp only [List.mem_append, locationDiags_mem, group_name hs hg]
  constructor
  · rintro (⟨d, hd, hl, e⟩ | h)
    · injection e with e1 e2 e3
      exact ⟨e2, d, (hw d).mpr (List.mem_cons_of_mem _ hd), hl, e3.symm⟩
    · exact absurd h (addDefs_not_locations first n s t _ _ _)
  · rintro ⟨rfl, d, hd, hl, rfl⟩
    rcases List.mem_cons.mp ((hw d).mp hd) with rfl | hd'
    · exact absurd rfl hl
    · exact Or.inl ⟨d, hd', hl, rfl⟩

/-- When the directive is defined, definitions with other arguments than the first one are reported. -/
theorem C81_arguments_reported (hs : Sorts sort) {c : Composed} (hc : c ∈ (compose sort asked definitions).2) {first : Definition}
    (hf : First sort asked definitions c.name first) (s t : Nat) :
    Diag.arguments c.name s t ∈ (compose sort asked definitions).1 ↔
      s = first.sg ∧ ∃ d, Wanted asked definitions c.name d ∧ d.arguments ≠ first.arguments ∧ d.sg = t := by
  obtain ⟨r, hg⟩ := (first_iff _ _).mp hf
  have hw : ∀ d, Wanted asked definitions c.name d ↔ d ∈ first :: r := fun d => by rw [← mem_group hs, hg]
  have h := (mem_compose hs c).mp hc
  rw [mem_diags hs]
  show _ ∈ (composeChunk (group sort asked definitions c.name)).1 ↔ _
  have hname := group_name hs hg
  rw [hg] at h ⊢
  unfold composeChunk at h ⊢
  simp only [Option.map_eq_some_iff] at h
  obtain ⟨as, has, _⟩ := h
  simp only [List.mem_append, locationDiags_mem, addDefs_warnings first _ _ _ _ has, List.mem_map, List.mem_filter,
    decide_eq_true_iff, hname]
  constructor
  · rintro (⟨d, hd, hl, e⟩ | ⟨d, ⟨hd, hl⟩, e⟩)
    · cases e
    · injection e with e1 e2 e3
      exact ⟨e2.symm, d, (hw d).mpr hd, hl, e3⟩
  · rintro ⟨rfl, d, hd, hl, rfl⟩
    exact Or.inr ⟨d, ⟨(hw d).mp hd, hl⟩, rfl⟩

/-! ## Cases -/

namespace Demo

/-- Sorting by insertion. -/
def insert (d : Definition) : List Definition → List Definition
  | [] => [d]
  | e :: l => if d.name ≤ e.name then d :: e :: l else e :: insert d l

def sorted (l : List Definition) : List Definition := l.foldr insert []

theorem insert_perm (d : Definition) : ∀ l, (insert d l).Perm (d :: l)
  | [] => List.Perm.refl _
  | e :: l => by
    rw [insert]
    split
    · exact List.Perm.refl _
    · exact ((insert_perm d l).cons e).trans (List.Perm.swap d e l)

theorem insert_sorted (d : Definition) : ∀ {l : List Definition}, l.Pairwise (fun a b => a.name ≤ b.name) →
    (insert d l).Pairwise (fun a b => a.name ≤ b.name)
  | [], _ => by simp [insert]
  | e :: l, h => by
    rw [insert]
    have h' := List.pairwise_cons.mp h
    split
    · rename_i hle
      rw [List.pairwise_cons]
      refine ⟨fun x hx => ?_, h⟩
      rcases List.mem_cons.mp hx with rfl | hx
      · exact hle
      · exact Nat.le_trans hle (h'.1 x hx)
    · rename_i hle
      rw [List.pairwise_cons]
      refine ⟨fun x hx => ?_, insert_sorted d h'.2⟩
      rcases List.mem_cons.mp ((insert_perm d l).mem_iff.mp hx) with rfl | hx
      · omega
      · exact h'.1 x hx

/-- There is such an order. -/
theorem sorts : Sorts sorted := by
  intro l
  induction l with
  | nil => exact ⟨List.Perm.refl _, List.Pairwise.nil⟩
  | cons d l ih => exact ⟨(insert_perm d _).trans (ih.1.cons d), insert_sorted d ih.2⟩

def int : Ty := ⟨0, false⟩
def always : Nat → Nat → Bool := fun _ _ => true

/-- `directive @one(limit: Int) on FIELD_DEFINITION` in two subgraphs. -/
def one (sg : Nat) : Definition := ⟨sg, 1, 2, [⟨7, int, none, []⟩], false⟩

/-- The argument is there twice: the composed schema is not valid. -/
theorem C81_arguments_once_false :
    compose sorted always [one 0, one 1] = ([], [⟨1, 2, [⟨7, int, none, []⟩, ⟨7, int, none, []⟩], false⟩]) := by decide +kernel

/-- With a required argument in one of two subgraphs, it matters which is first. -/
def strict (sg : Nat) : Definition := ⟨sg, 1, 2, [⟨7, ⟨0, true⟩, none, []⟩], false⟩
def loose (sg : Nat) : Definition := ⟨sg, 1, 2, [], false⟩

theorem C81_order_false :
    compose sorted always [strict 0, loose 1] = ([.arguments 1 0 1], [⟨1, 2, [⟨7, ⟨0, true⟩, none, []⟩], false⟩]) ∧
    compose sorted always [loose 0, strict 1] = ([.incompatible 1 0 1], []) := by
  exact ⟨by decide +kernel, by decide +kernel⟩

/-- Two definitions with other locations, and one nobody asks for. -/
example : compose sorted (fun _ n => n == 1) [⟨0, 1, 2, [], true⟩, ⟨0, 3, 2, [], true⟩, ⟨1, 1, 4, [], true⟩] =
    ([.locations 1 0 1], [⟨1, 6, [], true⟩]) := by decide +kernel

/-- The case meets the hypotheses of `C81_twice`. -/
example : (⟨1, 2, [⟨7, int, none, []⟩, ⟨7, int, none, []⟩], false⟩ : Composed) ∈ (compose sorted always [one 0, one 1]).2 ∧
    Wanted always [one 0, one 1] 1 (one 0) ∧ Wanted always [one 0, one 1] 1 (one 1) ∧ one 0 ≠ one 1 := by
  refine ⟨by decide +kernel, ⟨by decide, rfl, rfl⟩, ⟨by decide, rfl, rfl⟩, by decide⟩

/-- A case which meets the hypotheses of `C81_arguments_once_partial`. -/
example : (⟨1, 2, [⟨7, int, none, []⟩], false⟩ : Composed) ∈ (compose sorted always [one 0]).2 ∧
    (∀ x, Wanted always [one 0] 1 x → x = one 0) := by
  refine ⟨by decide +kernel, ?_⟩
  rintro x ⟨h, _⟩
  exact List.mem_singleton.mp h

end Demo
end Verif.DirectiveDefs
