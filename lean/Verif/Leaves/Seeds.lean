import Verif.Leaves.Lemmas

/-!
# What the seeds leave
-/
namespace Verif.Leaves

theorem findValue_spec {vs : List (Text × Bool)} (hn : (vs.map (·.1)).Nodup) (s : Text) :
    (∃ b, findValue vs s = some (s, b) ∧ (s, b) ∈ vs ∧ (s, !b) ∉ vs) ∨
    (findValue vs s = none ∧ ∀ b, (s, b) ∉ vs) := by
  induction vs with
  | nil => right; exact ⟨rfl, by simp⟩
  | cons v vs ih =>
    obtain ⟨n, b⟩ := v
    rw [List.map_cons, List.nodup_cons] at hn
    by_cases h : n = s
    · subst h
      left
      refine ⟨b, by simp [findValue], List.mem_cons_self, ?_⟩
      intro hm
      rcases List.mem_cons.mp hm with h | h
      · injection h with _ h
        cases b <;> cases h
      · exact hn.1 (List.mem_map.mpr ⟨_, h, rfl⟩)
    · have e : findValue ((n, b) :: vs) s = findValue vs s := by simp [findValue, h]
      rw [e]
      have hs : ∀ b', (s, b') ∈ (n, b) :: vs ↔ (s, b') ∈ vs := by
        intro b'
        constructor
        · intro hm
          rcases List.mem_cons.mp hm with h' | h'
          · injection h' with h' _
            exact absurd h'.symm h
          · exact h'
        · exact List.mem_cons_of_mem _
      rcases ih hn.2 with ⟨b', h1, h2, h3⟩ | ⟨h1, h2⟩
      · exact Or.inl ⟨b', h1, (hs _).mpr h2, fun hm => h3 ((hs _).mp hm)⟩
      · exact Or.inr ⟨h1, fun b' hm => h2 b' ((hs _).mp hm)⟩

theorem complete_null (f : Int → Rat) (leaf : Leaf) (ty : Ty) (p : List Nat) :
    complete f leaf ty p .null = if ty.required then (none, [p]) else (some .null, []) := by
  cases ty <;> rfl

theorem good_null {c : Ctx} {ty : Ty} {p : List Step} (hv : c.vis = true) (leaf : Leaf) :
    ∃ v, (visitNull c ty.required p).val = some v ∧
      Good c ty p (visitNull c ty.required p) v (complete c.asF64 leaf ty (indices p) .null) := by
  rw [complete_null]
  unfold visitNull
  by_cases hr : ty.required = true
  · rw [if_pos hr, if_pos hr]
    have h := good_unexpected (c := c) (ty := ty) (p := p) hv
    have e : orNull ty.required = none := by simp [orNull, hr]
    rw [e] at h
    exact ⟨_, unexpected_val _ _ _, h⟩
  · rw [if_neg hr, if_neg hr]
    exact ⟨.null, rfl, good_ok (fun M _ => rfl)⟩

theorem complete_base {f : Int → Rat} {leaf : Leaf} {r : Bool} {p : List Nat} {j : Json} (h : j ≠ .null) :
    complete f leaf (.base r) p j =
      match coerce f leaf j with
      | .value o => (some o, [])
      | .hidden => (orNull r, [])
      | .error => (orNull r, [p]) := by
  cases j <;> first | rfl | exact absurd rfl h

/-- The value of a leaf. -/
theorem good_value {c : Ctx} {leaf : Leaf} {r : Bool} {p : List Step} {j : Json} {v : Val} {o : Out} (hj : j ≠ .null)
    (hc : coerce c.asF64 leaf j = .value o)
    (h : ∀ M : Marks, (∀ q, indices p <:+ q → some q ∉ M) → render M (indices p) v = o) :
    ∃ v', (ok v).val = some v' ∧ Good c (.base r) p (ok v) v' (complete c.asF64 leaf (.base r) (indices p) j) := by
  rw [complete_base hj, hc]
  exact ⟨v, rfl, good_ok h⟩

theorem good_error {c : Ctx} {leaf : Leaf} {r : Bool} {p : List Step} {j : Json} (hv : c.vis = true) (hj : j ≠ .null)
    (hc : coerce c.asF64 leaf j = .error) :
    ∃ v, (unexpected c r p).val = some v ∧
      Good c (.base r) p (unexpected c r p) v (complete c.asF64 leaf (.base r) (indices p) j) := by
  rw [complete_base hj, hc]
  exact ⟨_, unexpected_val _ _ _, good_unexpected (ty := .base r) hv⟩

theorem good_leaf {c : Ctx} {leaf : Leaf} {r : Bool} {p : List Step} {j : Json} (hv : c.vis = true)
    (hh : HeadOk c (.base r) p) (hn : NamesOnce leaf) (hf : NumbersFit leaf j) :
    ∃ v, (leafSeed c leaf r p j).val = some v ∧
      Good c (.base r) p (leafSeed c leaf r p j) v (complete c.asF64 leaf (.base r) (indices p) j) := by
  have pl : ∀ {M : Marks}, (∀ q, indices p <:+ q → some q ∉ M) → some (indices p) ∉ M :=
    fun h => h _ List.suffix_rfl
  cases j with
  | null => exact good_null (ty := .base r) hv leaf
  | bool b =>
    cases leaf <;> simp only [leafSeed] <;> first
      | exact good_error hv (by simp) rfl
      | exact good_value (by simp) rfl (fun M h => by simp [render, pl h, same])
  | str s =>
    cases leaf with
    | enum vs =>
      simp only [leafSeed, visitEnum]
      rcases findValue_spec hn s with ⟨b, h1, h2, h3⟩ | ⟨h1, h2⟩
      · rw [h1]
        cases b with
        | false =>
          simp only [Bool.and_false, Bool.false_eq_true, if_false]
          have hc : coerce c.asF64 (.enum vs) (.str s) = .value (.str s) := by
            rw [coerce, if_neg (show (s, true) ∉ vs from h3), if_pos h2]
          exact good_value (by simp) hc (fun M h => by simp [render, pl h])
        | true =>
          simp only [hv, Bool.and_self, if_true]
          have hc : coerce c.asF64 (.enum vs) (.str s) = .hidden := by rw [coerce, if_pos h2]
          rw [complete_base (by simp), hc]
          cases r with
          | false =>
            exact ⟨_, rfl, good_ok (fun M _ => rfl)⟩
          | true =>
            refine ⟨_, rfl, rfl, fun o ho => by simp [orNull] at ho, fun _ => ⟨rfl, ?_, ?_⟩⟩
            · simp
            · intro m hm
              simp only [if_true, List.mem_singleton] at hm
              exact Or.inl hm
      · rw [h1]
        have hc : coerce c.asF64 (.enum vs) (.str s) = .error := by rw [coerce, if_neg (h2 _), if_neg (h2 _)]
        exact good_error hv (by simp) hc
    | _ =>
      simp only [leafSeed]
      first
        | exact good_error hv (by simp) rfl
        | exact good_value (by simp) rfl (fun M h => by simp [render, pl h, same])
  | num n =>
    cases n with
    | int i =>
      cases leaf with
      | int =>
        simp only [leafSeed, visitNum]
        by_cases h : fitsI32 i = true
        · rw [if_pos h]
          exact good_value (by simp) (by rw [coerce, if_pos ((fitsI32_iff i).mp h)]) (fun M h => by simp [render, pl h])
        · rw [if_neg h]
          exact good_error hv (by simp) (by rw [coerce, if_neg (fun h' => h ((fitsI32_iff i).mpr h'))])
      | _ =>
        simp only [leafSeed, visitNum, anyVal]
        first
          | exact good_error hv (by simp) rfl
          | exact good_value (by simp) rfl (fun M h => by simp [render, pl h, same])
    | float q =>
      cases leaf with
      | int =>
        simp only [leafSeed, visitNum]
        rcases int_of_float (q := q) hf with ⟨h1, h2, h3⟩ | ⟨h1, h2⟩
        · rw [if_pos h1, h3]
          exact good_value (by simp) (by rw [coerce, if_pos h2]) (fun M h => by simp [render, pl h])
        · rw [h1]
          simp only [Bool.false_eq_true, if_false]
          exact good_error hv (by simp) (by rw [coerce, if_neg h2])
      | _ =>
        simp only [leafSeed, visitNum, anyVal]
        first
          | exact good_error hv (by simp) rfl
          | exact good_value (by simp) rfl (fun M h => by simp [render, pl h, same])
  | list js =>
    cases leaf <;> simp only [leafSeed] <;> first
      | exact good_error hv (by simp) rfl
      | exact good_value (by simp) rfl (fun M h => render_any M _ h _)
  | map es =>
    cases leaf <;> simp only [leafSeed] <;> first
      | exact good_error hv (by simp) rfl
      | exact good_value (by simp) rfl (fun M h => render_any M _ h _)

/-! ## Lists -/

theorem collect_cons_none {os : List (Option Out)} (o : Option Out) (h : collect os = none) : collect (o :: os) = none := by
  cases o <;> simp [collect, h]

theorem collect_cons_some {o : Option Out} {os : List (Option Out)} {xs : List Out} (h : collect (o :: os) = some xs) :
    ∃ x ys, o = some x ∧ collect os = some ys ∧ xs = x :: ys := by
  cases o with
  | none => cases h
  | some x =>
    cases hc : collect os with
    | none => rw [collect, hc] at h; cases h
    | some ys => rw [collect, hc] at h; injection h with h; exact ⟨x, ys, rfl, rfl, h.symm⟩

theorem collect_cons_eq_none {o : Option Out} {os : List (Option Out)} (h : collect (o :: os) = none) :
    o = none ∨ collect os = none := by
  cases o with
  | none => exact Or.inl rfl
  | some x =>
    right
    cases hc : collect os with
    | none => rfl
    | some ys => rw [collect, hc] at h; cases h

/-- What the loop of a list is to leave. -/
structure GoodLoop (c : Ctx) (inner : Ty) (p : List Step) (i : Nat) (errs : List (List Nat)) (marks : Marks) (vs : List Val)
    (rs : List (Option Out × List (List Nat))) : Prop where
  errs : errs = rs.flatMap (·.2)
  there : ∀ os, collect (rs.map (·.1)) = some os →
    (∀ m ∈ marks, ∃ q k, m = some q ∧ i ≤ k ∧ (k :: indices p) <:+ q) ∧
    ∀ M, (∀ k, i ≤ k → Agree M marks (k :: indices p)) → renderList M (indices p) i vs = os
  escapes : collect (rs.map (·.1)) = none → inner.required = true ∧ propagate c.fieldNullable p ∈ marks
  all : ∀ m ∈ marks, m = propagate c.fieldNullable p ∨ ∃ q, m = some q ∧ indices p <:+ q

theorem good_loop {c : Ctx} {inner : Ty} {p : List Step} {seed : List Step → Json → Res}
    {f : List Nat → Json → Option Out × List (List Nat)} : ∀ (js : List Json) (i : Nat),
    (∀ j ∈ js, ∀ k, (seed (⟨k, !inner.required⟩ :: p) j).val ≠ none) →
    (∀ j ∈ js, ∀ k v, (seed (⟨k, !inner.required⟩ :: p) j).val = some v →
      Good c inner (⟨k, !inner.required⟩ :: p) (seed (⟨k, !inner.required⟩ :: p) j) v (f (k :: indices p) j)) →
    ∃ vs, (listLoop seed (!inner.required) p i js).1 = some vs ∧
      GoodLoop c inner p i (listLoop seed (!inner.required) p i js).2.1 (listLoop seed (!inner.required) p i js).2.2 vs
        (eachItem f (indices p) i js)
  | [], i, _, _ => by
    refine ⟨[], rfl, rfl, ?_, ?_, ?_⟩
    · intro os h
      injection h with h
      subst h
      refine ⟨by simp [listLoop], fun M _ => rfl⟩
    · intro h; cases h
    · simp [listLoop]
  | j :: js, i, hs, hg => by
    obtain ⟨vs, hvs, gl⟩ := good_loop (c := c) (inner := inner) (p := p) (seed := seed) (f := f) js (i + 1)
      (fun x hx => hs x (List.mem_cons_of_mem _ hx)) (fun x hx => hg x (List.mem_cons_of_mem _ hx))
    cases hv : (seed (⟨i, !inner.required⟩ :: p) j).val with
    | none => exact absurd hv (hs j List.mem_cons_self i)
    | some v =>
      have g := hg j List.mem_cons_self i v hv
      have e : listLoop seed (!inner.required) p i (j :: js) =
          ((listLoop seed (!inner.required) p (i + 1) js).1.map (v :: ·),
            (seed (⟨i, !inner.required⟩ :: p) j).errs ++ (listLoop seed (!inner.required) p (i + 1) js).2.1,
            (seed (⟨i, !inner.required⟩ :: p) j).marks ++ (listLoop seed (!inner.required) p (i + 1) js).2.2) := by
        rw [listLoop]
        simp only [hv]
      rw [e, hvs]
      have hall : ∀ m ∈ (seed (⟨i, !inner.required⟩ :: p) j).marks,
          m = propagate c.fieldNullable p ∨ ∃ q, m = some q ∧ indices p <:+ q := by
        intro m hm
        cases hf : (f (i :: indices p) j).1 with
        | none =>
          obtain ⟨hr, _, h⟩ := g.escapes hf
          rcases h m hm with h | ⟨q, h1, h2⟩
          · left
            rw [h, propagate]
            simp [hr]
          · exact Or.inr ⟨q, h1, (suffix_cons_self i _).trans h2⟩
        | some o =>
          obtain ⟨q, h1, h2⟩ := (g.there o hf).1 m hm
          exact Or.inr ⟨q, h1, (suffix_cons_self i _).trans h2⟩
      refine ⟨v :: vs, rfl, ?_, ?_, ?_, ?_⟩
      · rw [eachItem, List.flatMap_cons, g.errs, gl.errs]
      · intro os hos
        rw [eachItem, List.map_cons] at hos
        obtain ⟨x, ys, hx, hy, rfl⟩ := collect_cons_some hos
        obtain ⟨m1, r1⟩ := g.there x hx
        obtain ⟨m2, r2⟩ := gl.there ys hy
        refine ⟨?_, ?_⟩
        · intro m hm
          rcases List.mem_append.mp hm with hm | hm
          · obtain ⟨q, h1, h2⟩ := m1 m hm
            exact ⟨q, i, h1, Nat.le_refl _, h2⟩
          · obtain ⟨q, k, h1, h2, h3⟩ := m2 m hm
            exact ⟨q, k, h1, by omega, h3⟩
        · intro M hM
          rw [renderList]
          have a1 : Agree M (seed (⟨i, !inner.required⟩ :: p) j).marks (i :: indices p) := by
            intro q hq
            rw [hM i (Nat.le_refl _) q hq, List.mem_append]
            constructor
            · rintro (h | h)
              · exact h
              · obtain ⟨q', k, h1, h2, h3⟩ := m2 _ h
                injection h1 with h1
                subst h1
                have := suffix_index hq h3
                omega
            · exact Or.inl
          have a2 : ∀ k, i + 1 ≤ k → Agree M (listLoop seed (!inner.required) p (i + 1) js).2.2 (k :: indices p) := by
            intro k hk q hq
            rw [hM k (by omega) q hq, List.mem_append]
            constructor
            · rintro (h | h)
              · obtain ⟨q', h1, h2⟩ := m1 _ h
                injection h1 with h1
                subst h1
                have : k = i := suffix_index hq h2
                omega
              · exact h
            · exact Or.inr
          rw [r2 M a2]
          exact congrArg (· :: ys) (r1 M a1)
      · intro hc
        rw [eachItem, List.map_cons] at hc
        rcases collect_cons_eq_none hc with h | h
        · obtain ⟨hr, hm, _⟩ := g.escapes h
          refine ⟨hr, List.mem_append.mpr (Or.inl ?_)⟩
          have e' : propagate c.fieldNullable (⟨i, !inner.required⟩ :: p) = propagate c.fieldNullable p := by
            rw [propagate]; simp [hr]
          rw [← e']
          exact hm
        · obtain ⟨hr, hm⟩ := gl.escapes h
          exact ⟨hr, List.mem_append.mpr (Or.inr hm)⟩
      · intro m hm
        rcases List.mem_append.mp hm with hm | hm
        · exact hall m hm
        · exact gl.all m hm

/-- A list with what its items leave. -/
theorem good_list {c : Ctx} {r : Bool} {inner : Ty} {p : List Step} {js : List Json} {leaf : Leaf} {errs : List (List Nat)}
    {marks : Marks} {v : Val} (hh : HeadOk c (.list r inner) p)
    (he : errs = (eachItem (complete c.asF64 leaf inner) (indices p) 0 js).flatMap (·.2))
    (ht : ∀ os, collect ((eachItem (complete c.asF64 leaf inner) (indices p) 0 js).map (·.1)) = some os →
      (∀ m ∈ marks, ∃ q, m = some q ∧ indices p <:+ q) ∧ ∀ M, Agree M marks (indices p) → render M (indices p) v = .list os)
    (hx : collect ((eachItem (complete c.asF64 leaf inner) (indices p) 0 js).map (·.1)) = none →
      propagate c.fieldNullable p ∈ marks)
    (ha : ∀ m ∈ marks, m = propagate c.fieldNullable p ∨ ∃ q, m = some q ∧ indices p <:+ q) :
    Good c (.list r inner) p ⟨some v, errs, marks⟩ v (complete c.asF64 leaf (.list r inner) (indices p) (.list js)) := by
  have e : complete c.asF64 leaf (.list r inner) (indices p) (.list js) =
      match collect ((eachItem (complete c.asF64 leaf inner) (indices p) 0 js).map (·.1)) with
      | some os => (some (.list os), (eachItem (complete c.asF64 leaf inner) (indices p) 0 js).flatMap (·.2))
      | none => (orNull r, (eachItem (complete c.asF64 leaf inner) (indices p) 0 js).flatMap (·.2)) := rfl
  rw [e]
  cases hc : collect ((eachItem (complete c.asF64 leaf inner) (indices p) 0 js).map (·.1)) with
  | some os =>
    refine ⟨he, ?_, fun h => by cases h⟩
    intro o ho
    injection ho with ho
    subst ho
    exact ht os hc
  | none =>
    refine ⟨he, ?_, ?_⟩
    · intro o ho
      cases r with
      | true => cases ho
      | false =>
        injection ho with ho
        subst ho
        have hp := propagate_nullable hh rfl
        refine ⟨?_, ?_⟩
        · intro m hm
          rcases ha m hm with h | h
          · exact ⟨_, h.trans hp, List.suffix_rfl⟩
          · exact h
        · intro M hM
          refine render_marked ((hM _ List.suffix_rfl).mpr ?_) v
          rw [← hp]
          exact hx hc
    · intro hn
      cases r with
      | true => exact ⟨rfl, hx hc, ha⟩
      | false => cases hn

end Verif.Leaves
