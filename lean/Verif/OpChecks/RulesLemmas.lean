import Verif.OpChecks.Rules
import Verif.OpChecks.OpLemmas
/-!
# Operation checks: lemmas about the rules
-/
namespace Verif.OpChecks
open Verif.PatchPaths

/-! ## The fields of a type -/

theorem iterFields_mem {d : SDoc} {ty : Name} {f : Field} :
    f ∈ (Schema.ofDoc d).iterFields ty ↔ f ∈ (Schema.ofDoc d).fields ∧ f.ty = ty := by
  unfold Schema.iterFields
  simp only
  have hs : (Schema.ofDoc d).fields.Pairwise fun a b => a.ty ≤ b.ty := by
    refine (ofDoc_fields_sorted d).imp ?_
    intro a b h
    have := cmp2_le.1 h
    simp only [Field.key] at this
    unfold Name at *
    omega
  have he : (fun f : Field => decide (ty = f.ty)) = fun f : Field => decide (f.ty = ty) := by
    funext f
    rw [decide_eq_decide]
    exact eq_comm
  rw [he, run_eq_filter (g := fun f : Field => f.ty) ty hs, List.mem_filter]
  simp

theorem iterImpls_mem {d : SDoc} {ty i : Name} :
    i ∈ (Schema.ofDoc d).iterInterfaceImplementations ty ↔ (ty, i) ∈ (Schema.ofDoc d).impls := by
  unfold Schema.iterInterfaceImplementations
  simp only
  have hs : (Schema.ofDoc d).impls.Pairwise fun a b => a.1 ≤ b.1 := by
    have : (Schema.ofDoc d).impls.Pairwise fun a b => (cmp2 a b).isLE = true := sorted_sortBy (fun a => a) _
    refine this.imp ?_
    intro a b h
    have := cmp2_le.1 h
    unfold Name at *
    omega
  rw [run_eq_filter (g := fun p : Name × Name => p.1) ty hs, List.mem_map]
  constructor
  · rintro ⟨p, hp, rfl⟩
    obtain ⟨h1, h2⟩ := List.mem_filter.1 hp
    simp only [decide_eq_true_eq] at h2
    rw [← h2]
    exact h1
  · intro h
    exact ⟨_, List.mem_filter.2 ⟨h, by simp⟩, rfl⟩

/-! ## The traversal of the input types -/

/-- `t` is reached from `root` through the types of fields. -/
inductive ReachS (s : Schema) : Name → Name → Prop
  | refl (t) : ReachS s t t
  | step {root t f} : f ∈ s.iterFields root → ReachS s f.base t → ReachS s root t

/-- What one call adds. -/
structure Visited (s : Schema) (rs : List Name) (used R : List Name) : Prop where
  sub : ∀ t ∈ used, t ∈ R
  roots : ∀ r ∈ rs, r ∈ R
  closed : ∀ t ∈ R, t ∉ used → ∀ f ∈ s.iterFields t, f.base ∈ R
  reach : ∀ t ∈ R, t ∉ used → ∃ r ∈ rs, ReachS s r t

theorem visited_fold {s : Schema} {g : Name → List Name → Option (List Name)}
    (hg : ∀ root used R, g root used = some R → Visited s [root] used R) (fs : List Field) :
    ∀ (used R : List Name), fs.foldlM (fun used f => g f.base used) used = some R →
      Visited s (fs.map (·.base)) used R := by
  induction fs with
  | nil =>
    intro used R h
    cases h
    exact ⟨fun _ h => h, by simp, fun t ht hn => absurd ht hn, fun t ht hn => absurd ht hn⟩
  | cons f rest ih =>
    intro used R h
    rw [List.foldlM_cons] at h
    cases h1 : g f.base used with
    | none => rw [h1] at h; cases h
    | some used' =>
      rw [h1] at h
      have ha := hg _ _ _ h1
      have hb := ih used' R h
      refine ⟨fun t ht => hb.sub t (ha.sub t ht), ?_, ?_, ?_⟩
      · intro r hr
        rcases List.mem_cons.1 hr with rfl | hr
        · exact hb.sub _ (ha.roots _ (by simp))
        · exact hb.roots r hr
      · intro t ht hn x hx
        by_cases hm : t ∈ used'
        · exact hb.sub _ (ha.closed t hm hn x hx)
        · exact hb.closed t ht hm x hx
      · intro t ht hn
        by_cases hm : t ∈ used'
        · obtain ⟨r, hr, hreach⟩ := ha.reach t hm hn
          rw [List.mem_singleton] at hr
          subst hr
          exact ⟨_, List.mem_cons_self, hreach⟩
        · obtain ⟨r, hr, hreach⟩ := hb.reach t ht hm
          exact ⟨r, List.mem_cons_of_mem _ hr, hreach⟩

theorem usedInputRec_visited {s : Schema} (fuel : Nat) : ∀ (root : Name) (used R : List Name),
    usedInputRec s fuel root used = some R → Visited s [root] used R := by
  induction fuel with
  | zero => intro root used R h; cases h
  | succ n ih =>
    intro root used R h
    unfold usedInputRec at h
    split at h
    · rename_i hm
      cases h
      refine ⟨fun _ h => h, ?_, fun t ht hn => absurd ht hn, fun t ht hn => absurd ht hn⟩
      intro r hr
      rw [List.mem_singleton] at hr
      rw [hr]; exact hm
    · rename_i hm
      have hv := visited_fold ih _ _ _ h
      have hroot : root ∈ R := hv.sub _ List.mem_cons_self
      refine ⟨fun t ht => hv.sub t (List.mem_cons_of_mem _ ht), ?_, ?_, ?_⟩
      · intro r hr
        rw [List.mem_singleton] at hr
        rw [hr]; exact hroot
      · intro t ht hn f hf
        by_cases he : t = root
        · subst he
          exact hv.roots _ (List.mem_map_of_mem hf)
        · exact hv.closed t ht (by simp [he, hn]) f hf
      · intro t ht hn
        refine ⟨root, by simp, ?_⟩
        by_cases he : t = root
        · subst he; exact ReachS.refl t
        · obtain ⟨r, hr, hreach⟩ := hv.reach t ht (by simp [he, hn])
          obtain ⟨f, hf, rfl⟩ := List.mem_map.1 hr
          exact ReachS.step hf hreach

theorem filter_le {U used used' : List Name} (h : ∀ t ∈ used, t ∈ used') :
    (U.filter fun t => decide (t ∉ used')).length ≤ (U.filter fun t => decide (t ∉ used)).length := by
  induction U with
  | nil => simp
  | cons x t ih =>
    rw [List.filter_cons, List.filter_cons]
    by_cases h1 : x ∈ used'
    · by_cases h2 : x ∈ used
      · simpa [h1, h2] using ih
      · simp [h1, h2]; simp at ih; omega
    · have h2 : x ∉ used := fun hx => h1 (h x hx)
      simpa [h1, h2] using ih

theorem filter_lt {U used : List Name} {r : Name} (hr : r ∈ U) (hn : r ∉ used) :
    (U.filter fun t => decide (t ∉ r :: used)).length < (U.filter fun t => decide (t ∉ used)).length := by
  induction U with
  | nil => cases hr
  | cons x t ih =>
    rw [List.filter_cons, List.filter_cons]
    by_cases he : x = r
    · subst he
      have := filter_le (U := t) (used := used) (used' := x :: used) (fun t ht => List.mem_cons_of_mem _ ht)
      simp only [List.mem_cons, true_or, not_true_eq_false, decide_false, Bool.false_eq_true, if_false, hn,
        not_false_eq_true, decide_true, if_true, List.length_cons]
      simp only [List.mem_cons] at this
      omega
    · have hr' : r ∈ t := by
        rcases List.mem_cons.1 hr with h | h
        · exact absurd h.symm he
        · exact h
      have := ih hr'
      by_cases hx : x ∈ used
      · simpa [hx, he] using this
      · have h3 : x ∉ r :: used := by simp [he, hx]
        simp only [h3, hx, not_false_eq_true, decide_true, if_true, List.length_cons]
        omega

/-- The fuel suffices: every call puts a new type into the set. -/
theorem usedInputRec_total {s : Schema} {U : List Name}
    (hU : ∀ t, ∀ f ∈ s.iterFields t, f.base ∈ U) (fuel : Nat) : ∀ (root : Name) (used : List Name), root ∈ U →
    (U.filter fun t => decide (t ∉ used)).length < fuel → ∃ R, usedInputRec s fuel root used = some R := by
  induction fuel with
  | zero => intro _ _ _ h; omega
  | succ n ih =>
    intro root used hr hlt
    unfold usedInputRec
    split
    · exact ⟨_, rfl⟩
    · rename_i hm
      have h1 := filter_lt hr hm
      have hfold : ∀ (fs : List Field), (∀ f ∈ fs, f.base ∈ U) → ∀ used,
          (U.filter fun t => decide (t ∉ used)).length < n →
          ∃ R, fs.foldlM (fun used f => usedInputRec s n f.base used) used = some R := by
        intro fs
        induction fs with
        | nil => intro _ used _; exact ⟨used, rfl⟩
        | cons f rest ihf =>
          intro hfs used hu
          obtain ⟨R, hR⟩ := ih f.base used (hfs f List.mem_cons_self) hu
          rw [List.foldlM_cons, hR]
          have hv := usedInputRec_visited n _ _ _ hR
          have := filter_le (U := U) hv.sub
          exact ihf (fun x hx => hfs x (List.mem_cons_of_mem _ hx)) R (by omega)
      exact hfold _ (fun f hf => hU root f hf) _ (by omega)

theorem filter_length_le' {α : Type} (p : α → Bool) (l : List α) : (l.filter p).length ≤ l.length :=
  List.length_filter_le p l

/-- The set of used input types: exactly the types reachable from the types of the used arguments. -/
theorem usedInput_spec {d : SDoc} {usage : Provider} {target : Schema} (hall : usage.allInput = false)
    (hids : ∀ i ∈ usage.argIds, i < (Schema.ofDoc d).args.length) :
    ∃ R, findUsedInputTypes ⟨Schema.ofDoc d, target, usage⟩ = some R ∧
      ∀ t, t ∈ R ↔ ∃ i ∈ usage.argIds, ∃ a, (Schema.ofDoc d).args[i]? = some a ∧ ReachS (Schema.ofDoc d) a.base t := by
  unfold findUsedInputTypes
  simp only [hall, Bool.false_eq_true, if_false]
  generalize hs : Schema.ofDoc d = s at *
  have hbase : ∀ t, ∀ f ∈ s.iterFields t, f.base ∈ s.fields.map (·.base) := by
    intro t f hf
    subst hs
    exact List.mem_map_of_mem (iterFields_mem.1 hf).1
  have key : ∀ (ids : List Nat), (∀ i ∈ ids, i < s.args.length) → ∀ used,
      (∀ t ∈ used, ∀ f ∈ s.iterFields t, f.base ∈ used) →
      ∃ R, ids.foldlM (fun used id => match s.args[id]? with
        | none => none
        | some arg => usedInputRec s (inputFuel s) arg.base used) used = some R ∧
        (∀ t ∈ R, ∀ f ∈ s.iterFields t, f.base ∈ R) ∧ (∀ t ∈ used, t ∈ R) ∧
        (∀ i ∈ ids, ∀ a, s.args[i]? = some a → a.base ∈ R) ∧
        ∀ t ∈ R, t ∉ used → ∃ i ∈ ids, ∃ a, s.args[i]? = some a ∧ ReachS s a.base t := by
    intro ids
    induction ids with
    | nil =>
      intro _ used hc
      exact ⟨used, rfl, hc, fun _ h => h, by simp, fun t ht hn => absurd ht hn⟩
    | cons i rest ih =>
      intro hr used hc
      have hi := hr i List.mem_cons_self
      have hget := List.getElem?_eq_getElem hi
      obtain ⟨R1, hR1⟩ := usedInputRec_total (s := s) (U := s.args[i].base :: s.fields.map (·.base))
        (fun t f hf => List.mem_cons_of_mem _ (hbase t f hf)) (inputFuel s) s.args[i].base used List.mem_cons_self
        (by
          have := filter_length_le' (fun t => decide (t ∉ used)) (s.args[i].base :: s.fields.map (·.base))
          simp only [List.length_cons, List.length_map] at this
          unfold inputFuel
          omega)
      have hv := usedInputRec_visited _ _ _ _ hR1
      have hc1 : ∀ t ∈ R1, ∀ f ∈ s.iterFields t, f.base ∈ R1 := by
        intro t ht f hf
        by_cases hm : t ∈ used
        · exact hv.sub _ (hc t hm f hf)
        · exact hv.closed t ht hm f hf
      obtain ⟨R, h1, h2, h3, h4, h5⟩ := ih (fun x hx => hr x (List.mem_cons_of_mem _ hx)) R1 hc1
      refine ⟨R, ?_, h2, fun t ht => h3 t (hv.sub t ht), ?_, ?_⟩
      · rw [List.foldlM_cons, hget]
        simp only [hR1]
        exact h1
      · intro j hj a ha
        rcases List.mem_cons.1 hj with rfl | hj
        · rw [hget] at ha
          cases ha
          exact h3 _ (hv.roots _ (by simp))
        · exact h4 j hj a ha
      · intro t ht hn
        by_cases hm : t ∈ R1
        · obtain ⟨r, hr', hreach⟩ := hv.reach t hm hn
          rw [List.mem_singleton] at hr'
          subst hr'
          exact ⟨i, List.mem_cons_self, _, hget, hreach⟩
        · obtain ⟨j, hj, a, ha, hreach⟩ := h5 t ht hm
          exact ⟨j, List.mem_cons_of_mem _ hj, a, ha, hreach⟩
  obtain ⟨R, h1, h2, _, h4, h5⟩ := key usage.argIds hids [] (by simp)
  refine ⟨R, h1, fun t => ⟨fun ht => h5 t ht (by simp), ?_⟩⟩
  rintro ⟨i, hi, a, ha, hreach⟩
  have hb := h4 i hi a ha
  clear ha hi
  generalize a.base = b at hreach hb
  induction hreach with
  | refl t => exact hb
  | step hf _ ih => exact ih (h2 _ hb _ hf)

end Verif.OpChecks
