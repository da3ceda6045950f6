import Verif.NullProp.SeedLemmas
import Verif.NullProp.Spec

/-!
# The fields of an object
-/
namespace Verif.NullProp

open Verif.DefaultMerge (Key Field)
open Verif.OpChecks (sortBy insertBy sortBy_perm)

/-- No links. -/
abbrev NoLink : VId → Prop := fun _ => False

theorem showing_null {st st' : Part} {own : List VId} {v : Val} (h : v = .null ∨ v = .unexpected ∨ ∃ i, v = .inacc i) :
    Showing st st' own v .null := by
  intro hp M _ _
  rcases h with rfl | rfl | ⟨i, rfl⟩
  · exact shows_null
  · exact shows_unexpected
  · exact shows_inacc

theorem onUnexpected_after {req : Bool} {par loc : List VId} {st st1 st' : Part} {v : Val} {b1 : Bool} {own1 : List VId}
    (hm : Marks NoLink (esc par loc) st st1 b1 own1) (h : onUnexpected true req par loc st1 = (some v, st')) :
    ValOk (esc par loc) st st' req (orNull req) v := by
  simp only [onUnexpected, orPropagate, Bool.true_and, Prod.mk.injEq, Option.some.injEq] at h
  obtain ⟨rfl, h⟩ := h
  cases req with
  | true =>
    rw [if_pos rfl] at h
    obtain ⟨own2, h2⟩ := propagate_marks NoLink st1 par loc
    rw [h] at h2
    refine ⟨own1 ++ own2, b1 || true, hm.trans h2, fun _ => rfl, by simp⟩
  | false =>
    simp only [Bool.false_eq_true, if_false] at h
    subst h
    exact ⟨own1, b1, hm, fun _ => rfl, fun _ => ⟨.null, rfl, showing_null (.inr (.inl rfl))⟩⟩

theorem onNull_after {req : Bool} {par loc : List VId} {st st1 st' : Part} {v : Val} {b1 : Bool} {own1 : List VId}
    (hm : Marks NoLink (esc par loc) st st1 b1 own1) (h : onNull true req par loc st1 = (some v, st')) :
    ValOk (esc par loc) st st' req (orNull req) v := by
  simp only [onNull, orPropagate, Bool.true_and, Prod.mk.injEq, Option.some.injEq] at h
  obtain ⟨hv, h⟩ := h
  cases req with
  | true =>
    rw [if_pos rfl] at h
    obtain ⟨own2, h2⟩ := propagate_marks NoLink st1 par loc
    rw [h] at h2
    refine ⟨own1 ++ own2, b1 || true, hm.trans h2, fun _ => rfl, by simp⟩
  | false =>
    simp only [Bool.false_eq_true, if_false] at h hv
    subst h
    exact ⟨own1, b1, hm, fun _ => rfl, fun _ => ⟨.null, rfl, showing_null (.inl hv.symm)⟩⟩

theorem scalar_ok {hid : Nat → Bool} {p : Bool} {ok : Leaf → Bool} {req : Bool} {par loc : List VId} {j : Json} {st st' : Part}
    {v : Val} (h : seedScalar ok true req par loc j st = (some v, st')) :
    ValOk (esc par loc) st st' req (complete hid (.base req) (.scalar p ok) j) v := by
  rcases seedScalar_some h with ⟨l, rfl, ho, rfl, rfl⟩ | ⟨hl, h⟩
  · refine ⟨[], false, (Quiet.refl _).marks, by simp, fun _ => ⟨.leaf l, by simp [complete, ho], ?_⟩⟩
    intro hp M _ _
    exact shows_leaf
  · have hc : complete hid (.base req) (.scalar p ok) j = orNull req := by
      cases j with
      | leaf l => simp [complete, hl l rfl]
      | null => rfl
      | bad => rfl
      | list js => rfl
      | map es => rfl
    rw [hc]
    rcases h with h | h
    · exact onNull_after (Quiet.refl _).marks h
    · exact onUnexpected_after (Quiet.refl _).marks h

theorem enum_ok {hid : Nat → Bool} {vals : Nat → Option Bool} {req : Bool} {par loc : List VId} {j : Json} {st st' : Part}
    {v : Val} (h : seedEnum vals true req par loc j st = (some v, st')) :
    ValOk (esc par loc) st st' req (complete hid (.base req) (.enum vals) j) v := by
  rcases seedEnum_some h with ⟨l, b, rfl, hs, hv, h⟩ | ⟨hl, h⟩
  · rcases h with ⟨hb, rfl, rfl⟩ | ⟨hb, rfl, rfl, rfl⟩ | ⟨hb, rfl, rfl, rfl⟩
    · have hb : b = false := by simpa using hb
      subst hb
      refine ⟨[], false, (Quiet.refl _).marks, by simp, fun _ => ⟨.leaf l, by simp [complete, hs, hv], ?_⟩⟩
      intro hp M _ _
      exact shows_leaf
    · have hb : b = true := by simpa using hb
      subst hb
      obtain ⟨own2, h2⟩ := propagate_marks NoLink st par loc
      exact ⟨own2, true, h2, fun _ => by simp [complete, hv], by simp⟩
    · have hb : b = true := by simpa using hb
      subst hb
      refine ⟨[], false, (pushInacc_quiet _ _).marks, by simp, fun _ => ⟨.null, by simp [complete, hv, orNull], ?_⟩⟩
      exact showing_null (.inr (.inr ⟨_, rfl⟩))
  · have hc : complete hid (.base req) (.enum vals) j = orNull req := by
      cases j with
      | leaf l =>
        simp only [complete]
        rw [if_neg]
        intro hx
        rw [hl l rfl hx.1] at hx
        simp at hx
      | null => rfl
      | bad => rfl
      | list js => rfl
      | map es => rfl
    rw [hc]
    rcases h with h | h
    · exact onNull_after (Quiet.refl _).marks h
    · exact onUnexpected_after (Quiet.refl _).marks h

theorem packed_ok {hid : Nat → Bool} {ok : Leaf → Bool} {par loc : List VId} :
    ∀ (js : Jsons) (i : Nat) (u : Bool) (acc : List Leaf) (st : Part) ls u' st',
      packedItems ok true par loc js i u acc st = (some (ls, u'), st') →
      ∃ own b new, ls = acc ++ new ∧ Marks NoLink (esc par loc) st st' b own ∧ u' = (u || b) ∧
        (b = true → completeAll hid (.base true) (.scalar true ok) js = none) ∧
        (b = false → completeAll hid (.base true) (.scalar true ok) js = some (new.map .leaf))
  | .nil, i, u, acc, st, ls, u', st', h => by
    simp only [packedItems, Prod.mk.injEq, Option.some.injEq] at h
    obtain ⟨⟨rfl, rfl⟩, rfl⟩ := h
    exact ⟨[], false, [], by simp, (Quiet.refl _).marks, by simp, by simp, fun _ => rfl⟩
  | .bad, i, u, acc, st, ls, u', st', h => by simp [packedItems] at h
  | .cons j js, i, u, acc, st, ls, u', st', h => by
    rcases packedItems_cons h with ⟨l, rfl, hl, h⟩ | ⟨hl, h⟩
    · obtain ⟨own, b, new, h1, h2, h3, h4, h5⟩ := packed_ok (hid := hid) js _ _ _ _ _ _ _ h
      refine ⟨own, b, l :: new, by simp [h1], h2, h3, fun hb => ?_, fun hb => ?_⟩
      · simp [completeAll, h4 hb]
      · simp [completeAll, complete, hl, h5 hb]
    · obtain ⟨own, b, new, h1, h2, h3, h4, h5⟩ := packed_ok (hid := hid) js _ _ _ _ _ _ _ h
      obtain ⟨own1, hp⟩ := propagate_marks NoLink st par (.packed st.id i :: loc)
      rw [esc_required (by rfl)] at hp
      have ho : orPropagate true true par (.packed st.id i :: loc) st = st.propagate par (.packed st.id i :: loc) := rfl
      rw [ho] at h2
      refine ⟨own1 ++ own, true || b, ⟨false, 0⟩ :: new, by simp [h1], hp.trans h2, by simp [h3], fun _ => ?_, by simp⟩
      have hc : complete hid (.base true) (.scalar true ok) j = none := by
        cases j with
        | leaf l => simp [complete, hl l rfl, orNull]
        | null => rfl
        | bad => rfl
        | list js => rfl
        | map es => rfl
      simp [completeAll, hc]

/-! ## Missing fields and fields with errors -/

theorem any_key {F : List Fld} {k : Key} : F.any (fun x => x.key = k) = true ↔ k ∈ F.map (·.key) := by
  simp [List.any_eq_true, List.mem_map]

theorem find_key {F : List Fld} {k : Key} : F.find? (fun x => x.key = k) = none ↔ k ∉ F.map (·.key) := by
  simp [List.find?_eq_none, List.mem_map]

/-- The value is shown as null whatever is marked. -/
def IsNull (v : Val) : Prop := v = .null ∨ ∃ i, v = .inacc i

theorem shapeErrors_spec {par loc : List VId} {fs : List FieldShape} {done done' : Bool} {F F' : List Fld} {st st' : Part}
    (h : shapeErrors par loc fs done F st = (done', F', st')) :
    ∃ own b, Marks NoLink (esc par loc) st st' b own ∧ done' = (done || b) ∧
      (b = true → ∃ f ∈ fs, f.errors ≠ 0 ∧ f.ty.required = true) ∧
      (∀ f ∈ fs, f.errors ≠ 0 → f.ty.required = true → done' = true) ∧
      ((F.map (·.key)).Nodup → (F'.map (·.key)).Nodup) ∧
      (∀ k, k ∈ F'.map (·.key) ↔ k ∈ F.map (·.key) ∨ ∃ f ∈ fs, f.errors ≠ 0 ∧ f.key = k) ∧
      (∀ x ∈ F', (∃ f ∈ fs, f.errors ≠ 0 ∧ f.key = x.key ∧ IsNull x.value) ∨
        (x ∈ F ∧ ∀ f ∈ fs, f.errors ≠ 0 → f.key ≠ x.key)) := by
  induction fs generalizing done F st with
  | nil =>
    simp only [shapeErrors, Prod.mk.injEq] at h
    obtain ⟨rfl, rfl, rfl⟩ := h
    exact ⟨[], false, (Quiet.refl _).marks, by simp, by simp, by simp, fun h => h, by simp, fun x hx => .inr ⟨hx, by simp⟩⟩
  | cons f fs ih =>
    rw [shapeErrors] at h
    split at h
    · next he =>
      obtain ⟨own, b, h1, h2, h3, h4, h5, h6, h7⟩ := ih h
      refine ⟨own, b, h1, h2, ?_, ?_, h5, ?_, ?_⟩
      · intro hb
        obtain ⟨g, hg, hg'⟩ := h3 hb
        exact ⟨g, List.mem_cons_of_mem _ hg, hg'⟩
      · intro g hg hge
        rcases List.mem_cons.1 hg with rfl | hg
        · exact absurd he hge
        · exact h4 g hg hge
      · intro k
        rw [h6]
        constructor
        · rintro (h | ⟨g, hg, hg'⟩)
          · exact .inl h
          · exact .inr ⟨g, List.mem_cons_of_mem _ hg, hg'⟩
        · rintro (h | ⟨g, hg, hge, hg'⟩)
          · exact .inl h
          · rcases List.mem_cons.1 hg with rfl | hg
            · exact absurd he hge
            · exact .inr ⟨g, hg, hge, hg'⟩
      · intro x hx
        rcases h7 x hx with ⟨g, hg, hg'⟩ | ⟨hx, hg⟩
        · exact .inl ⟨g, List.mem_cons_of_mem _ hg, hg'⟩
        · refine .inr ⟨hx, fun g hg' hge => ?_⟩
          rcases List.mem_cons.1 hg' with rfl | hg'
          · exact absurd he hge
          · exact hg g hg' hge
    · next he =>
      simp only at h
      -- the propagation of this field
      have hmark : ∃ own1, Marks NoLink (esc par loc) st (if (!done && f.ty.required) = true then st.propagate par loc else st)
          (!done && f.ty.required) own1 := by
        cases hd : (!done && f.ty.required) with
        | true =>
          rw [if_pos rfl]
          exact propagate_marks NoLink st par loc
        | false =>
          simp only [Bool.false_eq_true, if_false]
          exact ⟨[], (Quiet.refl _).marks⟩
      obtain ⟨own1, hmark⟩ := hmark
      generalize hst1 : (if (!done && f.ty.required) = true then st.propagate par loc else st) = st1 at *
      -- what the rest gives from fields `G` and state `st2`
      have key : ∀ (G : List Fld) (st2 : Part), Quiet st1 st2 →
          shapeErrors par loc fs (done || f.ty.required) G st2 = (done', F', st') →
          ((F.map (·.key)).Nodup → (G.map (·.key)).Nodup) →
          (∀ k, k ∈ G.map (·.key) ↔ k ∈ F.map (·.key) ∨ f.key = k) →
          (∀ x ∈ G, (f.key = x.key ∧ IsNull x.value) ∨ (x ∈ F ∧ f.key ≠ x.key)) →
          ∃ own b, Marks NoLink (esc par loc) st st' b own ∧ done' = (done || b) ∧
            (b = true → ∃ g ∈ f :: fs, g.errors ≠ 0 ∧ g.ty.required = true) ∧
            (∀ g ∈ f :: fs, g.errors ≠ 0 → g.ty.required = true → done' = true) ∧
            ((F.map (·.key)).Nodup → (F'.map (·.key)).Nodup) ∧
            (∀ k, k ∈ F'.map (·.key) ↔ k ∈ F.map (·.key) ∨ ∃ g ∈ f :: fs, g.errors ≠ 0 ∧ g.key = k) ∧
            (∀ x ∈ F', (∃ g ∈ f :: fs, g.errors ≠ 0 ∧ g.key = x.key ∧ IsNull x.value) ∨
              (x ∈ F ∧ ∀ g ∈ f :: fs, g.errors ≠ 0 → g.key ≠ x.key)) := by
        intro G st2 hq h hn hk hx
        obtain ⟨own, b, h1, h2, h3, h4, h5, h6, h7⟩ := ih h
        refine ⟨own1 ++ ([] ++ own), (!done && f.ty.required) || (false || b), hmark.trans (hq.marks.trans h1), ?_, ?_, ?_,
          fun hF => h5 (hn hF), ?_, ?_⟩
        · rw [h2]
          cases done <;> cases f.ty.required <;> cases b <;> rfl
        · intro hb
          cases hb1 : (!done && f.ty.required) with
          | true =>
            rw [Bool.and_eq_true] at hb1
            exact ⟨f, List.mem_cons_self, he, hb1.2⟩
          | false =>
            rw [hb1] at hb
            obtain ⟨g, hg, hg'⟩ := h3 (by simpa using hb)
            exact ⟨g, List.mem_cons_of_mem _ hg, hg'⟩
        · intro g hg hge hgr
          rcases List.mem_cons.1 hg with rfl | hg
          · rw [h2, hgr]; simp
          · exact h4 g hg hge hgr
        · intro k
          rw [h6, hk]
          constructor
          · rintro ((h | h) | ⟨g, hg, hg'⟩)
            · exact .inl h
            · exact .inr ⟨f, List.mem_cons_self, he, h⟩
            · exact .inr ⟨g, List.mem_cons_of_mem _ hg, hg'⟩
          · rintro (h | ⟨g, hg, hge, hg'⟩)
            · exact .inl (.inl h)
            · rcases List.mem_cons.1 hg with rfl | hg
              · exact .inl (.inr hg')
              · exact .inr ⟨g, hg, hge, hg'⟩
        · intro x hxF
          rcases h7 x hxF with ⟨g, hg, hg'⟩ | ⟨hxG, hg⟩
          · exact .inl ⟨g, List.mem_cons_of_mem _ hg, hg'⟩
          · rcases hx x hxG with ⟨h1, h2⟩ | ⟨h1, h2⟩
            · exact .inl ⟨f, List.mem_cons_self, he, h1, h2⟩
            · refine .inr ⟨h1, fun g hg' hge => ?_⟩
              rcases List.mem_cons.1 hg' with rfl | hg'
              · exact h2
              · exact hg g hg' hge
      cases hf : F.find? (fun x => x.key = f.key) with
      | some x =>
        rw [hf] at h
        have hmem : f.key ∈ F.map (·.key) := by
          have h1 := List.mem_of_find?_eq_some hf
          have h2 := List.find?_some hf
          exact List.mem_map.2 ⟨x, h1, by simpa using h2⟩
        have hkeys : (F.map fun y => if y.key = f.key then (⟨y.key, .inacc st1.nextInacc⟩ : Fld) else y).map (·.key) =
            F.map (·.key) := by
          rw [List.map_map]
          apply List.map_congr_left
          intro y _
          show (if y.key = f.key then (⟨y.key, .inacc st1.nextInacc⟩ : Fld) else y).key = y.key
          split <;> rfl
        refine key _ _ (pushInacc_quiet st1 x.value) h ?_ ?_ ?_
        · rw [hkeys]; exact id
        · intro k
          rw [hkeys]
          exact ⟨.inl, fun h => h.elim id fun h => h ▸ hmem⟩
        · intro y hy
          obtain ⟨z, hz, rfl⟩ := List.mem_map.1 hy
          by_cases hzk : z.key = f.key
          · left
            rw [if_pos hzk]
            exact ⟨hzk.symm, .inr ⟨_, rfl⟩⟩
          · right
            rw [if_neg hzk]
            exact ⟨hz, fun h => hzk h.symm⟩
      | none =>
        rw [hf] at h
        have hno := find_key.1 hf
        refine key _ _ (.refl _) h ?_ ?_ ?_
        · intro hF
          rw [List.map_append]
          refine List.nodup_append.2 ⟨hF, by simp, ?_⟩
          intro a ha b hb
          have hb : b = f.key := by simpa using hb
          subst hb
          intro hab
          exact hno (hab ▸ ha)
        · intro k
          rw [List.map_append]
          simp [eq_comm]
        · intro y hy
          rcases List.mem_append.1 hy with hy | hy
          · refine .inr ⟨hy, fun hk => hno (List.mem_map.2 ⟨y, hy, hk.symm⟩)⟩
          · have : y = ⟨f.key, .null⟩ := by simpa using hy
            subst this
            exact .inl ⟨rfl, .inl rfl⟩

/-- The fields that are filled with null. -/
def filled (F0 : List Fld) (fs : List FieldShape) : List FieldShape :=
  fs.filter fun f => !f.absent && !F0.any (fun x => x.key = f.key) && !f.ty.required

theorem missingLoop_spec {par loc : List VId} {F0 : List Fld} {fs : List FieldShape} {done : Bool} {F F' : List Fld} {st st' : Part}
    (h : missingLoop par loc F0 fs done F st = (F', st')) :
    ∃ own b, Marks NoLink (esc par loc) st st' b own ∧
      (b = true → ∃ f ∈ fs, f.absent = false ∧ f.ty.required = true ∧ f.vis = true ∧ f.key ∉ F0.map (·.key)) ∧
      (∀ f ∈ fs, f.absent = false → f.ty.required = true → f.vis = true → f.key ∉ F0.map (·.key) → (done || b) = true) ∧
      F' = F ++ (filled F0 fs).map fun f => ⟨f.key, .null⟩ := by
  induction fs generalizing done F st with
  | nil =>
    simp only [missingLoop, Prod.mk.injEq] at h
    obtain ⟨rfl, rfl⟩ := h
    exact ⟨[], false, (Quiet.refl _).marks, by simp, by simp, by simp [filled]⟩
  | cons f fs ih =>
    rw [missingLoop] at h
    have skip : ∀ {d : Bool} {G : List Fld} {st : Part}, missingLoop par loc F0 fs d G st = (F', st') →
        (f.absent = false → f.ty.required = true → f.vis = true → f.key ∉ F0.map (·.key) → d = true) →
        (filled F0 (f :: fs) = filled F0 fs) →
        ∃ own b, Marks NoLink (esc par loc) st st' b own ∧
          (b = true → ∃ g ∈ f :: fs, g.absent = false ∧ g.ty.required = true ∧ g.vis = true ∧ g.key ∉ F0.map (·.key)) ∧
          (∀ g ∈ f :: fs, g.absent = false → g.ty.required = true → g.vis = true → g.key ∉ F0.map (·.key) → (d || b) = true) ∧
          F' = G ++ (filled F0 (f :: fs)).map fun f => ⟨f.key, .null⟩ := by
      intro d G st h hd hfl
      obtain ⟨own, b, h1, h2, h3, h4⟩ := ih h
      refine ⟨own, b, h1, ?_, ?_, by rw [h4, hfl]⟩
      · intro hb
        obtain ⟨g, hg, hg'⟩ := h2 hb
        exact ⟨g, List.mem_cons_of_mem _ hg, hg'⟩
      · intro g hg ha hr hv hk
        rcases List.mem_cons.1 hg with rfl | hg
        · simp [hd ha hr hv hk]
        · exact h3 g hg ha hr hv hk
    split at h
    · next ha => exact skip h (fun h' => by simp [ha] at h') (by simp [filled, ha])
    · next ha =>
      split at h
      · next hk => exact skip h (fun _ _ _ hk' => absurd (any_key.1 hk) hk') (by
          unfold filled
          rw [List.filter_cons_of_neg]
          rw [hk]
          simp)
      · next hk =>
        have hk' : f.key ∉ F0.map (·.key) := fun h => hk (any_key.2 h)
        split at h
        · next hr =>
          have hfl : filled F0 (f :: fs) = filled F0 fs := by simp [filled, hr]
          split at h
          · next hv =>
            have hmark : ∃ own1, Marks NoLink (esc par loc) st (if done = true then st else st.propagate par loc) (!done) own1 := by
              cases done with
              | true => exact ⟨[], (Quiet.refl _).marks⟩
              | false => simpa using propagate_marks NoLink st par loc
            obtain ⟨own1, hmark⟩ := hmark
            obtain ⟨own, b, h1, h2, h3, h4⟩ := skip h (fun _ _ _ _ => rfl) hfl
            refine ⟨own1 ++ own, !done || b, hmark.trans h1, ?_, ?_, h4⟩
            · intro _
              exact ⟨f, List.mem_cons_self, by simpa using ha, hr, hv, hk'⟩
            · intro g _ _ _ _ _
              cases done <;> simp
          · next hv => exact skip h (fun _ _ hv' _ => absurd hv' hv) hfl
        · next hr =>
          obtain ⟨own, b, h1, h2, h3, h4⟩ := ih h
          refine ⟨own, b, h1, ?_, ?_, ?_⟩
          · intro hb
            obtain ⟨g, hg, hg'⟩ := h2 hb
            exact ⟨g, List.mem_cons_of_mem _ hg, hg'⟩
          · intro g hg ha hr' hv hk
            rcases List.mem_cons.1 hg with rfl | hg
            · exact absurd hr' hr
            · exact h3 g hg ha hr' hv hk
          · rw [h4]
            have : filled F0 (f :: fs) = f :: filled F0 fs := by
              unfold filled
              rw [List.filter_cons_of_pos]
              simp only [Bool.and_eq_true, Bool.not_eq_true']
              refine ⟨⟨by simpa using ha, ?_⟩, by simpa using hr⟩
              simpa using hk
            rw [this]
            simp

end Verif.NullProp
