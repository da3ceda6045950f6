import Verif.RespAuth.ValueLemmas
import Verif.RespAuth.Witness

/-!
# C50: authorization of the response
-/
namespace Verif.RespAuth

open Verif.NullProp
open Verif.DefaultMerge (Key)

/-- The positions the denials remove. -/
def Removed (dens : List Denial) (q : List Seg) : Prop := ∃ d ∈ dens, nearest d.pos = some q

theorem hit_removed {is : List Item} : Hit is = Removed (is.map Item.denial) := by
  funext q
  apply propext
  unfold Hit Removed
  constructor
  · rintro ⟨i, hi, hne, hs⟩
    refine ⟨_, List.mem_map.2 ⟨i, hi, rfl⟩, ?_⟩
    show nearest (denied i.rule i.t i.ref) = _
    rw [nearest_denied, if_neg (show markOf i.rule i.t i.ref ≠ [] from hne)]
    exact congrArg some hs
  · rintro ⟨d, hd, hs⟩
    obtain ⟨i, hi, rfl⟩ := List.mem_map.1 hd
    have hs : nearest (denied i.rule i.t i.ref) = some q := hs
    rw [nearest_denied] at hs
    split at hs
    · simp at hs
    · next hne =>
      simp only [Option.some.injEq] at hs
      exact ⟨i, hi, hne, hs⟩

/-- Whatever the response and the decisions: every denial gives one error, at the denied position; a
denied position that may not be null, nor any of its ancestors, makes the data null; and otherwise the
response is what it was without the denied positions.

Missing for C50: that the references lead to the objects (`Tracked`), which is false for objects that
were merged (`C50_merged_leak`); and plans that are ingested between the modifiers. -/
theorem C50_exact_partial {sets : Sets} {ms : List (Rule × Target × Decisions)} {dens : List Denial} {r : Response} {root : Id}
    {es : List Err} (hd : AllDenials sets ms dens) (hr : r.root = some root) (ht : Tree r.parts root)
    (hk : Tracked sets r.parts root ms) :
    ∃ s, runModifiers sets ms ⟨r, es⟩ = some s ∧
      s.errors = es ++ dens.map (fun d => ⟨d.err, (d.pos.map (·.1)).reverse⟩) ∧
      ((∃ d ∈ dens, nearest d.pos = none) → ∀ n, s.resp.show n = some .null) ∧
      ((∀ d ∈ dens, nearest d.pos ≠ none) → ∀ n out, r.show n = some out →
        ∃ out', s.resp.show n = some out' ∧ Without (Removed dens) [] out out') := by
  obtain ⟨is, rfl, hrun, hok⟩ := allDenials_items hd
  have hok := hok r.parts root hk
  rw [hrun, denyItems_eq]
  obtain ⟨h, hm⟩ : ∃ h, makeAll r.parts (heads is) = some h := by
    apply makeAll_total
    · intro v hv
      obtain ⟨i, hi, p, hp⟩ := mem_heads.1 hv
      have := (hok i hi).marked (by rw [hp]; simp)
      rw [hp] at this
      cases this <;> rfl
    · intro v hv
      obtain ⟨i, hi, p, hp⟩ := mem_heads.1 hv
      have := (hok i hi).marked (by rw [hp]; simp)
      rw [hp] at this
      cases this with
      | field _ hF _ _ => exact ⟨_, hF⟩
      | index _ hvs hx => exact ⟨_, hvs, (List.getElem?_eq_some_iff.1 hx).1⟩
  rw [hm]
  have hnear : ∀ i ∈ is, (nearest i.denial.pos = none ↔ i.mark = []) := by
    intro i _
    show nearest (denied i.rule i.t i.ref) = none ↔ _
    rw [nearest_denied]
    unfold Item.mark
    split
    · next he => exact ⟨fun _ => he, fun _ => rfl⟩
    · next he => exact ⟨fun hc => by simp at hc, fun hc => absurd hc he⟩
  refine ⟨_, rfl, ?_, ?_, ?_⟩
  · simp only [List.map_map]
    congr 1
    apply List.map_congr_left
    intro i _
    simp only [Function.comp, errorPath_eq, Item.denial]
  · rintro ⟨d, hd, hn⟩ n
    obtain ⟨i, hi, rfl⟩ := List.mem_map.1 hd
    have hmark := (hnear i hi).1 hn
    have : is.any (fun i => i.mark.isEmpty) = true := List.any_eq_true.2 ⟨i, hi, by rw [hmark]; rfl⟩
    simp [Response.show, this]
  · intro hn n out hs
    have : is.any (fun i => i.mark.isEmpty) = false := by
      rw [List.any_eq_false]
      intro i hi he
      exact hn _ (List.mem_map.2 ⟨i, hi, rfl⟩) ((hnear i hi).2 (List.isEmpty_iff.1 he))
    simp only [Response.show, hr] at hs
    simp only [Response.show, this, hr, Bool.false_eq_true, if_false]
    have hroot : ¬ Hit is (([] : List VId).map seg) := by
      rintro ⟨i, _, hne, he⟩
      exact hne (List.map_eq_nil_iff.1 he)
    obtain ⟨out', h1, h2⟩ := shows_without ht hok hm n (.obj root) [] out .root hroot hs
    rw [hit_removed] at h2
    exact ⟨out', h1, h2⟩

/-- No denied value is shown: at the path of a denied field or object, or at the ancestor that takes
the null, there is null or nothing.  Missing: as above. -/
theorem C50_denied_absent_partial {sets : Sets} {ms : List (Rule × Target × Decisions)} {dens : List Denial} {r : Response} {root : Id}
    {es : List Err} (hd : AllDenials sets ms dens) (hr : r.root = some root) (ht : Tree r.parts root)
    (hk : Tracked sets r.parts root ms) {n : Nat} {out : Out} (hs : r.show n = some out) :
    ∃ s out', runModifiers sets ms ⟨r, es⟩ = some s ∧ s.resp.show n = some out' ∧
      ∀ d ∈ dens, valueAt (d.pos.map (·.1)).reverse out' = none ∨ valueAt (d.pos.map (·.1)).reverse out' = some .null := by
  obtain ⟨s, h1, _, h3, h4⟩ := C50_exact_partial (es := es) hd hr ht hk
  have hnull : ∀ q : List Seg, valueAt q .null = none ∨ valueAt q .null = some .null := by
    intro q
    cases q with
    | nil => exact .inr rfl
    | cons s q => left; cases s <;> rfl
  have hpre : ∀ (q1 q2 : List Seg) (o : Out), (valueAt q1 o = none ∨ valueAt q1 o = some .null) →
      valueAt (q1 ++ q2) o = none ∨ valueAt (q1 ++ q2) o = some .null := by
    intro q1 q2
    induction q1 with
    | nil =>
      intro o ho
      rcases ho with ho | ho
      · simp [valueAt] at ho
      · simp only [valueAt, Option.some.injEq] at ho
        subst ho
        exact hnull _
    | cons s q1 ih =>
      intro o ho
      cases s with
      | key k =>
        cases o with
        | obj fs =>
          simp only [List.cons_append, valueAt] at ho ⊢
          cases hf : findKey k fs with
          | none => left; rfl
          | some x => rw [hf] at ho; exact ih x ho
        | null => left; rfl
        | leaf _ => left; rfl
        | list _ => left; rfl
      | ix i =>
        cases o with
        | list os =>
          simp only [List.cons_append, valueAt] at ho ⊢
          cases hf : os[i]? with
          | none => left; rfl
          | some x => rw [hf] at ho; exact ih x ho
        | null => left; rfl
        | leaf _ => left; rfl
        | obj _ => left; rfl
  by_cases hn : ∃ d ∈ dens, nearest d.pos = none
  · exact ⟨s, _, h1, h3 hn n, fun d _ => hnull _⟩
  · have hn' : ∀ d ∈ dens, nearest d.pos ≠ none := fun d hd h => hn ⟨d, hd, h⟩
    obtain ⟨out', h5, h6⟩ := h4 hn' n out hs
    refine ⟨s, out', h1, h5, fun d hd => ?_⟩
    cases hq : nearest d.pos with
    | none => exact absurd hq (hn' d hd)
    | some q =>
      have hsuf : ∀ (pos : Pos) q, nearest pos = some q → q <:+ pos.map (·.1) := by
        intro pos
        induction pos with
        | nil => intro q h; simp [nearest] at h
        | cons x pos ih =>
          intro q h
          obtain ⟨s, b⟩ := x
          cases b with
          | true =>
            simp only [nearest, Option.some.injEq] at h
            rw [← h]
            exact List.suffix_refl _
          | false => exact (ih q h).trans (List.suffix_cons _ _)
      obtain ⟨q', hq'⟩ := hsuf _ _ hq
      rw [← hq', List.reverse_append]
      apply hpre
      exact valueAt_denied h6 (by rw [List.reverse_reverse, List.append_nil]; exact ⟨d, hd, hq⟩)

/-- Granted data is unchanged: a leaf stays unless it is at or inside a removed position.
Missing: as above. -/
theorem C50_granted_same_partial {sets : Sets} {ms : List (Rule × Target × Decisions)} {dens : List Denial} {r : Response} {root : Id}
    {es : List Err} (hd : AllDenials sets ms dens) (hr : r.root = some root) (ht : Tree r.parts root)
    (hk : Tracked sets r.parts root ms) (hn : ∀ d ∈ dens, nearest d.pos ≠ none) {n : Nat} {out : Out} (hs : r.show n = some out)
    {q : List Seg} {l : Leaf} (hl : valueAt q out = some (.leaf l)) (hq : ∀ q1 q2, q = q1 ++ q2 → ¬ Removed dens q1.reverse) :
    ∃ s out', runModifiers sets ms ⟨r, es⟩ = some s ∧ s.resp.show n = some out' ∧ valueAt q out' = some (.leaf l) := by
  obtain ⟨s, h1, _, _, h4⟩ := C50_exact_partial (es := es) hd hr ht hk
  obtain ⟨out', h5, h6⟩ := h4 hn n out hs
  refine ⟨s, out', h1, h5, ?_⟩
  rcases valueAt_granted (q := q) h6 (by intro q1 q2 he; rw [List.append_nil]; exact hq q1 q2 he) with ⟨h7, _⟩ | ⟨x, x', h7, h8, hw⟩
  · rw [h7] at hl; simp at hl
  · rw [h7] at hl
    simp only [Option.some.injEq] at hl
    subst hl
    cases hw with
    | denied hdn =>
      rw [List.append_nil] at hdn
      exact absurd hdn (hq q [] (by simp))
    | leaf _ => exact h8

/-- Modifiers panic for decisions about elements or errors that do not exist, whatever the response:
without a panic, every decision is about the objects of its target. -/
theorem C50_no_panic_in_range {sets : Sets} {ms : List (Rule × Target × Decisions)} {s s' : St}
    (h : runModifiers sets ms s = some s') : ∃ dens, AllDenials sets ms dens := allDenials_of_run h

/-! ## Where it is false -/

/-- Two plans share the root field 1 and the extension denies the field 3 that the second one gave: the
denied value is in the response, because the object of the second plan was merged into the one of the
first and the reference still is to the former. -/
theorem C50_merged_leak :
    ∃ r s, (runPlans noneHidden 7 10 [(sharedA, jsonA), (authShape, authJson)] Response.new = some r) ∧
      runModifiers authSets authMods ⟨r, []⟩ = some s ∧
      s.errors = [⟨40, [.key 1, .key 3]⟩] ∧
      s.resp.show 10 = some (.obj [(1, .obj [(2, .leaf ⟨false, 5⟩), (3, .leaf ⟨false, 77⟩)])]) :=
  ⟨_, _, rfl, rfl, rfl, rfl⟩

/-- An extension that denies an element that does not exist makes the engine panic. -/
theorem C50_out_of_range_panic {sets : Sets} {t : Target} {rule : Rule} {s : St} {ref : Ref}
    (hp : parents sets t = [ref]) : runModifiers sets [(rule, t, .denySome [(1, 0)] [40])] s = none := by
  simp [runModifiers, runTarget, hp, denyElements]

/-! ## The hypotheses can be met -/

theorem exReaches {p : List VId} {w : Val} (h : Reaches exParts ⟨0, 0⟩ p w) :
    (p.map seg = [] ∧ w = .obj ⟨0, 0⟩) ∨ (p.map seg = [.key 1] ∧ w = .list ⟨0, 0⟩) ∨
      (p.map seg = [.ix 0, .key 1] ∧ w = .obj ⟨0, 1⟩) ∨ (p.map seg = [.ix 1, .key 1] ∧ w = .obj ⟨0, 2⟩) ∨
      ∃ l, w = .leaf l := by
  induction h with
  | root => exact .inl ⟨rfl, rfl⟩
  | @field p o F f n w _ hF hf hd ih =>
    rcases ih with ⟨h1, h2⟩ | ⟨_, h2⟩ | ⟨h1, h2⟩ | ⟨h1, h2⟩ | ⟨l, h2⟩
    · simp only [Val.obj.injEq] at h2
      subst h2
      simp only [getObj, exParts, List.getElem?_cons_zero, Option.bind_some, Option.some.injEq] at hF
      subst hF
      simp only [List.mem_singleton] at hf
      subst hf
      cases hd with
      | here _ => exact .inr (.inl ⟨by simp [seg, h1], rfl⟩)
    · simp at h2
    · simp only [Val.obj.injEq] at h2
      subst h2
      simp only [getObj, exParts, List.getElem?_cons_zero, List.getElem?_cons_succ, Option.bind_some, Option.some.injEq] at hF
      subst hF
      simp only [List.mem_cons, List.not_mem_nil, or_false] at hf
      rcases hf with rfl | rfl <;> cases hd <;> exact .inr (.inr (.inr (.inr ⟨_, rfl⟩)))
    · simp only [Val.obj.injEq] at h2
      subst h2
      simp only [getObj, exParts, List.getElem?_cons_zero, List.getElem?_cons_succ, Option.bind_some, Option.some.injEq] at hF
      subst hF
      simp only [List.mem_cons, List.not_mem_nil, or_false] at hf
      rcases hf with rfl | rfl <;> cases hd <;> exact .inr (.inr (.inr (.inr ⟨_, rfl⟩)))
    · simp at h2
  | @index p l vs i v n w _ hvs hv hd ih =>
    rcases ih with ⟨h1, h2⟩ | ⟨h1, h2⟩ | ⟨h1, h2⟩ | ⟨h1, h2⟩ | ⟨l, h2⟩
    · simp at h2
    · simp only [Val.list.injEq] at h2
      subst h2
      simp only [getList, exParts, List.getElem?_cons_zero, Option.bind_some, Option.some.injEq] at hvs
      subst hvs
      rcases i with _ | _ | i
      · simp only [List.getElem?_cons_zero, Option.some.injEq] at hv
        subst hv
        cases hd with
        | here _ => exact .inr (.inr (.inl ⟨by simp [seg, h1], rfl⟩))
      · simp only [List.getElem?_cons_zero, List.getElem?_cons_succ, Option.some.injEq] at hv
        subst hv
        cases hd with
        | here _ => exact .inr (.inr (.inr (.inl ⟨by simp [seg, h1], rfl⟩)))
      · simp at hv
    · simp at h2
    · simp at h2
    · simp at h2

theorem exTree : Tree exParts ⟨0, 0⟩ := by
  refine ⟨?_, ?_, ?_⟩
  · intro p p' o h h'
    rcases exReaches h with ⟨h1, h2⟩ | ⟨_, h2⟩ | ⟨h1, h2⟩ | ⟨h1, h2⟩ | ⟨l, h2⟩ <;>
      rcases exReaches h' with ⟨h1', h2'⟩ | ⟨_, h2'⟩ | ⟨h1', h2'⟩ | ⟨h1', h2'⟩ | ⟨l', h2'⟩ <;>
      simp_all
  · intro p p' o h h'
    rcases exReaches h with ⟨h1, h2⟩ | ⟨h1, h2⟩ | ⟨h1, h2⟩ | ⟨h1, h2⟩ | ⟨l, h2⟩ <;>
      rcases exReaches h' with ⟨h1', h2'⟩ | ⟨h1', h2'⟩ | ⟨h1', h2'⟩ | ⟨h1', h2'⟩ | ⟨l', h2'⟩ <;>
      first | (cases h2; done) | (cases h2'; done) | (rw [h1, h1'])
  · intro o F h
    unfold getObj exParts at h
    obtain ⟨d, hd, h⟩ := Option.bind_eq_some_iff.1 h
    rcases hp : o.part with _ | n
    · rw [hp] at hd
      simp only [List.getElem?_cons_zero, Option.some.injEq] at hd
      subst hd
      simp only at h
      rcases hi : o.ix with _ | _ | _ | n <;> rw [hi] at h <;> simp at h <;> subst h <;> decide
    · rw [hp] at hd
      simp at hd

theorem exTracked : Tracked exSets exParts ⟨0, 0⟩ exMods := by
  have h0 : Reaches exParts ⟨0, 0⟩ [.field ⟨0, 0⟩ ⟨1, 1⟩ true] (.list ⟨0, 0⟩) :=
    .field (f := ⟨⟨1, 1⟩, .list ⟨0, 0⟩⟩) .root rfl (by simp) (.here (by simp))
  have hr : ∀ ref ∈ [exRef 0, exRef 1], Reaches exParts ⟨0, 0⟩ ref.path (.obj ref.id) := by
    intro ref href
    simp only [List.mem_cons, List.not_mem_nil, or_false] at href
    rcases href with rfl | rfl
    · exact .index h0 rfl rfl (.here (by simp [exRef]))
    · exact .index h0 rfl rfl (.here (by simp [exRef]))
  have hall : ∀ m ∈ exMods, exSets.refs m.2.1.set = some [exRef 0, exRef 1] := by
    intro m hm
    simp only [exMods, List.mem_cons, List.not_mem_nil, or_false] at hm
    rcases hm with rfl | rfl <;> rfl
  refine ⟨?_, ?_⟩
  · intro m hm all ha ref href
    rw [hall m hm] at ha
    simp only [Option.some.injEq] at ha
    subst ha
    exact hr ref href
  · intro m hm _ hq all ha ref href _
    rw [hall m hm] at ha
    simp only [Option.some.injEq] at ha
    subst ha
    simp only [exMods, List.mem_cons, List.not_mem_nil, or_false] at hm
    simp only [List.mem_cons, List.not_mem_nil, or_false] at href
    rcases hm with rfl | rfl
    · rcases href with rfl | rfl
      · exact ⟨_, rfl, ⟨⟨2, 2⟩, leafVal 5⟩, by simp, rfl⟩
      · exact ⟨_, rfl, ⟨⟨2, 2⟩, leafVal 7⟩, by simp, rfl⟩
    · simp at hq

/-- Field 2 of the second item and the required field 3 of the first item are denied. -/
theorem exDenials : AllDenials exSets exMods
    [⟨[(.key 2, true), (.ix 1, true), (.key 1, true)], 40⟩, ⟨[(.key 3, false), (.ix 0, true), (.key 1, true)], 41⟩] := by
  have hc : Concerns exSets ⟨0, 9, ⟨2, 2⟩, false⟩ [exRef 0, exRef 1] := ⟨_, rfl, rfl⟩
  have hc' : Concerns exSets ⟨0, 9, ⟨3, 3⟩, true⟩ [exRef 0, exRef 1] := ⟨_, rfl, rfl⟩
  refine .cons (rs := [(exRef 1, 40)]) hc (by simp) (.denySome rfl ?_)
    (.cons (rs := [(exRef 0, 41)]) hc' (by simp) (.denySome rfl ?_) .nil)
  · intro n el d h1 h2
    cases n with
    | zero =>
      simp only [List.getElem?_cons_zero, Option.some.injEq] at h1 h2
      subst h1 h2
      exact ⟨rfl, rfl⟩
    | succ n => simp at h1
  · intro n el d h1 h2
    cases n with
    | zero =>
      simp only [List.getElem?_cons_zero, Option.some.injEq] at h1 h2
      subst h1 h2
      exact ⟨rfl, rfl⟩
    | succ n => simp at h1

example : ∃ s, runModifiers exSets exMods ⟨⟨exParts, some ⟨0, 0⟩⟩, []⟩ = some s ∧
    s.errors = [⟨40, [.key 1, .ix 1, .key 2]⟩, ⟨41, [.key 1, .ix 0, .key 3]⟩] ∧
    s.resp.show 5 = some (.obj [(1, .list [.null, .obj [(2, .null), (3, .leaf ⟨false, 8⟩)]])]) :=
  ⟨_, rfl, rfl, rfl⟩

end Verif.RespAuth
