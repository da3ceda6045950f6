import Verif.Complexity.Spec

namespace Verif.Complexity
open Spec

abbrev W (i : Int) : Word := BitVec.ofInt 64 i

theorem asUsize_eq (c : BitVec 32) : asUsize c = W c.toInt := rfl

theorem W_add (a b : Int) : W (a + b) = W a + W b := BitVec.ofInt_add ..
theorem W_mul (a b : Int) : W (a * b) = W a * W b := BitVec.ofInt_mul ..
theorem W_zero : W 0 = 0 := rfl
theorem W_one : W 1 = 1 := rfl
theorem W_word (w : Word) : W w.toNat = w := by
  simp [W, BitVec.ofInt_natCast]

theorem sum_append (l m : List Int) : (l ++ m).sum = l.sum + m.sum := List.sum_append
theorem sum_replicate (n : Nat) (c : Int) : (List.replicate n c).sum = n * c := by
  simp
theorem sum_map_mul (k : Int) (l : List Int) : (l.map (k * ·)).sum = k * l.sum := by
  induction l with
  | nil => simp
  | cons a l ih => simp only [List.map_cons, List.sum_cons, ih, Int.mul_add]

mutual
theorem scalar_eq (c : Int) : ∀ v, costForInputScalar (W c) v = W (leaves v * c)
  | .arr vs => by simpa [costForInputScalar, leaves] using scalars_eq c vs
  | .num _ => by simp [costForInputScalar, leaves]
  | .atom => by simp [costForInputScalar, leaves]
  | .obj _ => by simp [costForInputScalar, leaves]
theorem scalars_eq (c : Int) : ∀ vs, costForInputScalars (W c) vs = W (leavesList vs * c)
  | [] => by simp [costForInputScalars, leavesList, W]
  | v :: vs => by
    rw [costForInputScalars, scalar_eq c v, scalars_eq c vs, ← W_add, leavesList]
    congr 1
    rw [Int.natCast_add, Int.add_mul]
end

mutual
theorem object_eq (io : InObjects) : ∀ v o c, costForObjectValue io v o (W c) = W (objectCharges io v o c).sum
  | .arr vs, o, c => by simpa [costForObjectValue, objectCharges] using objects_eq io vs o c
  | .obj m, o, c => by
    rw [costForObjectValue, objectCharges, List.sum_cons, W_add, fields_eq io m o]
  | .num _, _, _ => by simp [costForObjectValue, objectCharges, W]
  | .atom, _, _ => by simp [costForObjectValue, objectCharges, W]
theorem objects_eq (io : InObjects) : ∀ vs o c,
    costForObjectValues io vs o (W c) = W (objectsCharges io vs o c).sum
  | [], _, _ => by simp [costForObjectValues, objectsCharges, W]
  | v :: vs, o, c => by
    rw [costForObjectValues, objectsCharges, sum_append, W_add, object_eq io v o c, objects_eq io vs o c]
theorem fields_eq (io : InObjects) : ∀ m o, costForFields io m o = W (fieldsCharges io m o).sum
  | [], _ => by simp [costForFields, fieldsCharges, W]
  | (name, v) :: m, o => by
    rw [costForFields, fieldsCharges, sum_append, W_add, fields_eq io m o]
    congr 1
    cases (io o).find? (·.name == name) with
    | none => simp [W]
    | some f =>
      simp only [asUsize_eq]
      cases f.object with
      | none => simp only [scalar_eq, sum_replicate]
      | some o' => simp only [object_eq io v]
end

theorem arg_eq (io : InObjects) (a : Arg) : costForArgument io a = W (argCharges io a).sum := by
  unfold costForArgument argCharges
  simp only [asUsize_eq]
  cases a.value with
  | none => simp
  | some v =>
    cases a.object with
    | none => simp only [scalar_eq, sum_replicate]
    | some o => simp only [object_eq]

theorem args_eq (io : InObjects) (as : List Arg) :
    (as.map (costForArgument io)).foldr (· + ·) 0 = W (as.flatMap (argCharges io)).sum := by
  induction as with
  | nil => rfl
  | cons a as ih =>
    simp only [List.map_cons, List.foldr_cons, List.flatMap_cons, sum_append, W_add, ih, arg_eq]

/-! ### Sizes -/

theorem given_eq (ls : ListSize) (args : List Arg) :
    given ls args = (slicingValues ls args).map BitVec.toNat := by
  unfold given slicingValues
  rw [List.map_filterMap]
  congr 1
  funext d
  cases args.find? (·.id == d) with
  | none => rfl
  | some a =>
    simp only [Option.bind_eq_bind, Option.bind_some]
    cases a.value with
    | none => rfl
    | some v => cases v <;> rfl

theorem maxWord_spec (ws : List Word) :
    match maxWord ws with
    | none => ws = []
    | some m => m ∈ ws ∧ ∀ x ∈ ws, x.toNat ≤ m.toNat := by
  cases ws with
  | nil => rfl
  | cons w ws =>
    simp only [maxWord]
    induction ws generalizing w with
    | nil => simp
    | cons v ws ih =>
      simp only [List.foldl_cons]
      have := ih (if w ≤ v then v else w)
      obtain ⟨h1, h2⟩ := this
      have hw : w.toNat ≤ (if w ≤ v then v else w).toNat ∧ v.toNat ≤ (if w ≤ v then v else w).toNat := by
        split
        · rename_i h; exact ⟨h, Nat.le_refl _⟩
        · rename_i h; exact ⟨Nat.le_refl _, by have := BitVec.not_le.1 h; exact Nat.le_of_lt this⟩
      refine ⟨?_, ?_⟩
      · rcases List.mem_cons.1 h1 with h1 | h1
        · rw [h1]; split <;> simp
        · simp [h1]
      · intro x hx
        have h0 := h2 _ (List.mem_cons_self ..)
        rcases List.mem_cons.1 hx with rfl | hx
        · omega
        · rcases List.mem_cons.1 hx with rfl | hx
          · omega
          · exact h2 x (by simp [hx])

/-- The multiplier of `@listSize` as computed by the code. -/
def directiveMultiplier (dflt : Word) (d : ListSize) (args : List Arg) : Option Word :=
  if d.slicingArguments.isEmpty then some ((d.assumedSize.getD (dflt.truncate 32)).zeroExtend 64)
  else if d.requireOneSlicingArgument && (slicingValues d args).length != 1 then none
  else some ((maxWord (slicingValues d args)).getD dflt)

theorem directive_iff (dflt : Word) (hd : dflt.toNat < 2 ^ 32) (d : ListSize) (args : List Arg) (n : Nat) :
    DirectiveSize dflt.toNat d args n ↔ ∃ w, directiveMultiplier dflt d args = some w ∧ w.toNat = n := by
  unfold directiveMultiplier
  by_cases hs : d.slicingArguments = []
  · simp only [hs, List.isEmpty_nil, if_true, Option.some.injEq, exists_eq_left']
    constructor
    · rintro (⟨h1, h2⟩ | ⟨h1, h2⟩ | ⟨h1, h2⟩ | ⟨h1, h2⟩)
      · rename_i m
        rw [h2]
        simp only [Option.getD_some, BitVec.toNat_setWidth]
        have := m.isLt; omega
      · rw [h2]
        simp only [Option.getD_none, BitVec.toNat_setWidth]
        omega
      · exact (h1 hs).elim
      · exact (h1 hs).elim
    · intro h
      cases ha : d.assumedSize with
      | none =>
        rw [ha] at h
        simp only [Option.getD_none, BitVec.toNat_setWidth] at h
        have : n = dflt.toNat := by omega
        rw [this]
        exact .noAssumed hs ha
      | some m =>
        rw [ha] at h
        simp only [Option.getD_some, BitVec.toNat_setWidth] at h
        have : n = m.toNat := by have := m.isLt; omega
        rw [this]
        exact .assumed hs ha
  · have he : d.slicingArguments.isEmpty = false := by simpa using hs
    have hmax := maxWord_spec (slicingValues d args)
    have hgl : (given d args).length = (slicingValues d args).length := by rw [given_eq]; simp
    simp only [he, Bool.false_eq_true, if_false]
    constructor
    · rintro (⟨h1, h2⟩ | ⟨h1, h2⟩ | ⟨h1, h2, h3⟩ | ⟨h1, h2, h3⟩)
      · exact (hs h1).elim
      · exact (hs h1).elim
      · have : slicingValues d args = [] := by rw [given_eq] at h3; simpa using h3
        simp [h2, this, maxWord]
      · have hc : (d.requireOneSlicingArgument && (slicingValues d args).length != 1) = false := by
          cases hr : d.requireOneSlicingArgument
          · rfl
          · rw [← hgl, h2 hr]; rfl
        rw [hc]
        obtain ⟨hm1, hm2⟩ := h3
        rw [given_eq] at hm1 hm2
        obtain ⟨x, hx, hxn⟩ := List.mem_map.1 hm1
        refine ⟨_, rfl, ?_⟩
        cases hmw : maxWord (slicingValues d args) with
        | none => rw [hmw] at hmax; rw [hmax] at hx; cases hx
        | some mw =>
          rw [hmw] at hmax
          simp only [Option.getD_some]
          have a := hmax.2 x hx
          have b := hm2 mw.toNat (List.mem_map.2 ⟨mw, hmax.1, rfl⟩)
          omega
    · rintro ⟨w, hw, hwn⟩
      split at hw; · exact nomatch hw
      rename_i hc
      have hone : d.requireOneSlicingArgument = true → (given d args).length = 1 := by
        intro hr
        rw [hgl]
        simpa [hr] using hc
      cases hmw : maxWord (slicingValues d args) with
      | none =>
        rw [hmw] at hmax hw
        simp only [Option.getD_none, Option.some.injEq] at hw
        have hg : given d args = [] := by rw [given_eq, hmax]; rfl
        rw [← hwn, ← hw]
        refine .noneGiven hs ?_ hg
        cases hr : d.requireOneSlicingArgument
        · rfl
        · have := hone hr; rw [hg] at this; simp at this
      | some mw =>
        rw [hmw] at hmax hw
        simp only [Option.getD_some, Option.some.injEq] at hw
        rw [← hwn, ← hw]
        refine .greatest hs hone ⟨?_, ?_⟩
        · rw [given_eq]; exact List.mem_map.2 ⟨mw, hmax.1, rfl⟩
        · intro x hx
          rw [given_eq] at hx
          obtain ⟨y, hy, rfl⟩ := List.mem_map.1 hx
          exact hmax.2 y hy

def impOf (fm : Option FieldMultipliers) : Option (Nat × List Nat) :=
  fm.map fun m => (m.multiplier.toNat, m.fields)

def presetOf (fm : Option FieldMultipliers) (name : Nat) : Option Word :=
  match fm with
  | none => none
  | some m => if m.fields.contains name then some m.multiplier else none

def ListSizeHandling.parts : ListSizeHandling → Word × Option FieldMultipliers
  | .thisFieldIsTheList n => (n, none)
  | .childFieldsAreTheList m => (1, some m)

theorem calc_eq (dflt : Word) (isList : Bool) (d : ListSize) (args : List Arg) :
    calculateChildCount dflt isList (some d) args none =
      (directiveMultiplier dflt d args).map fun w =>
        if d.sizedFields.isEmpty then .thisFieldIsTheList w
        else .childFieldsAreTheList ⟨w, d.sizedFields⟩ := by
  unfold calculateChildCount directiveMultiplier
  by_cases h1 : d.slicingArguments.isEmpty = true <;> by_cases h2 : d.sizedFields.isEmpty = true <;>
    by_cases h3 : (d.requireOneSlicingArgument && (slicingValues d args).length != 1) = true <;>
    simp only [h1, h2, h3, Bool.false_eq_true, if_true, if_false] <;> rfl

theorem fieldSize_iff (dflt : Word) (hd : dflt.toNat < 2 ^ 32) (name : Nat) (isList : Bool)
    (args : List Arg) (ls : Option ListSize) (fm : Option FieldMultipliers) (n : Nat)
    (imp' : Option (Nat × List Nat)) :
    FieldSize dflt.toNat name isList args ls (impOf fm) n imp' ↔
      ∃ h, calculateChildCount dflt isList ls args (presetOf fm name) = some h ∧
        h.parts.1.toNat = n ∧ impOf h.parts.2 = imp' := by
  have key : (∃ m ns, impOf fm = some (m, ns) ∧ name ∈ ns) ∨
      ((∀ p, impOf fm = some p → name ∉ p.2) ∧ presetOf fm name = none) := by
    cases fm with
    | none => right; simp [impOf, presetOf]
    | some m =>
      by_cases hm : name ∈ m.fields
      · left; exact ⟨_, _, rfl, hm⟩
      · right; refine ⟨?_, ?_⟩
        · intro p hp; simp only [impOf, Option.map_some, Option.some.injEq] at hp; rw [← hp]; exact hm
        · simp [presetOf, hm]
  rcases key with ⟨m, ns, himp, hmem⟩ | ⟨hnot, hpre⟩
  · have hp : ∃ w, presetOf fm name = some w ∧ w.toNat = m := by
      cases fm with
      | none => simp [impOf] at himp
      | some f =>
        simp only [impOf, Option.map_some, Option.some.injEq, Prod.mk.injEq] at himp
        refine ⟨f.multiplier, ?_, himp.1⟩
        simp [presetOf, himp.2, hmem]
    obtain ⟨w, hw, hwm⟩ := hp
    rw [hw, himp]
    constructor
    · intro h
      have : n = m ∧ imp' = none := by
        cases h with
        | imposed _ => exact ⟨rfl, rfl⟩
        | plainList h _ => exact (h _ rfl hmem).elim
        | single h _ => exact (h _ rfl hmem).elim
        | sized h _ _ => exact (h _ rfl hmem).elim
        | sizes h _ _ => exact (h _ rfl hmem).elim
      obtain ⟨rfl, rfl⟩ := this
      exact ⟨.thisFieldIsTheList w, rfl, hwm, rfl⟩
    · rintro ⟨h, hh, h1, h2⟩
      simp only [calculateChildCount, Option.some.injEq] at hh
      subst hh
      simp only [ListSizeHandling.parts] at h1 h2
      rw [← h1, ← h2, hwm]
      exact .imposed hmem
  · rw [hpre]
    generalize impOf fm = imp at *
    cases ls with
    | none =>
      simp only [calculateChildCount, Option.some.injEq, exists_eq_left', ListSizeHandling.parts]
      constructor
      · intro h
        cases h with
        | imposed hm => exact (hnot _ rfl hm).elim
        | plainList _ hl => rw [hl]; exact ⟨rfl, rfl⟩
        | single _ hl => rw [hl]; exact ⟨rfl, rfl⟩
      · rintro ⟨h1, h2⟩
        rw [← h1, ← h2]
        cases isList with
        | true => exact .plainList hnot rfl
        | false => exact .single hnot rfl
    | some d =>
      rw [calc_eq]
      constructor
      · intro h
        cases h with
        | imposed hm => exact (hnot _ rfl hm).elim
        | sized _ hds hsf =>
          obtain ⟨w, hw, hwn⟩ := (directive_iff dflt hd d args n).1 hds
          exact ⟨.thisFieldIsTheList w, by simp [hw, hsf], hwn, rfl⟩
        | sizes _ hds hsf =>
          obtain ⟨w, hw, hwn⟩ := (directive_iff dflt hd d args _).1 hds
          exact ⟨.childFieldsAreTheList ⟨w, d.sizedFields⟩, by simp [hw, hsf], rfl, by
            simp [ListSizeHandling.parts, impOf, hwn]⟩
      · rintro ⟨h, hh, h1, h2⟩
        cases hw : directiveMultiplier dflt d args with
        | none => rw [hw] at hh; exact nomatch hh
        | some w =>
          rw [hw] at hh
          simp only [Option.map_some, Option.some.injEq] at hh
          have hds := (directive_iff dflt hd d args w.toNat).2 ⟨w, hw, rfl⟩
          by_cases hsf : d.sizedFields = []
          · simp only [hsf, List.isEmpty_nil, if_true] at hh
            subst hh
            rw [← h1, ← h2]
            exact .sized hnot hds hsf
          · have : d.sizedFields.isEmpty = false := by simpa using hsf
            simp only [this, Bool.false_eq_true, if_false] at hh
            subst hh
            rw [← h1, ← h2]
            exact .sizes hnot hds hsf

/-! ### The whole computation -/

theorem sel_field (io : InObjects) (dflt : Word) (name : Nat) (weight : BitVec 32) (isList : Bool)
    (ls : Option ListSize) (args : List Arg) (sub rest : Sels) (fm : Option FieldMultipliers) :
    selectionSetComplexity io dflt (.field name weight isList ls args sub rest) fm =
      (calculateChildCount dflt isList ls args (presetOf fm name)).bind fun h =>
      (selectionSetComplexity io dflt sub h.parts.2).bind fun c =>
      (selectionSetComplexity io dflt rest fm).bind fun r =>
        some (h.parts.1 * (asUsize weight + W (args.flatMap (argCharges io)).sum + c) + r) := by
  rw [← args_eq, selectionSetComplexity.eq_def]
  show (calculateChildCount dflt isList ls args (presetOf fm name)).bind _ = _
  congr 1

theorem charges_sound (io : InObjects) (dflt : Word) (hd : dflt.toNat < 2 ^ 32) (s : Sels)
    (occ : Int) (fm : Option FieldMultipliers) (cs : List Int)
    (h : Charges io dflt.toNat occ (impOf fm) s cs) :
    ∃ w, selectionSetComplexity io dflt s fm = some w ∧ W cs.sum = W occ * w := by
  induction s generalizing occ fm cs with
  | nil => cases h; exact ⟨0, rfl, by simp [W]⟩
  | typename rest ih =>
    cases h with
    | typename hr =>
    obtain ⟨w, hw, hs⟩ := ih _ _ _ hr
    refine ⟨1 + w, by simp [selectionSetComplexity, hw], ?_⟩
    rw [List.sum_cons, W_add, hs, BitVec.mul_add, show (1 : Word) = 1#64 from rfl, BitVec.mul_one]
  | field name weight isList ls args sub rest ihs ihr =>
    cases h with
    | @field _ _ _ _ _ _ _ _ _ n imp' cs ds hfs hsub hrest =>
    obtain ⟨hh, hcalc, hn, himp⟩ := (fieldSize_iff dflt hd _ _ _ _ fm _ _).1 hfs
    rw [← himp] at hsub
    obtain ⟨c, hc, hcs⟩ := ihs _ _ _ hsub
    obtain ⟨r, hr, hrs⟩ := ihr _ _ _ hrest
    refine ⟨_, by rw [sel_field, hcalc, Option.bind_some, hc, Option.bind_some, hr, Option.bind_some], ?_⟩
    have hpn : W (n : Int) = hh.parts.1 := by rw [← hn]; exact W_word _
    rw [List.cons_append, List.cons_append, List.sum_cons, sum_append, sum_append, sum_map_mul, asUsize_eq]
    simp only [W_add, W_mul, hcs, hrs, hpn, BitVec.mul_add, BitVec.mul_assoc, BitVec.add_assoc]

theorem charges_complete (io : InObjects) (dflt : Word) (hd : dflt.toNat < 2 ^ 32) (s : Sels)
    (occ : Int) (fm : Option FieldMultipliers) (w : Word)
    (h : selectionSetComplexity io dflt s fm = some w) :
    ∃ cs, Charges io dflt.toNat occ (impOf fm) s cs := by
  induction s generalizing occ fm w with
  | nil => exact ⟨[], .nil⟩
  | typename rest ih =>
    simp only [selectionSetComplexity, Option.bind_eq_bind, Option.bind_eq_some_iff] at h
    obtain ⟨r, hr, _⟩ := h
    obtain ⟨cs, hcs⟩ := ih occ fm r hr
    exact ⟨_, .typename hcs⟩
  | field name weight isList ls args sub rest ihs ihr =>
    rw [sel_field] at h
    simp only [Option.bind_eq_some_iff] at h
    obtain ⟨hh, hcalc, c, hc, r, hr, _⟩ := h
    obtain ⟨cs, hcs⟩ := ihs (occ * hh.parts.1.toNat) _ c hc
    obtain ⟨ds, hds⟩ := ihr occ _ r hr
    exact ⟨_, .field ((fieldSize_iff dflt hd _ _ _ _ fm _ _).2 ⟨hh, hcalc, rfl, rfl⟩) hcs hds⟩

end Verif.Complexity
