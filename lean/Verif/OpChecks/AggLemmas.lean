import Verif.OpChecks.OpLemmas
/-!
# Operation checks: lemmas about the usage counts
-/
namespace Verif.OpChecks
open Verif.PatchPaths Verif.CheckTypes Verif.Common

/-! ## Counting maps -/

theorem add_eq {a b c d : Nat} (h : a = b) (h' : c = d) : a + c = b + d := by omega

theorem get_nil {K : Type} [DecidableEq K] (k : K) : Counts.get ([] : Counts K) k = none := rfl

theorem get_bump {K : Type} [DecidableEq K] (m : Counts K) (k j : K) (inc : Nat) :
    (m.bump k inc).get j = if k = j then some (match m.get k with | none => inc | some c => addWrap c inc)
      else m.get j := by
  induction m with
  | nil =>
    unfold Counts.bump
    by_cases h : k = j <;> simp [Counts.get, h]
  | cons e rest ih =>
    unfold Counts.bump
    by_cases he : e.1 = k
    · simp only [he, if_true]
      by_cases h : k = j
      · subst h; simp [Counts.get, he]
      · simp [Counts.get, h, he]
    · simp only [he, if_false]
      by_cases h : k = j
      · subst h
        simp only [if_true] at ih ⊢
        simpa [Counts.get, he] using ih
      · simp only [h, if_false] at ih ⊢
        by_cases hj : e.1 = j
        · simp [Counts.get, hj]
        · simpa [Counts.get, hj] using ih

/-- Registering a list of keys. -/
def bumpAll {K : Type} [DecidableEq K] (m : Counts K) (ks : List K) (inc : Nat) : Counts K :=
  ks.foldl (fun m k => m.bump k inc) m

theorem get_bumpAll {K : Type} [DecidableEq K] (ks : List K) (inc : Nat) (hinc : inc < 2 ^ 64) :
    ∀ (m : Counts K) (k : K), (bumpAll m ks inc).get k =
      if ks.count k = 0 then m.get k else some (((m.get k).getD 0 + ks.count k * inc) % 2 ^ 64) := by
  induction ks with
  | nil => intro m k; simp [bumpAll]
  | cons x t ih =>
    intro m k
    have hb : bumpAll m (x :: t) inc = bumpAll (m.bump x inc) t inc := rfl
    rw [hb, ih, get_bump]
    by_cases hx : x = k
    · subst hx
      simp only [if_true, List.count_cons_self]
      have hne : t.count x + 1 ≠ 0 := by omega
      simp only [hne, if_false]
      cases hm : m.get x with
      | none =>
        simp only [Option.getD_some, Option.getD_none]
        by_cases h0 : t.count x = 0
        · simp [h0, Nat.mod_eq_of_lt hinc]
        · simp only [h0, if_false]
          congr 2
          rw [Nat.add_mul]
          omega
      | some c =>
        simp only [Option.getD_some, addWrap]
        by_cases h0 : t.count x = 0
        · simp [h0]
        · simp only [h0, if_false]
          rw [Nat.mod_add_mod]
          congr 2
          rw [Nat.add_mul]
          omega
    · have : (x :: t).count k = t.count k := by rw [List.count_cons_of_ne hx]
      rw [this]
      simp only [hx, if_false]

/-! ## Registrations as events -/

inductive Ev where
  | field (id : Nat)
  | arg (id : Nat)
  | enum (k : Name × Name)
  | leftOut (id : Nat)
  | cond (k : Name × Name)
  deriving DecidableEq

def Usage.apply (u : Usage) : Ev → Usage
  | .field i => u.regField i
  | .arg i => u.regArg i
  | .enum k => u.regEnum k
  | .leftOut i => u.regLeftOut i
  | .cond k => u.regCond k

def fieldsOf (evs : List Ev) : List Nat := evs.filterMap fun | .field i => some i | _ => none
def argsOf (evs : List Ev) : List Nat := evs.filterMap fun | .arg i => some i | _ => none
def enumsOf (evs : List Ev) : List (Name × Name) := evs.filterMap fun | .enum k => some k | _ => none
def leftOutOf (evs : List Ev) : List Nat := evs.filterMap fun | .leftOut i => some i | _ => none
def condsOf (evs : List Ev) : List (Name × Name) := evs.filterMap fun | .cond k => some k | _ => none

theorem apply_all (evs : List Ev) : ∀ u : Usage, evs.foldl Usage.apply u =
    ⟨u.increment, bumpAll u.fields (fieldsOf evs) u.increment, bumpAll u.args (argsOf evs) u.increment,
      bumpAll u.enums (enumsOf evs) u.increment, bumpAll u.leftOut (leftOutOf evs) u.increment,
      bumpAll u.conds (condsOf evs) 1⟩ := by
  induction evs with
  | nil => intro u; rfl
  | cons e t ih =>
    intro u
    rw [List.foldl_cons, ih]
    cases e <;> rfl

/-! ## The events correspond to the uses -/

/-- The uses that the code counts for an enum value. -/
def countsEnum (d : SDoc) (k : Name × Name) : Use → Bool
  | .enumValue ty _ _ e v => d.isObject ty && decide ((e, v) = k)
  | .enumDefault e v => decide ((e, v) = k)
  | _ => false

/-- No argument of an earlier field hides the arguments of this one from `iter_field_arguments`: every
argument that is sorted before those of the field belongs to a smaller type *and* to a smaller field
name. -/
def Unhidden (s : Schema) (ty field : Name) : Prop :=
  ∀ b ∈ s.args, b.ty < ty ∨ (b.ty = ty ∧ b.field < field) → b.ty < ty ∧ b.field < field

structure Matches (d : SDoc) (evs : List Ev) (us : List Use) : Prop where
  fields : ∀ i f, (Schema.ofDoc d).fields[i]? = some f → (fieldsOf evs).count i = us.count (.field f.ty f.name)
  args : ∀ i a, (Schema.ofDoc d).args[i]? = some a → (argsOf evs).count i = us.count (.arg a.ty a.field a.name)
  enums : ∀ k, (enumsOf evs).count k = us.countP (countsEnum d k)
  conds : ∀ k, (condsOf evs).count k = us.count (.inlineOn k.1 k.2)
  leftOutLe : ∀ i a, (Schema.ofDoc d).args[i]? = some a →
    (leftOutOf evs).count i ≤ us.count (.leftOut a.ty a.field a.name)
  leftOutEq : ∀ i a, (Schema.ofDoc d).args[i]? = some a → Unhidden (Schema.ofDoc d) a.ty a.field →
    (leftOutOf evs).count i = us.count (.leftOut a.ty a.field a.name)
  argRange : ∀ i ∈ argsOf evs, i < (Schema.ofDoc d).args.length

theorem Matches.nil (d : SDoc) : Matches d [] [] :=
  ⟨by simp [fieldsOf], by simp [argsOf], by simp [enumsOf], by simp [condsOf], by simp [leftOutOf],
    by simp [leftOutOf], by simp [argsOf]⟩

theorem Matches.append {d : SDoc} {e1 e2 : List Ev} {u1 u2 : List Use} (h1 : Matches d e1 u1)
    (h2 : Matches d e2 u2) : Matches d (e1 ++ e2) (u1 ++ u2) where
  fields i f hf := by
    rw [fieldsOf, List.filterMap_append, List.count_append, List.count_append]
    exact add_eq (h1.fields i f hf) (h2.fields i f hf)
  args i a ha := by
    rw [argsOf, List.filterMap_append, List.count_append, List.count_append]
    exact add_eq (h1.args i a ha) (h2.args i a ha)
  enums k := by
    rw [enumsOf, List.filterMap_append, List.count_append, List.countP_append]
    exact add_eq (h1.enums k) (h2.enums k)
  conds k := by
    rw [condsOf, List.filterMap_append, List.count_append, List.count_append]
    exact add_eq (h1.conds k) (h2.conds k)
  leftOutLe i a ha := by
    rw [leftOutOf, List.filterMap_append, List.count_append, List.count_append]
    exact Nat.add_le_add (h1.leftOutLe i a ha) (h2.leftOutLe i a ha)
  leftOutEq i a ha hu := by
    rw [leftOutOf, List.filterMap_append, List.count_append, List.count_append]
    exact add_eq (h1.leftOutEq i a ha hu) (h2.leftOutEq i a ha hu)
  argRange i hi := by
    rw [argsOf, List.filterMap_append] at hi
    rcases List.mem_append.1 hi with hi | hi
    · exact h1.argRange i hi
    · exact h2.argRange i hi

theorem matches_field {d : SDoc} (hv : d.Valid) {i : Nat} {ty n : Name} {fd : FieldDef}
    (hi : (Schema.ofDoc d).fields[i]? = some (fieldEntry ty fd)) (hn : fd.name = n) :
    Matches d [.field i] [.field ty n] where
  fields j f hj := by
    simp only [fieldsOf, List.filterMap_cons_some, List.filterMap_nil, List.count_singleton]
    by_cases h : i = j
    · subst h
      rw [hi] at hj
      cases hj
      simp [fieldEntry, hn]
    · have : ¬ (ty = f.ty ∧ n = f.name) := by
        rintro ⟨rfl, rfl⟩
        exact h (field_index_inj hv hi hj rfl hn)
      simp [h, this]
  args j a hj := by simp [argsOf, List.count_cons]
  enums k := by simp [enumsOf, countsEnum]
  conds k := by simp [condsOf, List.count_cons]
  leftOutLe j a hj := by simp [leftOutOf]
  leftOutEq j a hj _ := by simp [leftOutOf, List.count_cons]
  argRange := by simp [argsOf]

theorem matches_cond (d : SDoc) (ty on : Name) : Matches d [.cond (ty, on)] [.inlineOn ty on] where
  fields j f hj := by simp [fieldsOf, List.count_cons]
  args j a hj := by simp [argsOf, List.count_cons]
  enums k := by simp [enumsOf, countsEnum]
  conds k := by
    obtain ⟨k1, k2⟩ := k
    simp [condsOf, List.count_cons]
  leftOutLe j a hj := by simp [leftOutOf]
  leftOutEq j a hj _ := by simp [leftOutOf, List.count_cons]
  argRange := by simp [argsOf]

theorem matches_spread (d : SDoc) (ty on : Name) : Matches d [] [.spreadOn ty on] where
  fields j f hj := by simp [fieldsOf, List.count_cons]
  args j a hj := by simp [argsOf, List.count_cons]
  enums k := by simp [enumsOf, countsEnum]
  conds k := by simp [condsOf, List.count_cons]
  leftOutLe j a hj := by simp [leftOutOf]
  leftOutEq j a hj _ := by simp [leftOutOf, List.count_cons]
  argRange := by simp [argsOf]

theorem matches_default (d : SDoc) (e v : Name) : Matches d [.enum (e, v)] [.enumDefault e v] where
  fields j f hj := by simp [fieldsOf, List.count_cons]
  args j a hj := by simp [argsOf, List.count_cons]
  enums k := by simp [enumsOf, countsEnum, List.count_cons, List.countP_cons]
  conds k := by simp [condsOf, List.count_cons]
  leftOutLe j a hj := by simp [leftOutOf]
  leftOutEq j a hj _ := by simp [leftOutOf, List.count_cons]
  argRange := by simp [argsOf]

/-- An argument of an object type. -/
theorem matches_arg {d : SDoc} (hv : d.Valid) {i : Nat} {ty n x : Name} {ad : ArgDef}
    (hi : (Schema.ofDoc d).args[i]? = some (argEntry ty n ad)) (hx : ad.name = x) :
    Matches d [.arg i] [.arg ty n x] where
  fields j f hj := by simp [fieldsOf, List.count_cons]
  args j a hj := by
    simp only [argsOf, List.filterMap_cons_some, List.filterMap_nil, List.count_singleton]
    by_cases h : i = j
    · subst h
      rw [hi] at hj
      cases hj
      simp [argEntry, hx]
    · have : ¬ (ty = a.ty ∧ n = a.field ∧ x = a.name) := by
        rintro ⟨h1, h2, h3⟩
        exact h (arg_index_inj hv hi hj (by simp [argEntry, Arg.key, h1, h2, h3, hx]))
      simp [h, this]
  enums k := by simp [enumsOf, countsEnum]
  conds k := by simp [condsOf, List.count_cons]
  leftOutLe j a hj := by simp [leftOutOf]
  leftOutEq j a hj _ := by simp [leftOutOf, List.count_cons]
  argRange j hj := by
    have hj : j = i := by simpa [argsOf] using hj
    subst hj
    exact (List.getElem?_eq_some_iff.1 hi).1

/-- An argument of a type whose arguments are not in the table. -/
theorem matches_arg_other {d : SDoc} (hv : d.Valid) {ty n x : Name} (ho : d.isObject ty = false) :
    Matches d [] [.arg ty n x] where
  fields j f hj := by simp [fieldsOf, List.count_cons]
  args j a hj := by
    have hm := (arg_mem_iff hv).1 (List.mem_of_getElem? hj)
    have : ty ≠ a.ty := by
      rintro rfl
      rw [ho] at hm
      cases hm.1
    simp [argsOf, List.count_cons, this]
  enums k := by simp [enumsOf, countsEnum]
  conds k := by simp [condsOf, List.count_cons]
  leftOutLe j a hj := by simp [leftOutOf]
  leftOutEq j a hj _ := by simp [leftOutOf, List.count_cons]
  argRange := by simp [argsOf]

theorem matches_enum (d : SDoc) {ty n x e v : Name} (ho : d.isObject ty = true) :
    Matches d [.enum (e, v)] [.enumValue ty n x e v] where
  fields j f hj := by simp [fieldsOf, List.count_cons]
  args j a hj := by simp [argsOf, List.count_cons]
  enums k := by simp [enumsOf, countsEnum, List.count_cons, List.countP_cons, ho]
  conds k := by simp [condsOf, List.count_cons]
  leftOutLe j a hj := by simp [leftOutOf]
  leftOutEq j a hj _ := by simp [leftOutOf, List.count_cons]
  argRange := by simp [argsOf]

theorem matches_enum_other (d : SDoc) {ty n x e v : Name} (ho : d.isObject ty = false) :
    Matches d [] [.enumValue ty n x e v] where
  fields j f hj := by simp [fieldsOf, List.count_cons]
  args j a hj := by simp [argsOf, List.count_cons]
  enums k := by simp [enumsOf, countsEnum, ho]
  conds k := by simp [condsOf, List.count_cons]
  leftOutLe j a hj := by simp [leftOutOf]
  leftOutEq j a hj _ := by simp [leftOutOf, List.count_cons]
  argRange := by simp [argsOf]

theorem matches_items (d : SDoc) (ty n x e : Name) (vs : List Name) :
    Matches d [] (vs.map fun v => .enumItem ty n x e v) := by
  induction vs with
  | nil => exact Matches.nil d
  | cons v t ih =>
    have h1 : Matches d [] [.enumItem ty n x e v] :=
      { fields := fun j f hj => by simp [fieldsOf, List.count_cons]
        args := fun j a hj => by simp [argsOf, List.count_cons]
        enums := fun k => by simp [enumsOf, countsEnum]
        conds := fun k => by simp [condsOf, List.count_cons]
        leftOutLe := fun j a hj => by simp [leftOutOf]
        leftOutEq := fun j a hj _ => by simp [leftOutOf, List.count_cons]
        argRange := by simp [argsOf] }
    exact h1.append ih

/-! ## Arguments -/

theorem aggArgs_spec {d : SDoc} (hv : d.Valid) {ty n : Name} {fd : FieldDef} (hf : d.fieldDef ty n = some fd)
    (args : List ArgLit) : ∃ evs, (∀ u, aggArgs (Schema.ofDoc d) ty n (args.map ingestArg) u = evs.foldl Usage.apply u) ∧
      Matches d evs (args.flatMap (argUses ty fd)) := by
  obtain ⟨t, ht, hm, hn⟩ := fieldDef_some hf
  induction args with
  | nil => exact ⟨[], fun _ => rfl, Matches.nil d⟩
  | cons a rest ih =>
    obtain ⟨evs, h1, h2⟩ := ih
    have hdef : d.argDef ty n a.name = fd.args.find? fun x => decide (x.name = a.name) := by
      simp only [SDoc.argDef, hf, Option.bind_some]
    rw [List.flatMap_cons]
    cases hfa : fd.args.find? fun x => decide (x.name = a.name) with
    | none =>
      have hnone := findArgument_undef hv (ty := ty) (n := n) (x := a.name) (Or.inl (hdef.trans hfa))
      refine ⟨evs, fun u => ?_, ?_⟩
      · simp only [List.map_cons, aggArgs, ingestArg, hnone]
        exact h1 u
      · simpa [argUses, hfa] using h2
    | some ad =>
      have hname : ad.name = a.name := by simpa using List.find?_some hfa
      by_cases ho : d.isObject ty = true
      · obtain ⟨i, hi, he⟩ := findArgument_def hv (hdef.trans hfa) ho
        have hma := matches_arg hv he hname
        cases hval : a.value with
        | enum v =>
          refine ⟨[.arg i, .enum (ad.base, v)] ++ evs, fun u => ?_, ?_⟩
          · simp only [List.map_cons, aggArgs, ingestArg, hi, he, hval]
            rw [h1]; rfl
          · simp only [argUses, hfa, hval, hn]
            exact (hma.append (matches_enum d ho)).append h2
        | enumList vs =>
          refine ⟨[.arg i] ++ evs, fun u => ?_, ?_⟩
          · simp only [List.map_cons, aggArgs, ingestArg, hi, he, hval]
            rw [h1]; rfl
          · simp only [argUses, hfa, hval, hn]
            exact (hma.append (matches_items d ty n a.name ad.base vs)).append h2
        | other =>
          refine ⟨[.arg i] ++ evs, fun u => ?_, ?_⟩
          · simp only [List.map_cons, aggArgs, ingestArg, hi, he, hval]
            rw [h1]; rfl
          · simp only [argUses, hfa, hval, hn]
            exact hma.append h2
      · have ho : d.isObject ty = false := by simpa using ho
        have hnone := findArgument_undef hv (ty := ty) (n := n) (x := a.name) (Or.inr ho)
        have hma := matches_arg_other hv (n := n) (x := a.name) ho
        refine ⟨evs, fun u => ?_, ?_⟩
        · simp only [List.map_cons, aggArgs, ingestArg, hnone]
          exact h1 u
        · simp only [argUses, hfa, hn]
          have : Matches d [] (match a.value with
              | .enum v => [.enumValue ty n a.name ad.base v]
              | .enumList vs => vs.map fun v => .enumItem ty n a.name ad.base v
              | .other => []) := by
            cases a.value with
            | enum v => exact matches_enum_other d ho
            | enumList vs => exact matches_items d _ _ _ _ vs
            | other => exact Matches.nil d
          exact (hma.append this).append h2

/-! ## Arguments left out -/

theorem takeWhile_eq_filter' {α : Type} {p : α → Bool} {l : List α} (h : l.Pairwise fun a b => p b = true → p a = true) :
    l.takeWhile p = l.filter p := by
  induction l with
  | nil => rfl
  | cons x t ih =>
    obtain ⟨h1, h2⟩ := List.pairwise_cons.1 h
    rw [List.takeWhile_cons, List.filter_cons]
    split
    · rw [ih h2]
    · rename_i hx
      symm
      rw [List.filter_eq_nil_iff]
      intro a ha hpa
      exact hx (h1 a ha hpa)

theorem takeWhile_mem {α : Type} {p : α → Bool} {l : List α} {a : α} (h : a ∈ l.takeWhile p) : p a = true := by
  induction l with
  | nil => cases h
  | cons x t ih =>
    rw [List.takeWhile_cons] at h
    split at h
    · rename_i hx
      rcases List.mem_cons.1 h with rfl | h
      · exact hx
      · exact ih h
    · cases h

theorem prefix_get {α : Type} {l m : List α} (h : l <+: m) {i : Nat} {a : α} (hi : l[i]? = some a) :
    m[i]? = some a := by
  obtain ⟨t, rfl⟩ := h
  rw [List.getElem?_append_left (List.getElem?_eq_some_iff.1 hi).1]
  exact hi

theorem iter_sound {s : Schema} {f : Field} {j : Nat} {a : Arg} (h : (j, a) ∈ s.iterFieldArguments f) :
    s.args[j]? = some a ∧ a.ty = f.ty ∧ a.field = f.name := by
  unfold Schema.iterFieldArguments at h
  simp only at h
  obtain ⟨i, hi, he⟩ := List.mem_mapIdx.1 h
  simp only [Prod.mk.injEq] at he
  obtain ⟨rfl, he⟩ := he
  have hg := List.getElem?_eq_getElem hi
  rw [he] at hg
  have hm := takeWhile_mem (List.mem_of_getElem? hg)
  simp only [Bool.and_eq_true, decide_eq_true_eq] at hm
  have := prefix_get (List.takeWhile_prefix _) hg
  rw [List.getElem?_drop, Nat.add_comm] at this
  exact ⟨this, hm⟩

theorem iter_nodup (s : Schema) (f : Field) : ((s.iterFieldArguments f).map (·.1)).Nodup := by
  unfold Schema.iterFieldArguments
  simp only
  rw [List.Nodup, List.pairwise_map, List.pairwise_iff_getElem]
  intro i j hi hj hij
  simp only [List.getElem_mapIdx]
  omega

theorem iter_complete {d : SDoc} (hv : d.Valid) {f : Field} {i : Nat} {a : Arg}
    (ha : (Schema.ofDoc d).args[i]? = some a) (ht : a.ty = f.ty) (hf : a.field = f.name)
    (hu : Unhidden (Schema.ofDoc d) f.ty f.name) : (i, a) ∈ (Schema.ofDoc d).iterFieldArguments f := by
  have hsort := ofDoc_args_sorted d
  generalize hs : Schema.ofDoc d = s at *
  let p : Arg → Bool := fun a => decide (a.ty < f.ty) && decide (a.field < f.name)
  have hpp := pp_spec (p := p) (l := s.args) (hsort.imp_of_mem fun {b c} hb hc h => by
    simp only [p, Bool.and_eq_true, decide_eq_true_eq]
    intro hlt
    refine hu b hb (Or.inl ?_)
    have := cmp3_le.1 h
    simp only [Arg.key] at this
    unfold Name at *
    omega)
  have hdef : s.iterFieldArguments f = ((s.args.drop (partitionPoint p s.args)).takeWhile fun a =>
      decide (a.ty = f.ty) && decide (a.field = f.name)).mapIdx fun idx a => (idx + partitionPoint p s.args, a) := rfl
  generalize partitionPoint p s.args = n at hpp hdef
  obtain ⟨h1, h2⟩ := hpp
  have hge : ∀ b ∈ s.args.drop n, ¬ (b.ty < f.ty ∨ (b.ty = f.ty ∧ b.field < f.name)) := by
    intro b hb hlt
    have := hu b (List.mem_of_mem_drop hb) hlt
    have h3 := h2 b hb
    simp [p, this] at h3
  have htw : (s.args.drop n).takeWhile (fun a => decide (a.ty = f.ty) && decide (a.field = f.name)) =
      (s.args.drop n).filter fun a => decide (a.ty = f.ty) && decide (a.field = f.name) := by
    apply takeWhile_eq_filter'
    refine (hsort.sublist (List.drop_sublist _ _)).imp_of_mem ?_
    intro b c hb hc h
    have hge' := hge b hb
    have h := cmp3_le.1 h
    simp only [Arg.key] at h
    simp only [Bool.and_eq_true, decide_eq_true_eq]
    intro hc'
    unfold Name at *
    omega
  have hmem : a ∈ s.args.drop n := by
    have : a ∈ s.args.take n ++ s.args.drop n := by
      rw [List.take_append_drop]; exact List.mem_of_getElem? ha
    rcases List.mem_append.1 this with h | h
    · have := h1 a h
      simp [p, ht] at this
    · exact h
  have hmt : a ∈ (s.args.drop n).takeWhile fun a => decide (a.ty = f.ty) && decide (a.field = f.name) := by
    rw [htw, List.mem_filter]
    exact ⟨hmem, by simp [ht, hf]⟩
  obtain ⟨k, hk⟩ := List.getElem?_of_mem hmt
  obtain ⟨hk', hke⟩ := List.getElem?_eq_some_iff.1 hk
  have hka := prefix_get (List.takeWhile_prefix _) hk
  rw [List.getElem?_drop, Nat.add_comm] at hka
  have : i = k + n := by
    subst hs
    exact arg_index_inj hv ha hka rfl
  rw [hdef, List.mem_mapIdx]
  exact ⟨k, hk', by rw [hke, this]⟩

theorem foldl_leftOut (l : List (Nat × Arg)) : ∀ u : Usage,
    l.foldl (fun u p => u.regLeftOut p.1) u = (l.map fun p => Ev.leftOut p.1).foldl Usage.apply u := by
  induction l with
  | nil => intro u; rfl
  | cons x t ih => intro u; rw [List.foldl_cons, List.map_cons, List.foldl_cons, ih]; rfl

theorem matches_leftOut {d : SDoc} {ids : List Nat} {us : List Use} (hids : ids.Nodup) (hus : us.Nodup)
    (hkind : ∀ u ∈ us, ∃ a b c, u = .leftOut a b c)
    (hsound : ∀ i a, (Schema.ofDoc d).args[i]? = some a → i ∈ ids → .leftOut a.ty a.field a.name ∈ us)
    (hcomplete : ∀ i a, (Schema.ofDoc d).args[i]? = some a → Unhidden (Schema.ofDoc d) a.ty a.field →
      .leftOut a.ty a.field a.name ∈ us → i ∈ ids) :
    Matches d (ids.map Ev.leftOut) us := by
  have hl : leftOutOf (ids.map Ev.leftOut) = ids := by
    unfold leftOutOf
    rw [List.filterMap_map]
    have : ((fun | Ev.leftOut i => some i | _ => none) ∘ Ev.leftOut) = (some : Nat → Option Nat) := rfl
    rw [this, List.filterMap_some]
  have hno : ∀ u : Use, (∀ a b c, u ≠ .leftOut a b c) → us.count u = 0 := by
    intro u hu
    apply List.count_eq_zero.2
    intro hm
    obtain ⟨a, b, c, rfl⟩ := hkind u hm
    exact hu a b c rfl
  have h1 := List.nodup_iff_count.1 hids
  have h2 := List.nodup_iff_count.1 hus
  have hle : ∀ i a, (Schema.ofDoc d).args[i]? = some a → ids.count i ≤ us.count (.leftOut a.ty a.field a.name) := by
    intro i a ha
    by_cases hi : i ∈ ids
    · have := List.count_pos_iff.2 (hsound i a ha hi)
      have := h1 i
      omega
    · rw [List.count_eq_zero.2 hi]; omega
  constructor
  · intro i f hf
    rw [hno _ (by simp)]
    simp [fieldsOf, List.filterMap_map, List.count_eq_zero]
  · intro i a ha
    rw [hno _ (by simp)]
    simp [argsOf, List.filterMap_map, List.count_eq_zero]
  · intro k
    have : us.countP (countsEnum d k) = 0 := by
      rw [List.countP_eq_zero]
      intro u hu
      obtain ⟨a, b, c, rfl⟩ := hkind u hu
      simp [countsEnum]
    rw [this]
    simp [enumsOf, List.filterMap_map, List.count_eq_zero]
  · intro k
    rw [hno _ (by simp)]
    simp [condsOf, List.filterMap_map, List.count_eq_zero]
  · intro i a ha
    rw [hl]; exact hle i a ha
  · intro i a ha hu
    rw [hl]
    have := hle i a ha
    by_cases hm : Use.leftOut a.ty a.field a.name ∈ us
    · have h3 := List.count_pos_iff.2 (hcomplete i a ha hu hm)
      have := h2 (.leftOut a.ty a.field a.name)
      omega
    · rw [List.count_eq_zero.2 hm] at this ⊢
      omega
  · simp [argsOf, List.filterMap_map]

theorem aggLeftOut_spec {d : SDoc} (hv : d.Valid) {ty n : Name} {fd : FieldDef} (hf : d.fieldDef ty n = some fd)
    (args : List ArgLit) : ∃ evs,
      (∀ u, aggLeftOut (Schema.ofDoc d) (fieldEntry ty fd) (args.map ingestArg) u = evs.foldl Usage.apply u) ∧
      Matches d evs (leftOutUses ty fd args) := by
  obtain ⟨t, ht, hm, hn⟩ := fieldDef_some hf
  obtain ⟨ht1, ht2, ht3⟩ := typeDef_some ht
  let l := (((Schema.ofDoc d).iterFieldArguments (fieldEntry ty fd)).filter fun p =>
    (args.map ingestArg).all fun a => decide (a.name ≠ p.2.name)).filter fun p => p.2.isRequired && p.2.hasDefault
  have hmemL : ∀ p, p ∈ l ↔ p ∈ (Schema.ofDoc d).iterFieldArguments (fieldEntry ty fd) ∧
      (∀ a ∈ args, a.name ≠ p.2.name) ∧ p.2.isRequired = true ∧ p.2.hasDefault = true := by
    intro p
    simp only [l, List.mem_filter, List.all_map, List.all_eq_true, Bool.and_eq_true, Function.comp, ingestArg,
      decide_eq_true_eq]
    constructor
    · rintro ⟨⟨h1, h2⟩, h3⟩; exact ⟨h1, fun a ha => of_decide_eq_true (h2 a ha), h3⟩
    · rintro ⟨h1, h2, h3⟩; exact ⟨⟨h1, fun a ha => decide_eq_true (h2 a ha)⟩, h3⟩
  refine ⟨(l.map (·.1)).map Ev.leftOut, fun u => ?_, ?_⟩
  · rw [List.map_map]
    exact foldl_leftOut l u
  · have hmemU : ∀ x y z, Use.leftOut x y z ∈ leftOutUses ty fd args ↔ x = ty ∧ y = n ∧ ∃ ad ∈ fd.args,
        ad.name = z ∧ ad.ty.toGType.required = true ∧ ad.hasDefault = true ∧ ∀ a ∈ args, a.name ≠ z := by
      intro x y z
      simp only [leftOutUses, List.mem_map, List.mem_filter, Bool.and_eq_true, Bool.not_eq_true',
        List.contains_eq_mem, decide_eq_false_iff_not, List.mem_map, not_exists, not_and, Use.leftOut.injEq, hn]
      constructor
      · rintro ⟨ad, ⟨h1, ⟨h2, h3⟩, h4⟩, rfl, rfl, rfl⟩
        exact ⟨rfl, rfl, ad, h1, rfl, h2, h3, h4⟩
      · rintro ⟨rfl, rfl, ad, h1, rfl, h2, h3, h4⟩
        exact ⟨ad, ⟨h1, ⟨h2, h3⟩, h4⟩, rfl, rfl, rfl⟩
    have hargd : ∀ x, d.argDef ty n x = fd.args.find? fun y => decide (y.name = x) := by
      intro x
      simp only [SDoc.argDef, hf, Option.bind_some]
    apply matches_leftOut
    · exact (iter_nodup _ _).sublist ((List.filter_sublist.trans List.filter_sublist).map _)
    · unfold leftOutUses
      rw [List.Nodup, List.pairwise_map]
      refine ((List.pairwise_map.1 (hv.args t ht1 fd hm)).sublist List.filter_sublist).imp ?_
      intro a b hab
      simpa using hab
    · intro u hu
      unfold leftOutUses at hu
      obtain ⟨x, _, rfl⟩ := List.mem_map.1 hu
      exact ⟨_, _, _, rfl⟩
    · intro i a ha hi
      obtain ⟨p, hp, rfl⟩ := List.mem_map.1 hi
      obtain ⟨h1, h2, h3, h4⟩ := (hmemL p).1 hp
      obtain ⟨h5, h6, h7⟩ := iter_sound h1
      rw [ha] at h5
      cases h5
      obtain ⟨_, ad, had, he⟩ := (arg_mem_iff hv).1 (List.mem_of_getElem? ha)
      have h7' : p.2.field = n := h7.trans hn
      have h6' : p.2.ty = ty := h6
      rw [h6', h7', hargd] at had
      refine (hmemU _ _ _).2 ⟨h6', h7', ad, List.mem_of_find?_eq_some had, ?_, ?_, ?_, h2⟩
      · simpa using List.find?_some had
      · rw [← C04_required]
        rw [he] at h3
        exact h3
      · rw [he] at h4
        exact h4
    · intro i a ha hu hmem
      obtain ⟨h1, h2, ad, h3, h4, h5, h6, h7⟩ := (hmemU _ _ _).1 hmem
      refine List.mem_map.2 ⟨(i, a), (hmemL _).2 ⟨?_, h7, ?_, ?_⟩, rfl⟩
      · refine iter_complete hv ha h1 (h2.trans hn.symm) ?_
        show Unhidden (Schema.ofDoc d) ty fd.name
        rw [hn, ← h1, ← h2]
        exact hu
      all_goals
        obtain ⟨_, ad', had, he⟩ := (arg_mem_iff hv).1 (List.mem_of_getElem? ha)
        rw [h1, h2, hargd, ← h4, find_unique (hv.args t ht1 fd hm) h3] at had
        cases had
        rw [he]
        simp only [argEntry, Arg.isRequired]
      · rw [C04_required]; exact h5
      · exact h6

/-! ## The whole traversal -/

theorem aggInner_succ {op : Operation} {s : Schema} {fuel N : Nat} (h : N + 1 ≤ fuel) (sid : Nat) (ty : Name)
    (u : Usage) : ∃ f, N ≤ f ∧ aggInner op s fuel sid ty u = aggItems (aggInner op s f) op s ty (op.selectionSet sid) u := by
  obtain ⟨f, rfl⟩ : ∃ f, fuel = f + 1 := ⟨fuel - 1, by omega⟩
  exact ⟨f, by omega, rfl⟩

theorem agg_spec {d : SDoc} (hv : d.Valid) {op : Operation} {frags : List (Name × Name × Items)}
    (hn : (frags.map (·.1)).Nodup) (hfr : FragRep op.selectionSet frags op.fragments)
    {ty : Name} {items : Items} {us : List Use} (he : Expands d frags ty items us) :
    ∀ l, Rep op.selectionSet items l → ∃ evs N, (∀ fuel, N ≤ fuel → ∀ u,
      aggItems (aggInner op (Schema.ofDoc d) fuel) op (Schema.ofDoc d) ty l u = some (evs.foldl Usage.apply u)) ∧
      Matches d evs us := by
  induction he with
  | nil =>
    intro l hl
    cases hl
    exact ⟨[], 0, fun _ _ _ => rfl, Matches.nil d⟩
  | @field ty name args sub rest f us vs hf _ _ ih1 ih2 =>
    intro l hl
    obtain ⟨i, hi, hfe⟩ := findField_def hv hf
    obtain ⟨_, _, _, hname⟩ := fieldDef_some hf
    obtain ⟨ea, ha1, ha2⟩ := aggArgs_spec hv hf args
    obtain ⟨el, hl1, hl2⟩ := aggLeftOut_spec hv hf args
    have hmf := matches_field hv hfe hname
    have hcase : ∃ l' sid es N1, l = .field name (args.map ingestArg) sid :: l' ∧ Rep op.selectionSet rest l' ∧
        (∀ fuel, N1 ≤ fuel → ∀ u, aggSub (aggInner op (Schema.ofDoc d) fuel) f.base sid u =
          some (es.foldl Usage.apply u)) ∧
        Matches d es us := by
      cases sub with
      | nil =>
        obtain ⟨l', rfl, hr⟩ := hl
        obtain ⟨es, N1, h1, h2⟩ := ih1 [] rfl
        exact ⟨l', none, es, N1, rfl, hr, fun fuel hN u => h1 fuel hN u, h2⟩
      | field _ _ _ _ =>
        obtain ⟨sid, l', rfl, hs, hr⟩ := hl
        obtain ⟨es, N1, h1, h2⟩ := ih1 _ hs
        refine ⟨l', some sid, es, N1 + 1, rfl, hr, fun fuel hN u => ?_, h2⟩
        obtain ⟨g, hg, hge⟩ := aggInner_succ hN sid f.base u
        simp only [aggSub]
        rw [hge, h1 g hg]
      | spread _ _ =>
        obtain ⟨sid, l', rfl, hs, hr⟩ := hl
        obtain ⟨es, N1, h1, h2⟩ := ih1 _ hs
        refine ⟨l', some sid, es, N1 + 1, rfl, hr, fun fuel hN u => ?_, h2⟩
        obtain ⟨g, hg, hge⟩ := aggInner_succ hN sid f.base u
        simp only [aggSub]
        rw [hge, h1 g hg]
      | inline _ _ _ =>
        obtain ⟨sid, l', rfl, hs, hr⟩ := hl
        obtain ⟨es, N1, h1, h2⟩ := ih1 _ hs
        refine ⟨l', some sid, es, N1 + 1, rfl, hr, fun fuel hN u => ?_, h2⟩
        obtain ⟨g, hg, hge⟩ := aggInner_succ hN sid f.base u
        simp only [aggSub]
        rw [hge, h1 g hg]
    obtain ⟨l', sid, es, N1, rfl, hr, hs1, hs2⟩ := hcase
    obtain ⟨er, N2, hr1, hr2⟩ := ih2 l' hr
    refine ⟨[.field i] ++ ea ++ es ++ el ++ er, max N1 N2, fun fuel hN u => ?_, ?_⟩
    · simp only [aggItems, hi, hfe]
      have hb : (fieldEntry ty f).base = f.base := rfl
      rw [ha1, hb, hs1 fuel (by omega)]
      simp only
      rw [hl1, hr1 fuel (by omega)]
      simp only [List.foldl_append, List.foldl_cons, List.foldl_nil, Usage.apply]
    · exact (((hmf.append ha2).append hs2).append hl2).append hr2
  | @unknownField ty name args sub rest vs hf _ ih =>
    intro l hl
    have hnone := findField_undef hv hf
    have hcase : ∃ l' sid, l = .field name (args.map ingestArg) sid :: l' ∧ Rep op.selectionSet rest l' := by
      cases sub with
      | nil => obtain ⟨l', rfl, hr⟩ := hl; exact ⟨l', _, rfl, hr⟩
      | field _ _ _ _ => obtain ⟨sid, l', rfl, hs, hr⟩ := hl; exact ⟨l', _, rfl, hr⟩
      | spread _ _ => obtain ⟨sid, l', rfl, hs, hr⟩ := hl; exact ⟨l', _, rfl, hr⟩
      | inline _ _ _ => obtain ⟨sid, l', rfl, hs, hr⟩ := hl; exact ⟨l', _, rfl, hr⟩
    obtain ⟨l', sid, rfl, hr⟩ := hcase
    obtain ⟨er, N, h1, h2⟩ := ih l' hr
    refine ⟨er, N, fun fuel hN u => ?_, h2⟩
    simp only [aggItems, hnone]
    exact h1 fuel hN u
  | @spread ty name on items rest us vs hm _ _ ih1 ih2 =>
    intro l hl
    obtain ⟨l', rfl, hr⟩ := hl
    obtain ⟨sid, hfind, hrep⟩ := fragRep_find hfr hn hm
    obtain ⟨es, N1, h1, h2⟩ := ih1 _ hrep
    obtain ⟨er, N2, h3, h4⟩ := ih2 l' hr
    refine ⟨[] ++ es ++ er, max (N1 + 1) N2, fun fuel hN u => ?_, ?_⟩
    · simp only [aggItems, hfind]
      obtain ⟨g, hg, hge⟩ := aggInner_succ (show N1 + 1 ≤ fuel by omega) sid on u
      rw [hge, h1 g hg]
      simp only
      rw [h3 fuel (by omega), List.nil_append, List.foldl_append]
    · exact ((matches_spread d ty on).append h2).append h4
  | @unknownSpread ty name rest vs hm _ ih =>
    intro l hl
    obtain ⟨l', rfl, hr⟩ := hl
    obtain ⟨er, N, h1, h2⟩ := ih l' hr
    refine ⟨er, N, fun fuel hN u => ?_, h2⟩
    simp only [aggItems, fragRep_find_none hfr hm]
    exact h1 fuel hN u
  | @inlineOn ty on sub rest us vs _ _ ih1 ih2 =>
    intro l hl
    obtain ⟨sid, l', rfl, hs, hr⟩ := hl
    obtain ⟨es, N1, h1, h2⟩ := ih1 _ hs
    obtain ⟨er, N2, h3, h4⟩ := ih2 l' hr
    refine ⟨[.cond (ty, on)] ++ es ++ er, max (N1 + 1) N2, fun fuel hN u => ?_, ?_⟩
    · simp only [aggItems]
      obtain ⟨g, hg, hge⟩ := aggInner_succ (show N1 + 1 ≤ fuel by omega) sid on (u.regCond (ty, on))
      rw [hge, h1 g hg]
      simp only
      rw [h3 fuel (by omega)]
      simp only [List.foldl_append, List.foldl_cons, List.foldl_nil, Usage.apply]
    · exact ((matches_cond d ty on).append h2).append h4
  | @inline ty sub rest us vs _ _ ih1 ih2 =>
    intro l hl
    obtain ⟨sid, l', rfl, hs, hr⟩ := hl
    obtain ⟨es, N1, h1, h2⟩ := ih1 _ hs
    obtain ⟨er, N2, h3, h4⟩ := ih2 l' hr
    refine ⟨es ++ er, max (N1 + 1) N2, fun fuel hN u => ?_, h2.append h4⟩
    simp only [aggItems]
    obtain ⟨g, hg, hge⟩ := aggInner_succ (show N1 + 1 ≤ fuel by omega) sid ty u
    rw [hge, h1 g hg]
    simp only
    rw [h3 fuel (by omega), List.foldl_append]

theorem defaults_spec (d : SDoc) (vars : List (Name × Option Literal)) :
    ∃ evs, (∀ u, (vars.filterMap enumDefault).foldl Usage.regEnum u = evs.foldl Usage.apply u) ∧
      Matches d evs (defaultUses vars) := by
  induction vars with
  | nil => exact ⟨[], fun _ => rfl, Matches.nil d⟩
  | cons v t ih =>
    obtain ⟨evs, h1, h2⟩ := ih
    obtain ⟨b, val⟩ := v
    have hskip : enumDefault (b, val) = none → defaultUses ((b, val) :: t) = defaultUses t →
        ∃ evs, (∀ u, (((b, val) :: t).filterMap enumDefault).foldl Usage.regEnum u = evs.foldl Usage.apply u) ∧
        Matches d evs (defaultUses ((b, val) :: t)) := by
      intro h3 h4
      refine ⟨evs, fun u => ?_, ?_⟩
      · rw [List.filterMap_cons, h3]; exact h1 u
      · rw [h4]; exact h2
    cases val with
    | none => exact hskip rfl rfl
    | some lit =>
      cases lit with
      | enum e =>
        refine ⟨[.enum (b, e)] ++ evs, fun u => ?_, ?_⟩
        · simp only [List.filterMap_cons, enumDefault, List.foldl_cons]
          rw [h1]; rfl
        · exact (matches_default d b e).append h2
      | enumList vs => exact hskip rfl rfl
      | other => exact hskip rfl rfl

/-- Aggregating one operation registers events that match the uses. -/
theorem aggregate_spec {d : SDoc} (hv : d.Valid) {q : Doc} (hn : (q.fragments.map (·.1)).Nodup) {us : List Use}
    (hu : Uses d q us) : ∃ evs N, (∀ fuel, N ≤ fuel → ∀ u,
      aggregate fuel (Operation.ofDoc q) (Schema.ofDoc d) u = some (evs.foldl Usage.apply u)) ∧ Matches d evs us := by
  obtain ⟨vs, he, rfl⟩ := hu
  obtain ⟨h1, h2⟩ := ofDoc_rep q
  obtain ⟨e1, hd1, hd2⟩ := defaults_spec d q.variables
  obtain ⟨e2, N, ha, hm⟩ := agg_spec hv hn h2 he _ h1
  refine ⟨e1 ++ e2, N + 1, fun fuel hN u => ?_, hd2.append hm⟩
  unfold aggregate
  obtain ⟨g, hg, hge⟩ := aggInner_succ (op := Operation.ofDoc q) (s := Schema.ofDoc d) hN (Operation.ofDoc q).root
    ((Schema.ofDoc d).rootType (Operation.ofDoc q).opType) ((Operation.ofDoc q).enumDefaults.foldl Usage.regEnum u)
  rw [hge]
  have hroot : (Schema.ofDoc d).rootType (Operation.ofDoc q).opType = d.root q.opType := by
    cases hq : q.opType <;> simp [Schema.rootType, SDoc.root, Schema.ofDoc, Operation.ofDoc, hq]
  have hdef : (Operation.ofDoc q).enumDefaults = q.variables.filterMap enumDefault := rfl
  rw [hroot, ha g hg, hdef, hd1, List.foldl_append]

end Verif.OpChecks
