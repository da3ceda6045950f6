import Verif.Compose.InputLemmas
import Verif.FieldOwners.Spec

/-!
# Labels, keys and groups of fields
-/

namespace Verif.FieldOwners

open Verif.FieldTypes Verif.OpChecks Verif.Compose

theorem contains_iff (n : Nat) (k : Sels) : k.contains n = true ↔ Mentions n k := by
  induction k with
  | nil => exact ⟨fun h => by simp [Sels.contains] at h, fun h => by cases h⟩
  | field m rest ih =>
    rw [Sels.contains, Bool.or_eq_true_iff, ih, beq_iff_eq]
    constructor
    · rintro (rfl | h)
      · exact .here _
      · exact .after _ h
    · intro h
      cases h with
      | here => exact Or.inl rfl
      | after _ h => exact Or.inr h
  | fragment sub rest ih1 ih2 =>
    rw [Sels.contains, Bool.or_eq_true_iff, ih1, ih2]
    constructor
    · rintro (h | h)
      · exact .within _ h
      · exact .afterFragment _ h
    · intro h
      cases h with
      | within _ h => exact Or.inl h
      | afterFragment _ h => exact Or.inr h

theorem isPartOfKey_iff (v : View) : v.isPartOfKey = true ↔ InKey v.d v.f := by
  simp [View.isPartOfKey, InKey, contains_iff]

theorem external_iff (v : View) : (v.isExternal && !v.isPartOfKey) = true ↔ ExternalIn v.d v.f := by
  rw [Bool.and_eq_true, Bool.not_eq_true', View.isExternal, Bool.or_eq_true_iff, ExternalIn, ← isPartOfKey_iff,
    Bool.not_eq_true]

/-! ## Labels -/

def value (ds : Name) : Nat := ds.foldl (fun n c => 10 * n + (c.toNat - '0'.toNat)) 0

theorem value_append (ds : Name) (c : Char) : value (ds ++ [c]) = 10 * value ds + (c.toNat - '0'.toNat) := by
  simp [value, List.foldl_append]

theorem digit_bounds {c : Char} (h : c.isDigit = true) : 48 ≤ c.toNat ∧ c.toNat ≤ 57 := by
  simp only [Char.isDigit, Bool.and_eq_true, decide_eq_true_eq] at h
  have h1 : (48 : UInt32).toNat ≤ c.val.toNat := UInt32.le_iff_toNat_le.1 h.1
  have h2 : c.val.toNat ≤ (57 : UInt32).toNat := UInt32.le_iff_toNat_le.1 h.2
  exact ⟨h1, h2⟩

theorem char_eq {c d : Char} (h : c.toNat = d.toNat) : c = d := Char.ext (UInt32.toNat_inj.1 h)

theorem concat_cases (ds : Name) : ds = [] ∨ ∃ i c, ds = i ++ [c] := by
  rcases List.eq_nil_or_concat ds with h | ⟨i, c, h⟩
  · exact Or.inl h
  · exact Or.inr ⟨i, c, by rw [h, List.concat_eq_append]⟩

theorem value_zeros (z : Nat) : value (List.replicate z '0') = 0 := by
  induction z with
  | zero => rfl
  | succ n ih => rw [List.replicate_succ', value_append, ih]; rfl

theorem value_zero : ∀ (n : Nat) (ds : Name), ds.length ≤ n → ds.all Char.isDigit = true → value ds = 0 →
    ds = List.replicate ds.length '0' := by
  intro n
  induction n with
  | zero =>
    intro ds hl _ _
    have : ds = [] := List.eq_nil_of_length_eq_zero (by omega)
    subst this
    rfl
  | succ n ih =>
    intro ds hl hd hv
    rcases concat_cases ds with rfl | ⟨i, c, rfl⟩
    · rfl
    · rw [value_append] at hv
      rw [List.all_append, Bool.and_eq_true] at hd
      have hc : c.isDigit = true := by simpa using hd.2
      have := digit_bounds hc
      have h48 : '0'.toNat = 48 := rfl
      have hc0 : c = '0' := char_eq (by omega)
      rw [List.length_append] at hl
      have hi := ih i (by simp at hl; omega) hd.1 (by omega)
      rw [hc0, List.length_append]
      conv => lhs; rw [hi]
      rw [List.length_singleton, List.replicate_succ']

theorem value_eq {ds : Name} (hd : ds.all Char.isDigit = true) {m d : Nat} (hd9 : d ≤ 9) (h : value ds = 10 * m + d)
    (hp : 0 < value ds) : ∃ i c, ds = i ++ [c] ∧ i.all Char.isDigit = true ∧ value i = m ∧ c.toNat = 48 + d := by
  rcases concat_cases ds with rfl | ⟨i, c, rfl⟩
  · simp [value] at hp
  · rw [value_append] at h
    rw [List.all_append, Bool.and_eq_true] at hd
    have hc : c.isDigit = true := by simpa using hd.2
    have := digit_bounds hc
    have h48 : '0'.toNat = 48 := rfl
    exact ⟨i, c, rfl, hd.1, by omega, by omega⟩

theorem value_hundred {ds : Name} (hd : ds.all Char.isDigit = true) (h : value ds = 100) :
    ∃ z, ds = List.replicate z '0' ++ ['1', '0', '0'] := by
  obtain ⟨i, c, rfl, hi, hv, hc⟩ := value_eq hd (m := 10) (d := 0) (by omega) (by omega) (by omega)
  obtain ⟨j, c2, rfl, hj, hv2, hc2⟩ := value_eq hi (m := 1) (d := 0) (by omega) (by omega) (by omega)
  obtain ⟨k, c3, rfl, hk, hv3, hc3⟩ := value_eq hj (m := 0) (d := 1) (by omega) (by omega) (by omega)
  have := value_zero _ k (Nat.le_refl _) hk hv3
  refine ⟨k.length, ?_⟩
  rw [char_eq (d := '0') hc, char_eq (d := '0') hc2, char_eq (d := '1') hc3]
  conv => lhs; rw [this]
  simp

theorem parseU8_hundred (s : Name) :
    parseU8 s = some 100 ↔ ∃ sign z, (sign = [] ∨ sign = ['+']) ∧ s = sign ++ List.replicate z '0' ++ ['1', '0', '0'] := by
  have hconv : ∀ z : Nat, (List.replicate z '0' ++ ['1', '0', '0'] : Name).all Char.isDigit = true ∧
      value (List.replicate z '0' ++ ['1', '0', '0']) = 100 := by
    intro z
    constructor
    · simp [List.all_append]
    · have : (List.replicate z '0' ++ ['1', '0', '0'] : Name) = ((List.replicate z '0' ++ ['1']) ++ ['0']) ++ ['0'] := by simp
      rw [this, value_append, value_append, value_append, value_zeros]
      rfl
  constructor
  · intro h
    unfold parseU8 at h
    simp only at h
    generalize hds' : (if s.head? = some '+' then s.drop 1 else s) = ds at h
    split at h
    · rename_i hds
      split at h
      · rename_i hle
        have hv := Option.some.inj h
        obtain ⟨z, hz⟩ := value_hundred hds.2 hv
        rw [← hds'] at hz
        by_cases hp : s.head? = some '+'
        · rw [if_pos hp] at hz
          refine ⟨['+'], z, Or.inr rfl, ?_⟩
          cases s with
          | nil => simp at hp
          | cons c cs =>
            simp only [List.head?_cons, Option.some.injEq] at hp
            subst hp
            simp only [List.drop_succ_cons, List.drop_zero] at hz
            rw [hz]
            simp
        · rw [if_neg hp] at hz
          exact ⟨[], z, Or.inl rfl, by simpa using hz⟩
      · cases h
    · cases h
  · rintro ⟨sign, z, hs, rfl⟩
    have hdig : (if (sign ++ List.replicate z '0' ++ ['1', '0', '0']).head? = some '+' then
        (sign ++ List.replicate z '0' ++ ['1', '0', '0']).drop 1 else sign ++ List.replicate z '0' ++ ['1', '0', '0']) =
        List.replicate z '0' ++ ['1', '0', '0'] := by
      rcases hs with rfl | rfl
      · cases z with
        | zero => rfl
        | succ n => rw [List.replicate_succ]; rfl
      · rfl
    unfold parseU8
    simp only
    rw [hdig, if_pos ⟨by simp, (hconv z).1⟩]
    have := (hconv z).2
    unfold value at this
    rw [this]
    rfl

theorem stripPercent_iff (s r : Name) : stripPercent s = some r ↔ s = "percent(".toList ++ r ++ [')'] := by
  unfold stripPercent
  constructor
  · intro h
    split at h
    · rename_i hp
      simp only at h
      split at h
      · rename_i hl
        cases h
        obtain ⟨t, rfl⟩ := List.isPrefixOf_iff_prefix.1 hp
        have hd : ("percent(".toList ++ t).drop 8 = t := by simp
        rw [hd] at hl ⊢
        rw [List.append_assoc]
        congr 1
        rcases concat_cases t with rfl | ⟨i, c, rfl⟩
        · simp at hl
        · simp at hl
          subst hl
          simp
      · cases h
    · cases h
  · rintro rfl
    have hp : "percent(".toList.isPrefixOf ("percent(".toList ++ r ++ [')']) = true := by
      rw [List.isPrefixOf_iff_prefix, List.append_assoc]
      exact List.prefix_append _ _
    rw [if_pos hp]
    have hd : ("percent(".toList ++ r ++ [')']).drop 8 = r ++ [')'] := by simp
    simp only [hd]
    simp

theorem parseLabel_full (l : Name) : parseLabel l = .percent 100 ↔ FullLabel (some l) := by
  unfold parseLabel FullLabel
  constructor
  · intro h
    split at h
    · rename_i n hn
      cases h
      rw [Option.bind_eq_some_iff] at hn
      obtain ⟨r, hr, hp⟩ := hn
      obtain ⟨sign, z, hs, rfl⟩ := (parseU8_hundred r).1 hp
      rw [(stripPercent_iff l _).1 hr]
      refine ⟨sign, z, hs, ?_⟩
      simp
    · cases h
  · rintro ⟨sign, z, hs, rfl⟩
    have : (stripPercent ("percent(".toList ++ sign ++ List.replicate z '0' ++ "100)".toList)).bind parseU8 = some 100 := by
      rw [Option.bind_eq_some_iff]
      refine ⟨sign ++ List.replicate z '0' ++ ['1', '0', '0'], ?_, (parseU8_hundred _).2 ⟨sign, z, hs, rfl⟩⟩
      rw [stripPercent_iff]
      simp
    rw [this]

/-! ## Groups -/

theorem mem_viewsOf {defs : List Def} {v : View} : v ∈ viewsOf defs ↔ v.d ∈ defs ∧ v.f ∈ v.d.fields := by
  simp only [viewsOf, List.mem_flatMap, List.mem_map]
  constructor
  · rintro ⟨d, hd, f, hf, rfl⟩
    exact ⟨hd, hf⟩
  · rintro ⟨hd, hf⟩
    exact ⟨v.d, hd, v.f, hf, rfl⟩

/-- The definitions of the field `n`. -/
def named (defs : List Def) (n : Nat) : List View := (viewsOf defs).filter fun v => decide (v.f.name = n)

theorem mem_named {defs : List Def} {n : Nat} {v : View} :
    v ∈ named defs n ↔ v.d ∈ defs ∧ v.f ∈ v.d.fields ∧ v.f.name = n := by
  simp [named, mem_viewsOf, and_assoc]

theorem sorted_le {α : Type} (g : α → Nat) (l : List α) :
    (sortBy (fun a b => decide (g a ≤ g b)) l).Pairwise fun a b => g a ≤ g b := by
  have := sortBy_sorted (le := fun a b => decide (g a ≤ g b)) (by intro a b c; simp; omega) (by intro a b; simp; omega) l
  exact this.imp fun h => by simpa using h

theorem groups_sorted {α : Type} (g : α → Nat) (l : List α) :
    ∃ ks : List Nat, ks.Nodup ∧ (∀ k, k ∈ ks ↔ k ∈ l.map g) ∧
      groups g (sortBy (fun a b => decide (g a ≤ g b)) l).length (sortBy (fun a b => decide (g a ≤ g b)) l) =
        ks.map fun k => l.filter fun a => decide (g a = k) := by
  obtain ⟨ks, hn, hm, he⟩ := groups_spec g _ (sortBy (fun a b => decide (g a ≤ g b)) l) (Nat.le_refl _) (sorted_le g l)
  refine ⟨ks, hn, fun k => ?_, ?_⟩
  · rw [hm]
    simp only [List.mem_map, (sortBy_perm _ l).mem_iff]
  · rw [he]
    congr 1
    funext k
    exact filter_sortBy g k l

theorem fieldGroups_eq (defs : List Def) :
    ∃ ks : List Nat, ks.Nodup ∧ (∀ k, k ∈ ks ↔ ∃ d ∈ defs, ∃ f ∈ d.fields, f.name = k) ∧
      fieldGroups defs = ks.map (named defs) := by
  obtain ⟨ks, hn, hm, he⟩ := groups_sorted (fun v : View => v.f.name) (viewsOf defs)
  refine ⟨ks, hn, fun k => ?_, he⟩
  rw [hm, List.mem_map]
  constructor
  · rintro ⟨v, hv, rfl⟩
    obtain ⟨h1, h2⟩ := mem_viewsOf.1 hv
    exact ⟨_, h1, _, h2, rfl⟩
  · rintro ⟨d, hd, f, hf, rfl⟩
    exact ⟨⟨d, f⟩, mem_viewsOf.2 ⟨hd, hf⟩, rfl⟩

theorem named_ne_nil {defs : List Def} {n : Nat} (h : ∃ d ∈ defs, ∃ f ∈ d.fields, f.name = n) : named defs n ≠ [] := by
  obtain ⟨d, hd, f, hf, rfl⟩ := h
  exact List.ne_nil_of_mem ((mem_named (v := ⟨d, f⟩)).2 ⟨hd, hf, rfl⟩)

/-- The result for the group of one name. -/
def ofGroup (sg : List Subgraph) (fields : List View) : Option ComposedField × List Err :=
  match fields with
  | [] => (none, [])
  | first :: _ => composeField sg first fields

theorem composeFields_eq (sg : List Subgraph) (defs : List Def) :
    composeFields sg defs =
      (((fieldGroups defs).map (ofGroup sg)).filterMap (·.1), ((fieldGroups defs).map (ofGroup sg)).flatMap (·.2)) := rfl

/-- A composed field: its name, its type and its directives. -/
theorem ofGroup_some {sg : List Subgraph} {fields : List View} {c : ComposedField} (h : (ofGroup sg fields).1 = some c) :
    ∃ first rest, fields = first :: rest ∧ c.name = first.f.name ∧
      composeAll composeForOutput (fields.map (·.f.ty)) = some c.ty ∧ c.args = (mergeArguments first fields).1 ∧
      c.joins = fields.map (joinField sg c.ty) := by
  cases fields with
  | nil => simp [ofGroup] at h
  | cons first rest =>
    simp only [ofGroup, composeField] at h
    split at h
    · cases h
    · rename_i ty hty
      cases h
      exact ⟨first, rest, rfl, rfl, hty, rfl, rfl⟩

theorem mem_composeFields {sg : List Subgraph} {defs : List Def} {c : ComposedField} (h : c ∈ (composeFields sg defs).1) :
    (∃ d ∈ defs, ∃ f ∈ d.fields, f.name = c.name) ∧ (ofGroup sg (named defs c.name)).1 = some c := by
  rw [composeFields_eq] at h
  obtain ⟨ks, hn, hm, he⟩ := fieldGroups_eq defs
  simp only [he, List.mem_filterMap, List.mem_map] at h
  obtain ⟨_, ⟨_, ⟨k, hk, rfl⟩, rfl⟩, hc⟩ := h
  obtain ⟨first, rest, hf, hname, _⟩ := ofGroup_some hc
  have : first ∈ named defs k := by rw [hf]; exact List.mem_cons_self
  have hk' : c.name = k := by rw [hname]; exact (mem_named.1 this).2.2
  rw [hk']
  exact ⟨(hm k).1 hk, hc⟩

end Verif.FieldOwners
