import Verif.OpText.SortLemmas
import Verif.OpText.NormalizeSpec
/-!
# Normalised parts

`canonSel` is `normSel` without the record of fragments in use.
-/
namespace Verif.OpText

open Verif.OpChecks

/-! ## Arguments and directives -/

theorem argCmp_key (a b : Str × Value) : argCmp a b = compare a.1 b.1 := rfl
theorem dirCmp_key (a b : Directive) : dirCmp a b = compare a.name b.name := rfl
theorem varCmp_key (a b : VarDef) : varCmp a b = compare a.name b.name := rfl

theorem normValue_idem (v : Value) : normValue (normValue v) = normValue v := by cases v <;> rfl

theorem normArgs_eq (as : List (Str × Value)) :
    normArgs as = sortBy (fun a b => (argCmp a b).isLE) (as.map fun p => (p.1, normValue p.2)) := by
  unfold normArgs
  apply sortBy_map
  intro a b
  rfl

theorem normArgs_idem (as : List (Str × Value)) : normArgs (normArgs as) = normArgs as := by
  have hs := sortBy_key_sorted (key := (·.1)) argCmp_key (as.map fun p => (p.1, normValue p.2))
  rw [normArgs_eq (normArgs as)]
  have : (normArgs as).map (fun p => (p.1, normValue p.2)) = normArgs as := by
    unfold normArgs
    rw [List.map_map]
    apply List.map_congr_left
    intro p _
    show (p.1, normValue (normValue p.2)) = _
    rw [normValue_idem]
  rw [this, normArgs_eq]
  exact sortBy_key_of_sorted (key := (·.1)) argCmp_key hs

theorem EquivArgs.perm {as bs : List (Str × Value)} (h : EquivArgs as bs) :
    (as.map fun p => (p.1, normValue p.2)).Perm (bs.map fun p => (p.1, normValue p.2)) := by
  induction h with
  | nil => exact .refl _
  | swap p q l => exact .swap ..
  | trans _ _ ih1 ih2 => exact ih1.trans ih2
  | _ => exact List.Perm.cons _ ‹_›

theorem map_fst (as : List (Str × Value)) : (as.map fun p => (p.1, normValue p.2)).map (·.1) = as.map (·.1) := by
  rw [List.map_map]; rfl

theorem EquivArgs.keys {as bs : List (Str × Value)} (h : EquivArgs as bs) : (as.map (·.1)).Perm (bs.map (·.1)) := by
  rw [← map_fst as, ← map_fst bs]
  exact h.perm.map _

theorem EquivArgs.distinct {as bs : List (Str × Value)} (h : EquivArgs as bs) (hd : ArgsDistinct as) : ArgsDistinct bs :=
  h.keys.nodup_iff.1 hd

theorem EquivArgs.norm {as bs : List (Str × Value)} (h : EquivArgs as bs) (hd : ArgsDistinct as) : normArgs as = normArgs bs := by
  rw [normArgs_eq, normArgs_eq]
  exact sortBy_key_perm (key := (·.1)) argCmp_key h.perm (by rw [map_fst]; exact hd)

theorem normDirs_eq (ds : List Directive) :
    normDirs ds = sortBy (fun a b => (dirCmp a b).isLE) (ds.map fun d => ⟨d.name, normArgs d.args⟩) := by
  unfold normDirs
  apply sortBy_map
  intro a b
  rfl

theorem normDirs_idem (ds : List Directive) : normDirs (normDirs ds) = normDirs ds := by
  have hs := sortBy_key_sorted (key := Directive.name) dirCmp_key (ds.map fun d => ⟨d.name, normArgs d.args⟩)
  rw [normDirs_eq (normDirs ds)]
  have : (normDirs ds).map (fun d => (⟨d.name, normArgs d.args⟩ : Directive)) = normDirs ds := by
    unfold normDirs
    rw [List.map_map]
    apply List.map_congr_left
    intro p _
    show (⟨p.name, normArgs (normArgs p.args)⟩ : Directive) = _
    rw [normArgs_idem]
  rw [this, normDirs_eq]
  exact sortBy_key_of_sorted (key := Directive.name) dirCmp_key hs

theorem EquivDirs.perm {ds es : List Directive} (h : EquivDirs ds es) (hd : ∀ d ∈ ds, ArgsDistinct d.args) :
    (ds.map fun d => (⟨d.name, normArgs d.args⟩ : Directive)).Perm (es.map fun d => ⟨d.name, normArgs d.args⟩) ∧
      ∀ d ∈ es, ArgsDistinct d.args := by
  induction h with
  | nil => exact ⟨.refl _, hd⟩
  | cons n ha h ih =>
    obtain ⟨h1, h2⟩ := ih fun d hm => hd d (List.mem_cons_of_mem _ hm)
    have := hd _ List.mem_cons_self
    refine ⟨?_, fun d hm => ?_⟩
    · simp only [List.map_cons, ha.norm this]
      exact h1.cons _
    · rcases List.mem_cons.1 hm with rfl | hm
      · exact ha.distinct this
      · exact h2 d hm
  | swap a b l =>
    refine ⟨.swap .., fun d hm => hd d ?_⟩
    exact (List.Perm.swap a b l).mem_iff.1 hm
  | trans _ _ ih1 ih2 =>
    obtain ⟨h1, h2⟩ := ih1 hd
    obtain ⟨h3, h4⟩ := ih2 h2
    exact ⟨h1.trans h3, h4⟩

theorem map_dirName (ds : List Directive) :
    (ds.map fun d => (⟨d.name, normArgs d.args⟩ : Directive)).map (·.name) = ds.map (·.name) := by
  rw [List.map_map]; rfl

theorem EquivDirs.distinct {ds es : List Directive} (h : EquivDirs ds es) (hd : DirsDistinct ds) : DirsDistinct es := by
  obtain ⟨h1, h2⟩ := h.perm hd.2
  refine ⟨?_, h2⟩
  rw [← map_dirName]
  refine (h1.map _).nodup_iff.1 ?_
  rw [map_dirName]
  exact hd.1

theorem EquivDirs.norm {ds es : List Directive} (h : EquivDirs ds es) (hd : DirsDistinct ds) : normDirs ds = normDirs es := by
  rw [normDirs_eq, normDirs_eq]
  exact sortBy_key_perm (key := Directive.name) dirCmp_key (h.perm hd.2).1 (by rw [map_dirName]; exact hd.1)

/-! ## Selections -/

/-- A string that orders like `selCmp`. -/
def Sel.key : Sel → Str
  | .field _ n _ _ _ => 'a' :: n
  | .spread n _ => 'b' :: n
  | .inline none _ _ => ['c']
  | .inline (some t) _ _ => 'd' :: t

theorem compare_cons_same (c : Char) (a b : Str) : compare (c :: a) (c :: b) = compare a b := by
  show List.compareLex compare (c :: a) (c :: b) = List.compareLex compare a b
  simp [List.compareLex_cons_cons, Std.ReflCmp.compare_self]

theorem selCmp_key (a b : Sel) : selCmp a b = compare a.key b.key := by
  match a, b with
  | .field _ a _ _ _, .field _ b _ _ _ => exact (compare_cons_same _ _ _).symm
  | .spread a _, .spread b _ => exact (compare_cons_same _ _ _).symm
  | .inline (some a) _ _, .inline (some b) _ _ => exact (compare_cons_same _ _ _).symm
  | .inline none _ _, .inline none _ _ => rfl
  | .field .., .spread .. => rfl
  | .field .., .inline none _ _ => rfl
  | .field .., .inline (some _) _ _ => rfl
  | .spread .., .field .. => rfl
  | .spread .., .inline none _ _ => rfl
  | .spread .., .inline (some _) _ _ => rfl
  | .inline none _ _, .field .. => rfl
  | .inline none _ _, .spread .. => rfl
  | .inline none _ _, .inline (some _) _ _ => rfl
  | .inline (some _) _ _, .field .. => rfl
  | .inline (some _) _ _, .spread .. => rfl
  | .inline (some _) _ _, .inline none _ _ => rfl

def Tag.key : Tag → Str
  | .field n => 'a' :: n
  | .spread n => 'b' :: n
  | .inline none => ['c']
  | .inline (some t) => 'd' :: t

theorem key_tag (s : Sel) : s.key = s.tag.key := by
  match s with
  | .field .. => rfl
  | .spread .. => rfl
  | .inline none _ _ => rfl
  | .inline (some _) _ _ => rfl

theorem Tag.key_inj {a b : Tag} (h : a.key = b.key) : a = b := by
  match a, b with
  | .field a, .field b => injection h with _ h; rw [h]
  | .spread a, .spread b => injection h with _ h; rw [h]
  | .inline (some a), .inline (some b) => injection h with _ h; rw [h]
  | .inline none, .inline none => rfl
  | .field .., .spread .. => injection h with h _; exact absurd h (by decide)
  | .field .., .inline none => injection h with h _; exact absurd h (by decide)
  | .field .., .inline (some _) => injection h with h _; exact absurd h (by decide)
  | .spread .., .field .. => injection h with h _; exact absurd h (by decide)
  | .spread .., .inline none => injection h with h _; exact absurd h (by decide)
  | .spread .., .inline (some _) => injection h with h _; exact absurd h (by decide)
  | .inline none, .field .. => injection h with h _; exact absurd h (by decide)
  | .inline none, .spread .. => injection h with h _; exact absurd h (by decide)
  | .inline none, .inline (some _) => injection h with h _; exact absurd h (by decide)
  | .inline (some _), .field .. => injection h with h _; exact absurd h (by decide)
  | .inline (some _), .spread .. => injection h with h _; exact absurd h (by decide)
  | .inline (some _), .inline none => injection h with h _; exact absurd h (by decide)

theorem nodup_keys {ss : List Sel} (h : (ss.map Sel.tag).Nodup) : (ss.map Sel.key).Nodup := by
  have : ss.map Sel.key = (ss.map Sel.tag).map Tag.key := by
    rw [List.map_map]
    exact List.map_congr_left fun s _ => key_tag s
  rw [this]
  unfold List.Nodup at h ⊢
  rw [List.pairwise_map]
  exact h.imp fun hn e => hn (Tag.key_inj e)

mutual
def canonSel : Sel → Sel
  | .field _ name args dirs sels =>
    .field none name (normArgs args) (normDirs dirs) (sortBy (fun a b => (selCmp a b).isLE) (canonItems sels))
  | .spread name dirs => .spread name (normDirs dirs)
  | .inline cond dirs sels => .inline cond (normDirs dirs) (sortBy (fun a b => (selCmp a b).isLE) (canonItems sels))
def canonItems : List Sel → List Sel
  | [] => []
  | s :: rest => canonSel s :: canonItems rest
end

def canonSels (ss : List Sel) : List Sel := sortBy (fun a b => (selCmp a b).isLE) (canonItems ss)

theorem canonItems_map (ss : List Sel) : canonItems ss = ss.map canonSel := by
  induction ss with
  | nil => rfl
  | cons s t ih => rw [canonItems, ih, List.map_cons]

theorem canonSel_field (a : Option Str) (n : Str) (as : List (Str × Value)) (ds : List Directive) (ss : List Sel) :
    canonSel (.field a n as ds ss) = .field none n (normArgs as) (normDirs ds) (canonSels ss) := by rw [canonSel]; rfl
theorem canonSel_spread (n : Str) (ds : List Directive) : canonSel (.spread n ds) = .spread n (normDirs ds) := by rw [canonSel]
theorem canonSel_inline (c : Option Str) (ds : List Directive) (ss : List Sel) :
    canonSel (.inline c ds ss) = .inline c (normDirs ds) (canonSels ss) := by rw [canonSel]; rfl

theorem canonSel_tag (s : Sel) : (canonSel s).tag = s.tag := by
  cases s with
  | field => rw [canonSel_field]; rfl
  | spread => rw [canonSel_spread]; rfl
  | inline => rw [canonSel_inline]; rfl

theorem map_tag (ss : List Sel) : (ss.map canonSel).map Sel.tag = ss.map Sel.tag := by
  rw [List.map_map]
  exact List.map_congr_left fun s _ => canonSel_tag s

theorem mem_allDistinct {ss : List Sel} : AllDistinct ss ↔ ∀ s ∈ ss, s.Distinct := by
  induction ss with
  | nil => simp [AllDistinct]
  | cons s t ih => simp only [AllDistinct, ih, List.forall_mem_cons]

mutual
theorem canonSel_idem : ∀ s : Sel, canonSel (canonSel s) = canonSel s
  | .field a n as ds ss => by
    rw [canonSel_field, canonSel_field, normArgs_idem, normDirs_idem, canonSels_idem ss]
  | .spread n ds => by rw [canonSel_spread, canonSel_spread, normDirs_idem]
  | .inline c ds ss => by rw [canonSel_inline, canonSel_inline, normDirs_idem, canonSels_idem ss]
theorem canonItems_idem : ∀ ss : List Sel, canonItems (canonItems ss) = canonItems ss
  | [] => rfl
  | s :: rest => by
    rw [canonItems, canonItems, canonSel_idem s, canonItems_idem rest]
theorem canonSels_idem : ∀ ss : List Sel, canonSels (canonSels ss) = canonSels ss
  | [] => rfl
  | s :: rest => by
    have h : canonItems (canonSels (s :: rest)) = canonSels (s :: rest) := by
      have : ∀ x ∈ canonSels (s :: rest), canonSel x = x := by
        intro x hx
        have hx : x ∈ canonItems (s :: rest) := (sortBy_perm _ _).mem_iff.1 hx
        rw [canonItems] at hx
        rcases List.mem_cons.1 hx with rfl | hx
        · exact canonSel_idem s
        · have hi := canonItems_idem rest
          rw [canonItems_map (canonItems rest)] at hi
          have : ∀ (l : List Sel), l.map canonSel = l → ∀ y ∈ l, canonSel y = y := by
            intro l
            induction l with
            | nil => intro _ y hy; cases hy
            | cons z t ih =>
              intro e y hy
              rw [List.map_cons] at e
              injection e with e1 e2
              rcases List.mem_cons.1 hy with rfl | hy
              · exact e1
              · exact ih e2 y hy
          exact this _ hi x hx
      rw [canonItems_map]
      conv => rhs; rw [← List.map_id (canonSels (s :: rest))]
      exact List.map_congr_left this
    unfold canonSels at h ⊢
    rw [h]
    exact sortBy_key_of_sorted selCmp_key (sortBy_key_sorted selCmp_key _)
end

theorem EquivSels.perm {ss ts : List Sel} (h : EquivSels ss ts) (hd : AllDistinct ss) :
    (ss.map canonSel).Perm (ts.map canonSel) ∧ AllDistinct ts := by
  have sels : ∀ {ss ts : List Sel}, (ss.map canonSel).Perm (ts.map canonSel) → (ss.map Sel.tag).Nodup →
      canonSels ss = canonSels ts ∧ (ts.map Sel.tag).Nodup := by
    intro ss ts hp hn
    constructor
    · unfold canonSels
      rw [canonItems_map, canonItems_map]
      exact sortBy_key_perm selCmp_key hp (nodup_keys (by rw [map_tag]; exact hn))
    · rw [← map_tag ts]
      refine (hp.map _).nodup_iff.1 ?_
      rw [map_tag]
      exact hn
  induction h with
  | nil => exact ⟨.refl _, hd⟩
  | field al bl n ha hd' hs h ihs ih =>
    simp only [AllDistinct, Sel.Distinct] at hd ⊢
    obtain ⟨⟨h1, h2, h3, h4⟩, h5⟩ := hd
    obtain ⟨i1, i2⟩ := ihs h4
    obtain ⟨j1, j2⟩ := ih h5
    obtain ⟨k1, k2⟩ := sels i1 h3
    refine ⟨?_, ⟨ha.distinct h1, hd'.distinct h2, k2, i2⟩, j2⟩
    simp only [List.map_cons, canonSel_field, ha.norm h1, hd'.norm h2, k1]
    exact j1.cons _
  | spread n hd' h ih =>
    simp only [AllDistinct, Sel.Distinct] at hd ⊢
    obtain ⟨j1, j2⟩ := ih hd.2
    refine ⟨?_, hd'.distinct hd.1, j2⟩
    simp only [List.map_cons, canonSel_spread, hd'.norm hd.1]
    exact j1.cons _
  | inline c hd' hs h ihs ih =>
    simp only [AllDistinct, Sel.Distinct] at hd ⊢
    obtain ⟨⟨h2, h3, h4⟩, h5⟩ := hd
    obtain ⟨i1, i2⟩ := ihs h4
    obtain ⟨j1, j2⟩ := ih h5
    obtain ⟨k1, k2⟩ := sels i1 h3
    refine ⟨?_, ⟨hd'.distinct h2, k2, i2⟩, j2⟩
    simp only [List.map_cons, canonSel_inline, hd'.norm h2, k1]
    exact j1.cons _
  | swap a b l =>
    simp only [AllDistinct] at hd ⊢
    exact ⟨.swap .., hd.2.1, hd.1, hd.2.2⟩
  | trans _ _ ih1 ih2 =>
    obtain ⟨h1, h2⟩ := ih1 hd
    obtain ⟨h3, h4⟩ := ih2 h2
    exact ⟨h1.trans h3, h4⟩

theorem EquivSels.norm {ss ts : List Sel} (h : EquivSels ss ts) (hd : SelsDistinct ss) :
    canonSels ss = canonSels ts ∧ SelsDistinct ts := by
  obtain ⟨hp, ha⟩ := h.perm hd.2
  constructor
  · unfold canonSels
    rw [canonItems_map, canonItems_map]
    exact sortBy_key_perm selCmp_key hp (nodup_keys (by rw [map_tag]; exact hd.1))
  · refine ⟨?_, ha⟩
    rw [← map_tag ts]
    refine (hp.map _).nodup_iff.1 ?_
    rw [map_tag]
    exact hd.1

/-! ## Spreads -/

theorem mem_spreads {ss : List Sel} {n : Str} : n ∈ spreads ss ↔ ∃ s ∈ ss, n ∈ s.spreads := by
  induction ss with
  | nil => simp [spreads]
  | cons s t ih => simp [spreads, ih]

theorem spreads_perm {ss ts : List Sel} (h : ss.Perm ts) (n : Str) : n ∈ spreads ss ↔ n ∈ spreads ts := by
  rw [mem_spreads, mem_spreads]
  constructor
  · rintro ⟨s, hs, hn⟩; exact ⟨s, h.mem_iff.1 hs, hn⟩
  · rintro ⟨s, hs, hn⟩; exact ⟨s, h.mem_iff.2 hs, hn⟩

mutual
theorem canonSel_spreads : ∀ (s : Sel) (n : Str), n ∈ (canonSel s).spreads ↔ n ∈ s.spreads
  | .field a m as ds ss, n => by
    rw [canonSel, Sel.spreads, Sel.spreads, spreads_perm (sortBy_perm _ _), canonItems_spreads ss n]
  | .spread m ds, n => by rw [canonSel_spread, Sel.spreads, Sel.spreads]
  | .inline c ds ss, n => by
    rw [canonSel, Sel.spreads, Sel.spreads, spreads_perm (sortBy_perm _ _), canonItems_spreads ss n]
theorem canonItems_spreads : ∀ (ss : List Sel) (n : Str), n ∈ spreads (canonItems ss) ↔ n ∈ spreads ss
  | [], n => Iff.rfl
  | s :: rest, n => by
    rw [canonItems, spreads, spreads, List.mem_append, List.mem_append, canonSel_spreads s n, canonItems_spreads rest n]
end

theorem canonSels_spreads (ss : List Sel) (n : Str) : n ∈ spreads (canonSels ss) ↔ n ∈ spreads ss := by
  unfold canonSels
  rw [spreads_perm (sortBy_perm _ _), canonItems_spreads]

theorem EquivSels.spreads {ss ts : List Sel} (h : EquivSels ss ts) (n : Str) :
    n ∈ Verif.OpText.spreads ss ↔ n ∈ Verif.OpText.spreads ts := by
  induction h with
  | nil => exact Iff.rfl
  | field al bl m ha hd hs h ihs ih =>
    simp only [Verif.OpText.spreads, Sel.spreads, List.mem_append, ihs, ih]
  | spread m hd h ih => simp only [Verif.OpText.spreads, Sel.spreads, List.mem_append, ih]
  | inline c hd hs h ihs ih => simp only [Verif.OpText.spreads, Sel.spreads, List.mem_append, ihs, ih]
  | swap a b l => exact spreads_perm (.swap ..) n
  | trans _ _ ih1 ih2 => exact ih1.trans ih2

end Verif.OpText
