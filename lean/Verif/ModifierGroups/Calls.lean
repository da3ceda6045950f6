import Verif.ModifierGroups.Lemmas
/-! Lemmas on the calls made from the groups, and on the accumulator. -/
namespace Verif.ModifierGroups

theorem slice_some {α : Type} {l : List α} {r : Rng} (h : r.start ≤ r.stop) (h' : r.stop ≤ l.length) :
    slice l r = some ((l.take r.stop).drop r.start) := by
  simp [slice, h, h']

theorem sub32_eq {a b : Nat} (h : b ≤ a) (ha : a < 2 ^ 32) : sub32 a b = a - b := by
  unfold sub32; omega

/-- A directive group with its range made relative to that of the extension. -/
def shift (g : EGroup) (d : DGroup) : DGroup :=
  { d with mods := ⟨sub32 d.mods.start g.mods.start, sub32 d.mods.stop g.mods.start⟩ }

theorem adjustOne_spec {names : List DGroup} {g : EGroup} (h : g.dirs.start ≤ g.dirs.stop)
    (h' : g.dirs.stop ≤ names.length) :
    ∃ out, adjustOne names g = some out ∧ out.length = names.length ∧
      ∀ i, out[i]? = if g.dirs.start ≤ i ∧ i < g.dirs.stop then (names[i]?).map (shift g) else names[i]? := by
  refine ⟨_, by unfold adjustOne; rw [if_pos ⟨h, h'⟩], by simp, ?_⟩
  intro i
  rw [List.getElem?_mapIdx]
  cases names[i]? <;> split <;> simp_all [shift]

theorem adjust_spec {names : List DGroup} {gs : List EGroup} {a : Nat}
    (ht : Tile (gs.map (·.dirs)) a names.length) :
    ∃ out, adjust names gs = some out ∧ out.length = names.length ∧
      (∀ i, i < a → out[i]? = names[i]?) ∧
      ∀ g ∈ gs, ∀ i, g.dirs.start ≤ i → i < g.dirs.stop → out[i]? = (names[i]?).map (shift g) := by
  induction gs generalizing names a with
  | nil => exact ⟨names, rfl, rfl, fun _ _ => rfl, by simp⟩
  | cons g t ih =>
    simp only [List.map_cons, Tile] at ht
    obtain ⟨h1, h2, h3⟩ := ht
    have hle : g.dirs.stop ≤ names.length := h3.le
    obtain ⟨o1, e1, l1, s1⟩ := adjustOne_spec (names := names) (g := g) (by omega) hle
    rw [show names.length = o1.length from l1.symm] at h3
    obtain ⟨o2, e2, l2, s2, s3⟩ := ih h3
    refine ⟨o2, by simp [adjust, e1, e2], by omega, ?_, ?_⟩
    · intro i hi
      rw [s2 i (by omega), s1, if_neg (by omega)]
    · intro g' hg' i h4 h5
      rcases List.mem_cons.1 hg' with rfl | hg'
      · rw [s2 i h5, s1, if_pos ⟨h4, h5⟩]
      · have := h3.mem (List.mem_map_of_mem (f := (·.dirs)) hg')
        rw [s3 g' hg' i h4 h5, s1, if_neg (by omega)]

/-- The slice of the adjusted names of an extension. -/
theorem adjusted_slice {names out : List DGroup} {g : EGroup} (hl : out.length = names.length)
    (h : g.dirs.start ≤ g.dirs.stop) (h' : g.dirs.stop ≤ names.length)
    (hs : ∀ i, g.dirs.start ≤ i → i < g.dirs.stop → out[i]? = (names[i]?).map (shift g)) :
    (out.take g.dirs.stop).drop g.dirs.start =
      ((names.take g.dirs.stop).drop g.dirs.start).map (shift g) := by
  apply List.ext_getElem?
  intro i
  rw [List.getElem?_map, List.getElem?_drop, List.getElem?_drop, List.getElem?_take, List.getElem?_take]
  split
  · exact hs _ (by omega) (by assumption)
  · rfl

theorem elements_of_ext {l : List Rec} (h : ∀ r ∈ l, ∃ d t, r.rule = .extension d t) :
    elements l = some l := by
  induction l with
  | nil => rfl
  | cons x t ih =>
    obtain ⟨d, tg, hx⟩ := h x (by simp)
    obtain ⟨rule, b, f⟩ := x
    simp only at hx; subst hx
    simp [elements, ih (fun r hr => h r (by simp [hr]))]

theorem elements_of_native {l : List Rec} {r : Rec} {d : Nat} (hr : r ∈ l) (hd : r.rule = .executable d) :
    elements l = none := by
  induction l with
  | nil => cases hr
  | cons x t ih =>
    obtain ⟨rule, b, f⟩ := x
    cases rule with
    | executable _ => rfl
    | extension d' tg =>
      rcases List.mem_cons.1 hr with rfl | hr
      · cases hd
      · simp [elements, ih hr]

/-- Consecutive ranges, taken from a part of a list, give back that part. -/
theorem tile_slices {recs : List Rec} {ds : List DGroup} {A B a b : Nat} (g : EGroup)
    (hA : g.mods.start = A) (ht : Tile (ds.map (·.mods)) a b) (hAa : A ≤ a) (hbB : b ≤ B)
    (hB : B ≤ recs.length) (h32 : recs.length < 2 ^ 32)
    {β : Type} (f : Rec → β) (f' : DGroup → Rec → β)
    (hf : ∀ d ∈ ds, ∀ i, d.mods.start ≤ i → i < d.mods.stop → ∀ r, recs[i]? = some r → f' d r = f r)
    (hfs : ∀ d, f' (shift g d) = f' d) :
    ((ds.map (shift g)).flatMap fun d =>
      ((((recs.take B).drop A).take d.mods.stop).drop d.mods.start).map (f' d)) =
    ((recs.take b).drop a).map f := by
  induction ds generalizing a with
  | nil => simp only [List.map_nil, Tile] at ht; subst ht; simp
  | cons d t ih =>
    simp only [List.map_cons, Tile] at ht
    obtain ⟨h1, h2, h3⟩ := ht
    have hle := h3.le
    simp only [List.map_cons, List.flatMap_cons]
    rw [ih h3 (by omega) (fun x hx => hf x (by simp [hx]))]
    have e1 : (shift g d).mods = ⟨a - A, d.mods.stop - A⟩ := by
      simp only [shift]
      rw [sub32_eq (by omega) (by omega), sub32_eq (by omega) (by omega), hA, h1]
    rw [e1, hfs]
    dsimp only
    apply List.ext_getElem?
    intro i
    have hlen : (((((recs.take B).drop A).take (d.mods.stop - A)).drop (a - A)).map (f' d)).length
        = d.mods.stop - a := by
      simp; omega
    rcases Nat.lt_or_ge i (d.mods.stop - a) with hi | hi
    · rw [List.getElem?_append_left (by omega)]
      simp only [List.getElem?_map, List.getElem?_drop, List.getElem?_take]
      rw [if_pos (by omega), if_pos (by omega), if_pos (by omega)]
      rw [show A + (a - A + i) = a + i by omega]
      cases hr : recs[a + i]? with
      | none => rfl
      | some r =>
        simp only [Option.map_some, Option.some.injEq]
        exact hf d (by simp) (a + i) (by omega) (by omega) r hr
    · rw [List.getElem?_append_right (by omega), hlen]
      simp only [List.getElem?_map, List.getElem?_drop, List.getElem?_take]
      rw [show d.mods.stop + (i - (d.mods.stop - a)) = a + i by omega]

/-- Consecutive parts of a list, put together. -/
theorem tile_join {α : Type} {l : List α} {rs : List Rng} {a b : Nat} (ht : Tile rs a b)
    (hb : b ≤ l.length) : (rs.flatMap fun r => (l.take r.stop).drop r.start) = (l.take b).drop a := by
  induction rs generalizing a with
  | nil => simp only [Tile] at ht; subst ht; simp
  | cons r t ih =>
    simp only [Tile] at ht
    obtain ⟨h1, h2, h3⟩ := ht
    have hle := h3.le
    rw [List.flatMap_cons, ih h3, h1]
    apply List.ext_getElem?
    intro i
    have hlen : ((l.take r.stop).drop a).length = r.stop - a := by simp; omega
    rcases Nat.lt_or_ge i (r.stop - a) with hi | hi
    · rw [List.getElem?_append_left (by omega)]
      simp only [List.getElem?_drop, List.getElem?_take]
      rw [if_pos (by omega), if_pos (by omega)]
    · rw [List.getElem?_append_right (by omega), hlen]
      simp only [List.getElem?_drop, List.getElem?_take]
      rw [show r.stop + (i - (r.stop - a)) = a + i by omega]

theorem mapM_some {α β : Type} {l : List α} {f : α → Option β} {g : α → β}
    (h : ∀ a ∈ l, f a = some (g a)) : l.mapM f = some (l.map g) := by
  induction l with
  | nil => rfl
  | cons x t ih =>
    rw [List.mapM_cons, h x (by simp), ih (fun a ha => h a (by simp [ha]))]
    rfl

/-- The call made for a group. -/
def callOf (recs : List Rec) (byDir : List DGroup) (g : EGroup) : Call :=
  ⟨g.ext, ((byDir.take g.dirs.stop).drop g.dirs.start).map (shift g),
    (recs.take g.mods.stop).drop g.mods.start⟩

theorem calls_good {schema : Nat → Dir} {rank : Nat → Nat} {recs : List Rec} {b : Nat}
    {byExt : List EGroup} {byDir : List DGroup} {nat : Rng} (h : Good schema rank recs b byExt byDir)
    (he : ∀ r ∈ recs, ∃ d t, r.rule = .extension d t) :
    calls ⟨nat, byExt, byDir⟩ recs = some (byExt.map (callOf recs byDir)) := by
  obtain ⟨out, h1, h2, h3, h4⟩ := adjust_spec h.tedir
  simp only [calls, elements_of_ext he, Option.bind_some, h1]
  apply mapM_some
  intro g hg
  have hd := h.tedir.mem (List.mem_map_of_mem (f := (·.dirs)) hg)
  have hm := h.temod.mem (List.mem_map_of_mem (f := (·.mods)) hg)
  rw [call, slice_some (by omega) (by omega), slice_some (by omega) (by omega)]
  simp only [Option.bind_some, Option.map_some, callOf]
  rw [adjusted_slice h2 (by omega) (by omega) (h4 g hg)]

/-! ## The accumulator -/

/-- What the inserts say of a rule. -/
def want (ins : List (Rule × Option Nat)) (r : Rule) : Rec :=
  ⟨r, ins.any fun x => x = (r, none), ins.filterMap fun x => if x.1 = r then x.2 else none⟩

theorem idx_of_nodup {l : List Rule} (h : l.Nodup) {i : Nat} {r : Rule} (hi : l[i]? = some r) :
    l.idxOf r = i := by
  obtain ⟨hl, hi⟩ := List.getElem?_eq_some_iff.1 hi
  rw [← hi]
  exact h.idxOf_getElem i hl

theorem want_append_ne {ins : List (Rule × Option Nat)} {r r' : Rule} {f : Option Nat} (h : r ≠ r') :
    want (ins ++ [(r, f)]) r' = want ins r' := by
  simp [want, h]

theorem want_append {ins : List (Rule × Option Nat)} {r : Rule} {f : Option Nat} :
    want (ins ++ [(r, f)]) r = mark f (want ins r) := by
  cases f <;> simp [want, mark]

theorem want_absent {ins : List (Rule × Option Nat)} {r : Rule} (h : r ∉ ins.map (·.1)) :
    want ins r = ⟨r, false, []⟩ := by
  simp only [want, Rec.mk.injEq, true_and]
  refine ⟨?_, ?_⟩
  · rw [Bool.eq_false_iff]
    simp only [ne_eq, List.any_eq_true, decide_eq_true_eq, not_exists, not_and]
    intro x hx he
    exact h (by rw [he] at hx; exact List.mem_map_of_mem (f := (·.1)) hx)
  · rw [List.filterMap_eq_nil_iff]
    intro x hx
    rw [if_neg]
    intro he
    exact h (he ▸ List.mem_map_of_mem hx)

/-- The state after some inserts. -/
structure AccInv (native : List Rec) (ins : List (Rule × Option Nat)) (a : Acc) : Prop where
  recs : a.recs = native ++ ((ins.map (·.1)).eraseDups).map (want ins)
  index : ∀ r, a.index r = if r ∈ ins.map (·.1) then
    some (native.length + ((ins.map (·.1)).eraseDups).idxOf r) else none

theorem eraseDups_snoc {l : List Rule} {r : Rule} :
    (l ++ [r]).eraseDups = if r ∈ l then l.eraseDups else l.eraseDups ++ [r] := by
  rw [List.eraseDups_append]
  split
  · rename_i h; simp [List.removeAll, h]
  · rename_i h; simp [List.removeAll, h, List.eraseDups_cons]

theorem nodup_eraseDups (l : List Rule) : l.eraseDups.Nodup := by
  rw [← List.reverse_reverse l]
  induction l.reverse with
  | nil => simp
  | cons r l ih =>
    rw [List.reverse_cons, eraseDups_snoc]
    split
    · exact ih
    · rename_i h
      rw [List.nodup_append]
      refine ⟨ih, by simp, ?_⟩
      intro a ha b hb
      simp only [List.mem_singleton] at hb
      subst hb
      rintro rfl
      exact h (List.mem_eraseDups.1 ha)

theorem eraseDups_length_le (l : List Rule) : l.eraseDups.length ≤ l.length := by
  rw [← List.reverse_reverse l]
  induction l.reverse with
  | nil => simp
  | cons r l ih =>
    rw [List.reverse_cons, eraseDups_snoc]
    split <;> simp at * <;> omega

theorem set_idx_map {l : List Rule} (hn : l.Nodup) {f g : Rule → Rec} {r : Rule} (hr : r ∈ l)
    {x : Rec} (hx : g r = x) (hne : ∀ r' ∈ l, r' ≠ r → g r' = f r') :
    (l.map f).set (l.idxOf r) x = l.map g := by
  apply List.ext_getElem?
  intro i
  rw [List.getElem?_set]
  simp only [List.length_map, List.getElem?_map]
  have hlt : l.idxOf r < l.length := List.idxOf_lt_length_of_mem hr
  split
  · rename_i h
    rw [← h, List.getElem?_eq_getElem hlt]
    simp [hx, hlt]
  · rename_i h
    cases hi : l[i]? with
    | none => rfl
    | some r' =>
      simp only [Option.map_some, Option.some.injEq]
      refine (hne r' (List.mem_of_getElem? hi) ?_).symm
      rintro rfl
      exact h (idx_of_nodup hn hi)

theorem insert_inv {native : List Rec} {ins : List (Rule × Option Nat)} {a : Acc} {r : Rule}
    {f : Option Nat} (h : AccInv native ins a) :
    ∃ a', insert a r f = some a' ∧ AccInv native (ins ++ [(r, f)]) a' := by
  have hnd : ((ins.map (·.1)).eraseDups).Nodup := nodup_eraseDups _
  have hnd' : (((ins ++ [(r, f)]).map (·.1)).eraseDups).Nodup := nodup_eraseDups _
  by_cases hm : r ∈ ins.map (·.1)
  · have hi := h.index r
    rw [if_pos hm] at hi
    have hlt : ((ins.map (·.1)).eraseDups).idxOf r < ((ins.map (·.1)).eraseDups).length :=
      List.idxOf_lt_length_of_mem (List.mem_eraseDups.2 hm)
    have hget : a.recs[native.length + ((ins.map (·.1)).eraseDups).idxOf r]? = some (want ins r) := by
      rw [h.recs, List.getElem?_append_right (by omega), Nat.add_sub_cancel_left, List.getElem?_map,
        List.getElem?_eq_getElem hlt]
      simp
    have hd : ((ins ++ [(r, f)]).map (·.1)).eraseDups = (ins.map (·.1)).eraseDups := by
      rw [List.map_append, List.map_singleton, eraseDups_snoc, if_pos hm]
    refine ⟨_, by simp only [insert, entry, hi, hget]; rfl, ?_, ?_⟩
    · simp only [h.recs]
      rw [List.set_append_right _ _ (by omega), Nat.add_sub_cancel_left, hd]
      rw [set_idx_map hnd (List.mem_eraseDups.2 hm) (g := want (ins ++ [(r, f)])) want_append]
      intro r' _ hne
      exact want_append_ne (Ne.symm hne)
    · intro r'
      show a.index r' = _
      rw [h.index r', hd]
      by_cases hr : r' ∈ ins.map (·.1)
      · rw [if_pos hr, if_pos (by rw [List.map_append]; exact List.mem_append_left _ hr)]
      · rw [if_neg hr, if_neg]
        rw [List.map_append]
        simp only [List.mem_append, not_or]
        exact ⟨hr, by simp; rintro rfl; exact hr hm⟩
  · have hi := h.index r
    rw [if_neg hm] at hi
    have hd : ((ins ++ [(r, f)]).map (·.1)).eraseDups = (ins.map (·.1)).eraseDups ++ [r] := by
      rw [List.map_append, List.map_singleton, eraseDups_snoc, if_neg hm]
    have hget : (a.recs ++ [⟨r, false, []⟩])[(a.recs ++ [(⟨r, false, []⟩ : Rec)]).length - 1]? =
        some ⟨r, false, []⟩ := by simp
    refine ⟨_, by simp only [insert, entry, hi, hget]; rfl, ?_, ?_⟩
    · simp only [List.length_append, List.length_singleton, Nat.add_sub_cancel]
      rw [List.set_append_right _ _ (by omega), Nat.sub_self, List.set_cons_zero, hd, h.recs,
        List.map_append, List.append_assoc]
      congr 1
      congr 1
      · apply List.map_congr_left
        intro r' hr'
        refine (want_append_ne ?_).symm
        rintro rfl
        exact hm (List.mem_eraseDups.1 hr')
      · simp only [List.map_singleton, List.cons.injEq, and_true]
        rw [want_append, want_absent hm]
    · intro r'
      simp only [List.length_append, List.length_singleton, Nat.add_sub_cancel]
      rw [hd, List.map_append]
      by_cases hr : r' = r
      · subst hr
        rw [if_pos rfl, if_pos (by simp), h.recs]
        rw [List.idxOf_append, if_neg (by rw [List.mem_eraseDups]; exact hm)]
        simp
      · rw [if_neg hr, h.index r']
        by_cases hr' : r' ∈ ins.map (·.1)
        · rw [if_pos hr', if_pos (List.mem_append_left _ hr'), List.idxOf_append,
            if_pos (List.mem_eraseDups.2 hr')]
        · rw [if_neg hr', if_neg]
          simp only [List.mem_append, not_or]
          exact ⟨hr', by simp [hr]⟩

theorem insertAll_inv {native : List Rec} {done ins : List (Rule × Option Nat)} {a : Acc}
    (h : AccInv native done a) : ∃ a', insertAll a ins = some a' ∧ AccInv native (done ++ ins) a' := by
  induction ins generalizing done a with
  | nil => exact ⟨a, rfl, by simpa using h⟩
  | cons x t ih =>
    obtain ⟨r, f⟩ := x
    obtain ⟨a1, h1, h2⟩ := insert_inv (r := r) (f := f) h
    obtain ⟨a2, h3, h4⟩ := ih h2
    refine ⟨a2, by simp [insertAll, h1, h3], ?_⟩
    simpa using h4

end Verif.ModifierGroups
