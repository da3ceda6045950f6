import Verif.ModifierGroups.Model
/-! Lemmas on the grouping of query modifiers. -/
namespace Verif.ModifierGroups

/-- The ranges follow each other from `a` to `b` and none is empty. -/
def Tile : List Rng → Nat → Nat → Prop
  | [], a, b => a = b
  | r :: t, a, b => r.start = a ∧ r.start < r.stop ∧ Tile t r.stop b

theorem Tile.append {l m : List Rng} {a b c : Nat} (h : Tile l a b) (h' : Tile m b c) :
    Tile (l ++ m) a c := by
  induction l generalizing a with
  | nil => simp only [Tile] at h; subst h; simpa using h'
  | cons r t ih => exact ⟨h.1, h.2.1, ih h.2.2⟩

theorem Tile.single {a b : Nat} (h : a < b) : Tile [⟨a, b⟩] a b := ⟨rfl, h, rfl⟩

theorem Tile.le {l : List Rng} {a b : Nat} (h : Tile l a b) : a ≤ b := by
  induction l generalizing a with
  | nil => exact Nat.le_of_eq h
  | cons r t ih => have := ih h.2.2; have := h.2.1; have := h.1; omega

theorem Tile.mem {l : List Rng} {a b : Nat} (h : Tile l a b) {r : Rng} (hr : r ∈ l) :
    a ≤ r.start ∧ r.start < r.stop ∧ r.stop ≤ b := by
  induction l generalizing a with
  | nil => cases hr
  | cons x t ih =>
    obtain ⟨h1, h2, h3⟩ := h
    rcases List.mem_cons.1 hr with rfl | hr
    · exact ⟨by omega, h2, h3.le⟩
    · have := ih h3 hr; exact ⟨by omega, this.2.1, this.2.2⟩

/-- The directive of a record. -/
def dirOf (schema : Nat → Dir) (r : Rec) : Option Dir :=
  match r.rule with
  | .extension d _ => some (schema d)
  | .executable _ => none

def dirAt (schema : Nat → Dir) (recs : List Rec) (i : Nat) : Option Dir :=
  recs[i]?.bind (dirOf schema)

/-- Invariant of the inner loop: the records from `b` to `ix` were processed. -/
structure Inv (schema : Nat → Dir) (rank : Nat → Nat) (recs : List Rec) (b ix : Nat) (s : Loop) : Prop where
  dlt : s.d.mods.start < ix
  ele : s.e.mods.start ≤ s.d.mods.start
  elen : s.e.dirs.start ≤ s.byDir.length
  tdir : Tile (s.byDir.map (·.mods)) b s.d.mods.start
  tedir : Tile (s.byExt.map (·.dirs)) 0 s.e.dirs.start
  temod : Tile (s.byExt.map (·.mods)) b s.e.mods.start
  tin : ∀ g ∈ s.byExt, Tile (((s.byDir.take g.dirs.stop).drop g.dirs.start).map (·.mods)) g.mods.start g.mods.stop
  topen : Tile ((s.byDir.drop s.e.dirs.start).map (·.mods)) s.e.mods.start s.d.mods.start
  ext : ∀ g ∈ s.byExt, ∀ i, g.mods.start ≤ i → i < g.mods.stop →
    ∃ d, dirAt schema recs i = some d ∧ d.ext = g.ext
  extOpen : ∀ i, s.e.mods.start ≤ i → i < ix → ∃ d, dirAt schema recs i = some d ∧ d.ext = s.e.ext
  name : ∀ g ∈ s.byDir, ∀ i, g.mods.start ≤ i → i < g.mods.stop →
    ∃ d, dirAt schema recs i = some d ∧ d.name = g.name
  nameOpen : ∀ i, s.d.mods.start ≤ i → i < ix → ∃ d, dirAt schema recs i = some d ∧ d.name = s.d.name
  exts : (s.byExt.map (·.ext) ++ [s.e.ext]).Pairwise (· < ·)
  names : ∀ g ∈ s.byExt, (((s.byDir.take g.dirs.stop).drop g.dirs.start).map (·.name)).Pairwise
    fun x y => rank x < rank y
  namesOpen : ((s.byDir.drop s.e.dirs.start).map (·.name) ++ [s.d.name]).Pairwise fun x y => rank x < rank y

theorem take_append_of_tile {l m : List DGroup} {g : EGroup} {gs : List EGroup} {c : Nat}
    (ht : Tile (gs.map (·.dirs)) 0 c) (hc : c ≤ l.length) (hg : g ∈ gs) :
    ((l ++ m).take g.dirs.stop).drop g.dirs.start = (l.take g.dirs.stop).drop g.dirs.start := by
  have := (ht.mem (List.mem_map_of_mem hg)).2.2
  rw [List.take_append_of_le_length (by omega)]

theorem pairwise_snoc {α : Type} {R : α → α → Prop} {l : List α} {x y : α}
    (tr : ∀ a b c, R a b → R b c → R a c)
    (h : (l ++ [x]).Pairwise R) (hxy : R x y) : (l ++ [x] ++ [y]).Pairwise R := by
  rw [List.pairwise_append]
  refine ⟨h, by simp, ?_⟩
  intro a ha z hz
  simp only [List.mem_singleton] at hz
  subst hz
  rcases List.mem_append.1 ha with ha | ha
  · exact tr _ _ _ ((List.pairwise_append.1 h).2.2 a ha x (by simp)) hxy
  · simp only [List.mem_singleton] at ha; subst ha; exact hxy

/-- Sortedness read at the level of directives. -/
theorem dirAt_le {schema : Nat → Dir} {rank : Nat → Nat} {recs : List Rec}
    (hs : recs.Pairwise fun a b => cmpLe schema rank a.rule b.rule = true) {i j : Nat} {d e : Dir}
    (hij : i < j) (hi : dirAt schema recs i = some d) (hj : dirAt schema recs j = some e) :
    d.ext ≤ e.ext ∧ (d.ext = e.ext → rank d.name ≤ rank e.name) := by
  simp only [dirAt, Option.bind_eq_some_iff] at hi hj
  obtain ⟨x, hx, hxd⟩ := hi
  obtain ⟨y, hy, hyd⟩ := hj
  obtain ⟨hi', hx⟩ := List.getElem?_eq_some_iff.1 hx
  obtain ⟨hj', hy⟩ := List.getElem?_eq_some_iff.1 hy
  have := List.pairwise_iff_getElem.1 hs i j hi' hj' hij
  rw [hx, hy] at this
  unfold dirOf at hxd hyd
  revert hxd hyd this
  cases x.rule <;> cases y.rule <;> simp [cmpLe]
  intro h1 h2 h
  subst h1; subst h2
  split at h <;> simp_all <;> omega

theorem inv_step {schema : Nat → Dir} {rank : Nat → Nat} (hr : ∀ a b, rank a = rank b → a = b)
    {recs : List Rec} (hs : recs.Pairwise fun a b => cmpLe schema rank a.rule b.rule = true)
    {b ix : Nat} {s : Loop} (h : Inv schema rank recs b ix s) {dir : Dir}
    (hd : dirAt schema recs ix = some dir) : Inv schema rank recs b (ix + 1) (step s ix dir) := by
  have hdlt := h.dlt
  have hele := h.ele
  obtain ⟨d0, hd0, hd0e⟩ := h.extOpen (ix - 1) (by omega) (by omega)
  obtain ⟨d1, hd1, hd1e⟩ := h.nameOpen (ix - 1) (by omega) (by omega)
  have : d1 = d0 := by rw [hd1] at hd0; simpa using hd0
  subst this
  have hle := dirAt_le hs (by omega) hd1 hd
  have here : ∀ i, ix ≤ i → i < ix + 1 → dirAt schema recs i = some dir := by
    intro i h1 h2; rw [show i = ix by omega]; exact hd
  unfold step
  split
  · rename_i hne
    have hnew : Tile ((s.byDir ++ [{ s.d with mods := ⟨s.d.mods.start, ix⟩ }]).map DGroup.mods) b ix := by
      rw [List.map_append]; exact h.tdir.append (Tile.single hdlt)
    constructor
    · simp
    · simp
    · simp
    · exact hnew
    · rw [List.map_append]
      refine h.tedir.append (Tile.single ?_)
      have := h.elen
      simp; omega
    · rw [List.map_append]
      exact h.temod.append (Tile.single (by omega))
    · intro g hg
      rcases List.mem_append.1 hg with hg | hg
      · rw [take_append_of_tile h.tedir h.elen hg]; exact h.tin g hg
      · simp only [List.mem_singleton] at hg; subst hg
        have hl := h.elen
        rw [List.take_of_length_le (by simp), List.drop_append_of_le_length hl, List.map_append]
        exact h.topen.append (Tile.single hdlt)
    · simp [Tile]
    · intro g hg i h1 h2
      rcases List.mem_append.1 hg with hg | hg
      · exact h.ext g hg i h1 h2
      · simp only [List.mem_singleton] at hg; subst hg; exact h.extOpen i h1 h2
    · intro i h1 h2; exact ⟨dir, here i h1 h2, rfl⟩
    · intro g hg i h1 h2
      rcases List.mem_append.1 hg with hg | hg
      · exact h.name g hg i h1 h2
      · simp only [List.mem_singleton] at hg; subst hg; exact h.nameOpen i h1 h2
    · intro i h1 h2; exact ⟨dir, here i h1 h2, rfl⟩
    · rw [List.map_append]
      exact pairwise_snoc (fun a b c => Nat.lt_trans) h.exts (by show s.e.ext < dir.ext; omega)
    · intro g hg
      rcases List.mem_append.1 hg with hg | hg
      · rw [take_append_of_tile h.tedir h.elen hg]; exact h.names g hg
      · simp only [List.mem_singleton] at hg; subst hg
        have hl := h.elen
        rw [List.take_of_length_le (by simp), List.drop_append_of_le_length hl, List.map_append]
        exact h.namesOpen
    · simp
  · rename_i heq
    have heq : s.e.ext = dir.ext := by simpa using heq
    split
    · rename_i hne
      have hl := h.elen
      constructor
      · simp
      · simp; omega
      · simp; omega
      · rw [List.map_append]; exact h.tdir.append (Tile.single hdlt)
      · exact h.tedir
      · exact h.temod
      · intro g hg
        rw [take_append_of_tile h.tedir h.elen hg]; exact h.tin g hg
      · rw [List.drop_append_of_le_length hl, List.map_append]
        exact h.topen.append (Tile.single hdlt)
      · exact h.ext
      · intro i h1 h2
        rcases Nat.lt_or_ge i ix with h3 | h3
        · exact h.extOpen i h1 h3
        · exact ⟨dir, here i h3 h2, heq.symm⟩
      · intro g hg i h1 h2
        rcases List.mem_append.1 hg with hg | hg
        · exact h.name g hg i h1 h2
        · simp only [List.mem_singleton] at hg; subst hg; exact h.nameOpen i h1 h2
      · intro i h1 h2; exact ⟨dir, here i h1 h2, rfl⟩
      · exact h.exts
      · intro g hg
        rw [take_append_of_tile h.tedir h.elen hg]; exact h.names g hg
      · rw [List.drop_append_of_le_length hl, List.map_append]
        refine pairwise_snoc (fun a b c => Nat.lt_trans) h.namesOpen ?_
        have h1 := hle.2 (by omega)
        have h2 : rank s.d.name ≠ rank dir.name := fun e => hne (hr _ _ e)
        rw [hd1e] at h1
        show rank s.d.name < rank dir.name
        omega
    · rename_i hn
      have hn : s.d.name = dir.name := by simpa using hn
      refine { h with dlt := by omega, extOpen := ?_, nameOpen := ?_ }
      · intro i h1 h2
        rcases Nat.lt_or_ge i ix with h3 | h3
        · exact h.extOpen i h1 h3
        · exact ⟨dir, here i h3 h2, heq.symm⟩
      · intro i h1 h2
        rcases Nat.lt_or_ge i ix with h3 | h3
        · exact h.nameOpen i h1 h3
        · exact ⟨dir, here i h3 h2, hn.symm⟩

theorem inv_inner {schema : Nat → Dir} {rank : Nat → Nat} (hr : ∀ a b, rank a = rank b → a = b)
    {recs : List Rec} (hs : recs.Pairwise fun a b => cmpLe schema rank a.rule b.rule = true)
    {b ix : Nat} {s : Loop} (h : Inv schema rank recs b ix s) {t : List Rec} (ht : recs.drop ix = t)
    (hext : ∀ r ∈ t, ∃ d tg, r.rule = .extension d tg) :
    ∃ s', inner schema s ix t = some s' ∧ Inv schema rank recs b (ix + t.length) s' := by
  induction t generalizing ix s with
  | nil => exact ⟨s, rfl, h⟩
  | cons x t ih =>
    obtain ⟨d, tg, hx⟩ := hext x (by simp)
    obtain ⟨rule, bb, ff⟩ := x
    simp only at hx
    subst hx
    have hg : recs[ix]? = some ⟨.extension d tg, bb, ff⟩ := by
      have := congrArg (·[0]?) ht; simpa using this
    have h2 := inv_step hr hs h (dir := schema d) (by simp [dirAt, hg, dirOf])
    obtain ⟨s', h3, h4⟩ := ih h2 (by
      have := congrArg List.tail ht
      simpa [List.tail_drop] using this) (fun r hr => hext r (by simp [hr]))
    refine ⟨s', h3, ?_⟩
    simp only [List.length_cons]
    rw [show ix + (t.length + 1) = ix + 1 + t.length by omega]
    exact h4

/-- What the groups satisfy: the extension records are those from `b` on. -/
structure Good (schema : Nat → Dir) (rank : Nat → Nat) (recs : List Rec) (b : Nat)
    (byExt : List EGroup) (byDir : List DGroup) : Prop where
  tdir : Tile (byDir.map (·.mods)) b recs.length
  tedir : Tile (byExt.map (·.dirs)) 0 byDir.length
  temod : Tile (byExt.map (·.mods)) b recs.length
  tin : ∀ g ∈ byExt, Tile (((byDir.take g.dirs.stop).drop g.dirs.start).map (·.mods)) g.mods.start g.mods.stop
  ext : ∀ g ∈ byExt, ∀ i, g.mods.start ≤ i → i < g.mods.stop →
    ∃ d, dirAt schema recs i = some d ∧ d.ext = g.ext
  name : ∀ g ∈ byDir, ∀ i, g.mods.start ≤ i → i < g.mods.stop →
    ∃ d, dirAt schema recs i = some d ∧ d.name = g.name
  exts : (byExt.map (·.ext)).Pairwise (· < ·)
  names : ∀ g ∈ byExt, (((byDir.take g.dirs.stop).drop g.dirs.start).map (·.name)).Pairwise
    fun x y => rank x < rank y

theorem good_close {schema : Nat → Dir} {rank : Nat → Nat} {recs : List Rec} {b : Nat} {s : Loop}
    (h : Inv schema rank recs b recs.length s) :
    Good schema rank recs b (close s recs.length).1 (close s recs.length).2 := by
  have hdlt := h.dlt
  have hele := h.ele
  have hl := h.elen
  unfold close
  constructor
  · simp only [List.map_append]; exact h.tdir.append (Tile.single hdlt)
  · simp only [List.map_append]
    refine h.tedir.append (Tile.single ?_)
    simp; omega
  · simp only [List.map_append]
    exact h.temod.append (Tile.single (by omega))
  · intro g hg
    rcases List.mem_append.1 hg with hg | hg
    · rw [take_append_of_tile h.tedir h.elen hg]; exact h.tin g hg
    · simp only [List.mem_singleton] at hg; subst hg
      rw [List.take_of_length_le (by simp), List.drop_append_of_le_length hl, List.map_append]
      exact h.topen.append (Tile.single hdlt)
  · intro g hg i h1 h2
    rcases List.mem_append.1 hg with hg | hg
    · exact h.ext g hg i h1 h2
    · simp only [List.mem_singleton] at hg; subst hg; exact h.extOpen i h1 h2
  · intro g hg i h1 h2
    rcases List.mem_append.1 hg with hg | hg
    · exact h.name g hg i h1 h2
    · simp only [List.mem_singleton] at hg; subst hg; exact h.nameOpen i h1 h2
  · simpa using h.exts
  · intro g hg
    rcases List.mem_append.1 hg with hg | hg
    · rw [take_append_of_tile h.tedir h.elen hg]; exact h.names g hg
    · simp only [List.mem_singleton] at hg; subst hg
      rw [List.take_of_length_le (by simp), List.drop_append_of_le_length hl, List.map_append]
      exact h.namesOpen

/-- In a sorted list the native records come first. -/
theorem sorted_split {schema : Nat → Dir} {rank : Nat → Nat} {recs : List Rec}
    (hs : recs.Pairwise fun a b => cmpLe schema rank a.rule b.rule = true) :
    ∃ n e, recs = n ++ e ∧ (∀ r ∈ n, ∃ d, r.rule = .executable d) ∧
      ∀ r ∈ e, ∃ d t, r.rule = .extension d t := by
  induction recs with
  | nil => exact ⟨[], [], rfl, by simp, by simp⟩
  | cons x t ih =>
    rw [List.pairwise_cons] at hs
    cases hx : x.rule with
    | executable d =>
      obtain ⟨n, e, h1, h2, h3⟩ := ih hs.2
      exact ⟨x :: n, e, by simp [h1], by simpa [hx] using h2, h3⟩
    | extension d tg =>
      refine ⟨[], x :: t, rfl, by simp, ?_⟩
      intro r hr
      rcases List.mem_cons.1 hr with rfl | hr
      · exact ⟨d, tg, hx⟩
      · have := hs.1 r hr
        rw [hx] at this
        cases h : r.rule with
        | executable d => rw [h] at this; simp [cmpLe] at this
        | extension d t => exact ⟨d, t, rfl⟩

theorem outer_native {schema : Nat → Dir} {N ix : Nat} {n e : List Rec}
    (hn : ∀ r ∈ n, ∃ d, r.rule = .executable d) :
    outer schema N ix (n ++ e) = outer schema N (ix + n.length) e := by
  induction n generalizing ix with
  | nil => rfl
  | cons x t ih =>
    obtain ⟨d, hx⟩ := hn x (by simp)
    obtain ⟨rule, b, f⟩ := x
    simp only at hx; subst hx
    simp only [List.cons_append, outer]
    rw [ih (fun r hr => hn r (by simp [hr]))]
    simp only [List.length_cons]
    rw [show ix + 1 + t.length = ix + (t.length + 1) by omega]

/-- The result of `build` on a sorted list. -/
theorem build_good {schema : Nat → Dir} {rank : Nat → Nat} (hr : ∀ a b, rank a = rank b → a = b)
    {n e : List Rec}
    (hs : (n ++ e).Pairwise fun a b => cmpLe schema rank a.rule b.rule = true)
    (hn : ∀ r ∈ n, ∃ d, r.rule = .executable d) (he : ∀ r ∈ e, ∃ d t, r.rule = .extension d t) :
    ∃ byExt byDir, build schema (n ++ e) = some ⟨⟨0, n.length⟩, byExt, byDir⟩ ∧
      Good schema rank (n ++ e) n.length byExt byDir ∧ (e = [] ↔ byExt = []) := by
  unfold build
  rw [outer_native hn]
  cases e with
  | nil =>
    refine ⟨[], [], by simp [outer], ?_, by simp⟩
    constructor <;> simp [Tile]
  | cons x t =>
    obtain ⟨d, tg, hx⟩ := he x (by simp)
    obtain ⟨rule, b, f⟩ := x
    simp only at hx; subst hx
    have h0 : Inv schema rank (n ++ ⟨.extension d tg, b, f⟩ :: t) n.length (n.length + 1)
        ⟨⟨(schema d).ext, ⟨0, 0⟩, ⟨n.length, n.length⟩⟩, ⟨(schema d).name, ⟨n.length, n.length⟩⟩, [], []⟩ := by
      have here : ∀ i, n.length ≤ i → i < n.length + 1 →
          dirAt schema (n ++ ⟨.extension d tg, b, f⟩ :: t) i = some (schema d) := by
        intro i h1 h2
        rw [show i = n.length by omega]
        simp [dirAt, dirOf]
      constructor <;> simp [Tile]
      · intro i h1 h2; exact ⟨_, here i h1 h2, rfl⟩
      · intro i h1 h2; exact ⟨_, here i h1 h2, rfl⟩
    obtain ⟨s', h1, h2⟩ := inv_inner hr hs h0 (t := t)
      (by simp) (fun r hr => he r (by simp [hr]))
    have hlen : n.length + 1 + t.length = (n ++ ⟨.extension d tg, b, f⟩ :: t).length := by
      simp; omega
    rw [hlen] at h2
    simp only [outer, Nat.zero_add, h1, Option.map_some]
    refine ⟨_, _, rfl, good_close h2, ?_⟩
    simp [close]

end Verif.ModifierGroups
