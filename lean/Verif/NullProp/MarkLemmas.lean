import Verif.NullProp.ShowLemmas

/-!
# What reading a value leaves in the part

`Marks` describes the objects and lists added and the ids recorded for propagation; `Showing` says
what a value will be serialised to once the recorded ids have been made inaccessible.
-/
namespace Verif.NullProp

open Verif.DefaultMerge (Key Field)
open Verif.OpChecks (sortBy insertBy sortBy_perm)

/-- The id is not one of an object or list added after `st`. -/
def OldId (st : Part) : VId → Prop
  | .field o _ _ => o.part ≠ st.id ∨ o.ix < st.data.objs.length
  | .index l _ _ => l.part ≠ st.id ∨ l.ix < st.data.lists.length
  | .packed _ _ => True

/-- The id is one of an object or list added between `st` and `st'`. -/
def Inner (st st' : Part) : VId → Prop
  | .field o _ n => n = true ∧ o.part = st.id ∧ st.data.objs.length ≤ o.ix ∧ o.ix < st'.data.objs.length
  | .index l _ n => n = true ∧ l.part = st.id ∧ st.data.lists.length ≤ l.ix ∧ l.ix < st'.data.lists.length
  | .packed _ _ => False

theorem Inner.not_old {st st' : Part} {id : VId} (h : Inner st st' id) : ¬ OldId st id := by
  cases id <;> simp only [Inner, OldId] at * <;> omega

/-- `st'` has everything `st` has. -/
structure Ext (st st' : Part) : Prop where
  id : st'.id = st.id
  objs : st.data.objs <+: st'.data.objs
  lists : st.data.lists <+: st'.data.lists
  updates : st'.updates = st.updates

theorem Ext.refl (st : Part) : Ext st st := ⟨rfl, List.prefix_refl _, List.prefix_refl _, rfl⟩

theorem Ext.trans {a b c : Part} (h : Ext a b) (h' : Ext b c) : Ext a c :=
  ⟨h'.id.trans h.id, h.objs.trans h'.objs, h.lists.trans h'.lists, h'.updates.trans h.updates⟩

theorem Ext.olen {a b : Part} (h : Ext a b) : a.data.objs.length ≤ b.data.objs.length := h.objs.length_le
theorem Ext.llen {a b : Part} (h : Ext a b) : a.data.lists.length ≤ b.data.lists.length := h.lists.length_le

theorem OldId.mono {a b : Part} {id : VId} (h : Ext a b) (ho : OldId a id) : OldId b id := by
  have h1 := h.id
  have h2 := h.olen
  have h3 := h.llen
  cases id <;> simp only [OldId] at * <;> (try rw [h1]) <;> omega

theorem Inner.left {a b c : Part} {id : VId} (h : Ext b c) (hi : Inner a b id) : Inner a c id := by
  have h2 := h.olen
  have h3 := h.llen
  cases id with
  | field o k n => exact ⟨hi.1, hi.2.1, hi.2.2.1, Nat.lt_of_lt_of_le hi.2.2.2 h2⟩
  | index l k n => exact ⟨hi.1, hi.2.1, hi.2.2.1, Nat.lt_of_lt_of_le hi.2.2.2 h3⟩
  | packed _ _ => exact hi.elim

theorem Inner.right {a b c : Part} {id : VId} (h : Ext a b) (hi : Inner b c id) : Inner a c id := by
  have h1 := h.id
  have h2 := h.olen
  have h3 := h.llen
  cases id with
  | field o k n => exact ⟨hi.1, hi.2.1.trans h1, Nat.le_trans h2 hi.2.2.1, hi.2.2.2⟩
  | index l k n => exact ⟨hi.1, hi.2.1.trans h1, Nat.le_trans h3 hi.2.2.1, hi.2.2.2⟩
  | packed _ _ => exact hi.elim

/-- The id a null is propagated to from a path. -/
def esc (par loc : List VId) : Option VId := (loc.find? VId.nullable).or (par.find? VId.nullable)

theorem esc_mem {par loc : List VId} {id : VId} (h : esc par loc = some id) : id ∈ loc ++ par := by
  unfold esc at h
  cases hl : loc.find? VId.nullable with
  | some x =>
    rw [hl] at h
    have : x = id := by simpa using h
    subst this
    exact List.mem_append_left _ (List.mem_of_find?_eq_some hl)
  | none =>
    rw [hl] at h
    have : par.find? VId.nullable = some id := by simpa using h
    exact List.mem_append_right _ (List.mem_of_find?_eq_some this)

theorem esc_nullable {par loc : List VId} {id : VId} (h : id.nullable = true) : esc par (id :: loc) = some id := by
  unfold esc
  simp [List.find?, h]

theorem esc_required {par loc : List VId} {id : VId} (h : id.nullable = false) : esc par (id :: loc) = esc par loc := by
  unfold esc
  simp [List.find?, h]

/-- An index in a list is within its bounds. -/
def Ranged (st : Part) : VId → Prop
  | .index l i _ => ∃ vs, st.data.lists[l.ix]? = some vs ∧ i < vs.length
  | _ => True

theorem Ranged.mono {a b : Part} {id : VId} (h : Ext a b) (hr : Ranged a id) : Ranged b id := by
  cases id with
  | index l i n =>
    obtain ⟨vs, h1, h2⟩ := hr
    obtain ⟨t, ht⟩ := h.lists
    refine ⟨vs, ?_, h2⟩
    rw [← ht, List.getElem?_append_left (List.getElem?_eq_some_iff.1 h1).1]
    exact h1
  | field _ _ _ => trivial
  | packed _ _ => trivial

/-- What is recorded between `st` and `st'`: `own` are the new ids of `propagated_null_at`, each in a
new object or list, or one of the links `L`, or the id `e` a null escapes to; `b` says that one
escapes. -/
structure Marks (L : VId → Prop) (e : Option VId) (st st' : Part) (b : Bool) (own : List VId) : Prop where
  ext : Ext st st'
  nullAt : st'.nullAt = st.nullAt ++ own
  root : st'.toRoot = (st.toRoot || (b && e.isNone))
  inner : ∀ id ∈ own, (Inner st st' id ∧ Ranged st' id) ∨ L id ∨ (b = true ∧ e = some id)
  out : b = true → ∀ id, e = some id → id ∈ own

/-- Nothing is recorded. -/
structure Quiet (st st' : Part) : Prop where
  ext : Ext st st'
  nullAt : st'.nullAt = st.nullAt
  root : st'.toRoot = st.toRoot

theorem Quiet.refl (st : Part) : Quiet st st := ⟨.refl _, rfl, rfl⟩

theorem Quiet.trans {a b c : Part} (h : Quiet a b) (h' : Quiet b c) : Quiet a c :=
  ⟨h.ext.trans h'.ext, h'.nullAt.trans h.nullAt, h'.root.trans h.root⟩

theorem Quiet.marks {L : VId → Prop} {e : Option VId} {st st' : Part} (h : Quiet st st') : Marks L e st st' false [] :=
  ⟨h.ext, by simp [h.nullAt], by simp [h.root], by simp, by simp⟩

theorem Marks.mono {L L' : VId → Prop} {e : Option VId} {st st' : Part} {b : Bool} {own : List VId}
    (h : Marks L e st st' b own) (hL : ∀ id, L id → L' id) : Marks L' e st st' b own :=
  ⟨h.ext, h.nullAt, h.root, fun id hid => by
    rcases h.inner id hid with h | h | h
    · exact .inl h
    · exact .inr (.inl (hL _ h))
    · exact .inr (.inr h), h.out⟩

theorem Marks.trans {L : VId → Prop} {e : Option VId} {a b c : Part} {x y : Bool} {own own' : List VId}
    (h : Marks L e a b x own) (h' : Marks L e b c y own') : Marks L e a c (x || y) (own ++ own') := by
  refine ⟨h.ext.trans h'.ext, ?_, ?_, ?_, ?_⟩
  · rw [h'.nullAt, h.nullAt, List.append_assoc]
  · rw [h'.root, h.root]
    cases a.toRoot <;> cases x <;> cases y <;> cases e.isNone <;> rfl
  · intro id hid
    rcases List.mem_append.1 hid with hid | hid
    · rcases h.inner id hid with h1 | h1 | h1
      · exact .inl ⟨h1.1.left h'.ext, h1.2.mono h'.ext⟩
      · exact .inr (.inl h1)
      · exact .inr (.inr ⟨by simp [h1.1], h1.2⟩)
    · rcases h'.inner id hid with h1 | h1 | h1
      · exact .inl ⟨h1.1.right h.ext, h1.2⟩
      · exact .inr (.inl h1)
      · exact .inr (.inr ⟨by simp [h1.1], h1.2⟩)
  · intro hb id hid
    rcases (Bool.or_eq_true_iff.1 hb : x = true ∨ y = true) with hb | hb
    · exact List.mem_append_left _ (h.out hb id hid)
    · exact List.mem_append_right _ (h'.out hb id hid)

/-- Propagating from a path. -/
theorem propagate_marks (L : VId → Prop) (st : Part) (par loc : List VId) :
    ∃ own, Marks L (esc par loc) st (st.propagate par loc) true own := by
  unfold Part.propagate Part.propagateParent esc
  cases hl : loc.find? VId.nullable with
  | some x =>
    exact ⟨[x], ⟨rfl, List.prefix_refl _, List.prefix_refl _, rfl⟩, rfl, by simp, by simp, by simp⟩
  | none =>
    cases hp : par.find? VId.nullable with
    | some x =>
      exact ⟨[x], ⟨rfl, List.prefix_refl _, List.prefix_refl _, rfl⟩, rfl, by simp, by simp, by simp⟩
    | none =>
      exact ⟨[], ⟨rfl, List.prefix_refl _, List.prefix_refl _, rfl⟩, by simp, by simp, by simp, by simp⟩

theorem propagate_data (st : Part) (par loc : List VId) : (st.propagate par loc).data = st.data := by
  unfold Part.propagate Part.propagateParent
  cases loc.find? VId.nullable with
  | some x => rfl
  | none => cases par.find? VId.nullable <;> rfl

theorem reserveObj_quiet (st : Part) : Quiet st st.reserveObj :=
  ⟨⟨rfl, List.prefix_append _ _, List.prefix_refl _, rfl⟩, rfl, rfl⟩

theorem reserveList_quiet (st : Part) : Quiet st st.reserveList :=
  ⟨⟨rfl, List.prefix_refl _, List.prefix_append _ _, rfl⟩, rfl, rfl⟩

theorem pushInacc_quiet (st : Part) (v : Val) : Quiet st (st.pushInacc v) :=
  ⟨⟨rfl, List.prefix_refl _, List.prefix_refl _, rfl⟩, rfl, rfl⟩

/-! ## Showing -/

/-- The response `h` has the objects and lists of the part added after `st`, where the ids in `M` have
been made inaccessible. -/
structure Realises (h : List Data) (M : List VId) (st st' : Part) : Prop where
  objs : ∀ (i : Nat) F, st.data.objs.length ≤ i → st'.data.objs[i]? = some F →
    (∀ k, .field ⟨st'.id, i⟩ k true ∈ M → k ∈ F.map (·.key)) → ∃ c : Key → Id,
    getObj h ⟨st'.id, i⟩ = some (F.map fun f =>
      ⟨f.key, if .field ⟨st'.id, i⟩ f.key true ∈ M then .inacc (c f.key) else f.value⟩)
  lists : ∀ (i : Nat) vs, st.data.lists.length ≤ i → st'.data.lists[i]? = some vs → ∃ c : Nat → Id,
    getList h ⟨st'.id, i⟩ = some (vs.mapIdx fun n v =>
      if .index ⟨st'.id, i⟩ n true ∈ M then .inacc (c n) else v)

/-- Once the ids `own` are inaccessible, `v` is serialised to `o`. -/
def Showing (st st' : Part) (own : List VId) (v : Val) (o : Out) : Prop :=
  ∀ h M, Realises h M st st' → (∀ id, Inner st st' id → (id ∈ M ↔ id ∈ own)) → Shows h v o

/-- The objects and lists added between `st1` and `st1'` are among the ones between `st` and `st'`. -/
structure Sub (st1 st1' st st' : Part) : Prop where
  id : st'.id = st1'.id
  id1 : st1.id = st.id
  olo : st.data.objs.length ≤ st1.data.objs.length
  llo : st.data.lists.length ≤ st1.data.lists.length
  ohi : st1'.data.objs.length ≤ st'.data.objs.length
  lhi : st1'.data.lists.length ≤ st'.data.lists.length
  objs : ∀ i : Nat, st1.data.objs.length ≤ i → i < st1'.data.objs.length → st'.data.objs[i]? = st1'.data.objs[i]?
  lists : ∀ i : Nat, st1.data.lists.length ≤ i → i < st1'.data.lists.length → st'.data.lists[i]? = st1'.data.lists[i]?

theorem Showing.mono {st1 st1' st st' : Part} {own1 own : List VId} {v : Val} {o : Out}
    (h : Showing st1 st1' own1 v o) (hs : Sub st1 st1' st st')
    (ho : ∀ id, Inner st1 st1' id → (id ∈ own ↔ id ∈ own1)) : Showing st st' own v o := by
  intro hp M hr hM
  apply h hp M
  · constructor
    · intro i F hi hF hk
      have hlt : i < st1'.data.objs.length := (List.getElem?_eq_some_iff.1 hF).1
      obtain ⟨c, hc⟩ := hr.objs i F (Nat.le_trans hs.olo hi) (by rw [hs.objs i hi hlt]; exact hF)
        (by rw [hs.id]; exact hk)
      rw [hs.id] at hc
      exact ⟨c, hc⟩
    · intro i vs hi hF
      have hlt : i < st1'.data.lists.length := (List.getElem?_eq_some_iff.1 hF).1
      obtain ⟨c, hc⟩ := hr.lists i vs (Nat.le_trans hs.llo hi) (by rw [hs.lists i hi hlt]; exact hF)
      rw [hs.id] at hc
      exact ⟨c, hc⟩
  · intro id hid
    rw [← ho id hid]
    apply hM
    have h1 := hs.id1
    have h2 := hs.olo
    have h3 := hs.llo
    have h4 := hs.ohi
    have h5 := hs.lhi
    cases id with
    | field o k n => exact ⟨hid.1, hid.2.1.trans h1, Nat.le_trans h2 hid.2.2.1, Nat.lt_of_lt_of_le hid.2.2.2 h4⟩
    | index l k n => exact ⟨hid.1, hid.2.1.trans h1, Nat.le_trans h3 hid.2.2.1, Nat.lt_of_lt_of_le hid.2.2.2 h5⟩
    | packed _ _ => exact hid.elim

theorem sub_of_ext {a b c d : Part} (h1 : Ext a b) (_ : Ext b c) (h3 : Ext c d) : Sub b c a d :=
  ⟨h3.id, h1.id, h1.olen, h1.llen, h3.olen, h3.llen,
    fun i _ hi => by
      obtain ⟨t, ht⟩ := h3.objs
      rw [← ht, List.getElem?_append_left hi],
    fun i _ hi => by
      obtain ⟨t, ht⟩ := h3.lists
      rw [← ht, List.getElem?_append_left hi]⟩

/-- A value read at a position: what is recorded and what it will be serialised to, compared to what
it should be, `c`. -/
def ValOk (e : Option VId) (st st' : Part) (req : Bool) (c : Option Out) (v : Val) : Prop :=
  ∃ own b, Marks (fun _ => False) e st st' b own ∧ (b = true → c = orNull req) ∧
    (b = false → ∃ o, c = some o ∧ Showing st st' own v o)

/-- The value of a link: null if the link is recorded. -/
def LinkOk (st st' : Part) (own : List VId) (b : Bool) (l : VId) (c : Option Out) (v : Val) : Prop :=
  match c with
  | none => b = true
  | some o => (l ∈ own → o = .null) ∧ (l ∉ own → Showing st st' own v o)

theorem ValOk.before {e : Option VId} {st st0 st' : Part} {req : Bool} {c : Option Out} {v : Val}
    (hq : Quiet st st0) (h : ValOk e st0 st' req c v) (he : ∀ id, e = some id → OldId st id) : ValOk e st st' req c v := by
  obtain ⟨own, b, hm, h1, h2⟩ := h
  refine ⟨own, b, by simpa using hq.marks.trans hm, h1, ?_⟩
  intro hb
  obtain ⟨o, ho, hs⟩ := h2 hb
  exact ⟨o, ho, hs.mono (sub_of_ext hq.ext hm.ext (.refl _)) fun _ _ => Iff.rfl⟩

/-- A child seen from its parent. -/
theorem ValOk.link {par loc : List VId} {l l' : VId} {st st' : Part} {req : Bool} {c : Option Out} {v : Val}
    (h : ValOk (esc par (l' :: loc)) st st' req c v) (hn : l'.nullable = !req) (hl : req = false → l' = l)
    (ho : OldId st l) (hL : ∀ id, esc par loc = some id → id ≠ l) :
    ∃ own b, Marks (· = l) (esc par loc) st st' b own ∧ LinkOk st st' own b l c v ∧ (b = true → c = none) := by
  obtain ⟨own, b, hm, h1, h2⟩ := h
  cases req with
  | false =>
    have hll := hl rfl
    subst hll
    rw [esc_nullable hn] at hm
    refine ⟨own, false, ⟨hm.ext, hm.nullAt, ?_, ?_, by simp⟩, ?_, by simp⟩
    · rw [hm.root]
      simp
    · intro id hid
      rcases hm.inner id hid with h | h | h
      · exact .inl h
      · exact h.elim
      · exact .inr (.inl (Option.some.inj h.2).symm)
    · unfold LinkOk
      cases b with
      | true =>
        rw [h1 rfl]
        refine ⟨fun _ => rfl, fun hno => absurd (hm.out rfl _ rfl) hno⟩
      | false =>
        obtain ⟨o, hc, hs⟩ := h2 rfl
        rw [hc]
        refine ⟨fun hin => ?_, fun _ => hs⟩
        rcases hm.inner _ hin with h | h | h
        · exact absurd ho h.1.not_old
        · exact h.elim
        · exact absurd h.1 (by simp)
  | true =>
    rw [esc_required hn] at hm
    refine ⟨own, b, hm.mono fun _ h => h.elim, ?_, ?_⟩
    · unfold LinkOk
      cases b with
      | true => rw [h1 rfl]; rfl
      | false =>
        obtain ⟨o, hc, hs⟩ := h2 rfl
        rw [hc]
        refine ⟨fun hin => ?_, fun _ => hs⟩
        rcases hm.inner _ hin with h | h | h
        · exact absurd ho h.1.not_old
        · exact h.elim
        · exact absurd h.1 (by simp)
    · intro hb
      rw [h1 hb]
      rfl

theorem Marks.not_mem {L : VId → Prop} {e : Option VId} {st st' : Part} {b : Bool} {own : List VId} {id : VId}
    (hm : Marks L e st st' b own) (h1 : ¬ Inner st st' id) (h2 : ¬ L id) (h3 : e ≠ some id) : id ∉ own := by
  intro h
  rcases hm.inner id h with h | h | h
  · exact h1 h.1
  · exact h2 h
  · exact h3 h.2

theorem inner_disjoint {a b c : Part} {id : VId} (_ : Ext a b) (h1 : Inner a b id) (h2 : Inner b c id) : False := by
  cases id <;> simp only [Inner] at * <;> omega

theorem LinkOk.right {L : VId → Prop} {e : Option VId} {a b c : Part} {x y : Bool} {own own' : List VId} {l : VId}
    {co : Option Out} {v : Val} (h : LinkOk a b own x l co v) (hab : Ext a b) (hm : Marks L e b c y own')
    (hl : ¬ L l) (hlo : OldId a l) (hle : e ≠ some l) (hL : ∀ id, L id → OldId a id)
    (he : ∀ id, e = some id → OldId a id) : LinkOk a c (own ++ own') (x || y) l co v := by
  unfold LinkOk at *
  cases co with
  | none => simp only at h ⊢; simp [h]
  | some o =>
    simp only at h ⊢
    have hn : l ∉ own' := hm.not_mem (fun hi => hi.not_old (hlo.mono hab)) hl hle
    refine ⟨fun hin => h.1 ?_, fun hno => (h.2 ?_).mono (sub_of_ext (.refl _) hab hm.ext) ?_⟩
    · exact (List.mem_append.1 hin).resolve_right hn
    · exact fun hin => hno (List.mem_append_left _ hin)
    · intro id hid
      have : id ∉ own' := hm.not_mem (fun hi => inner_disjoint hab hid hi) (fun hL' => hid.not_old (hL _ hL'))
        (fun h => hid.not_old (he _ h))
      simp [this]

theorem LinkOk.left {L : VId → Prop} {e : Option VId} {a b c : Part} {x y : Bool} {own own' : List VId} {l : VId}
    {co : Option Out} {v : Val} (h : LinkOk b c own' y l co v) (hm : Marks L e a b x own) (hbc : Ext b c)
    (hl : ¬ L l) (hlo : OldId a l) (hle : e ≠ some l) (hL : ∀ id, L id → OldId a id)
    (he : ∀ id, e = some id → OldId a id) : LinkOk a c (own ++ own') (x || y) l co v := by
  unfold LinkOk at *
  cases co with
  | none => simp only at h ⊢; simp [h]
  | some o =>
    simp only at h ⊢
    have hn : l ∉ own := hm.not_mem (fun hi => hi.not_old hlo) hl hle
    refine ⟨fun hin => h.1 ?_, fun hno => (h.2 ?_).mono (sub_of_ext hm.ext hbc (.refl _)) ?_⟩
    · exact (List.mem_append.1 hin).resolve_left hn
    · exact fun hin => hno (List.mem_append_right _ hin)
    · intro id hid
      have : id ∉ own := hm.not_mem (fun hi => inner_disjoint hm.ext hi hid)
        (fun hL' => hid.not_old ((hL _ hL').mono hm.ext)) (fun h => hid.not_old ((he _ h).mono hm.ext))
      simp [this]

end Verif.NullProp
