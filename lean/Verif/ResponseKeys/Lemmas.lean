import Verif.ResponseKeys.Model
/-!
# Response keys of subgraph queries: lemmas
-/
namespace Verif.ResponseKeys

/-- The response key of a query field. -/
def St.key (st : St) (id : Nat) : Option Nat := (st.keys[id]?).join

/-- The rename of a query field. -/
def St.renamed (st : St) (id : Nat) : Option Nat := (st.subgraphKeys[id]?).join

theorem St.subgraphKey_eq (st : St) (id : Nat) : st.subgraphKey id = (st.renamed id).or (st.key id) := rfl

theorem join_set (l : List (Option Nat)) (i j : Nat) (k : Nat) :
    ((l.set i (some k))[j]?).join = if i = j ∧ i < l.length then some k else (l[j]?).join := by
  rw [List.getElem?_set]
  by_cases h : i = j
  · subst h
    by_cases hl : i < l.length
    · simp [hl]
    · simp [hl, List.getElem?_eq_none (Nat.le_of_not_lt hl)]
  · simp [h]

/-! ## The interner -/

theorem getKey_some {names : List (List Char)} {s : List Char} {k : Nat} (h : getKey names s = some k) :
    k < names.length ∧ names[k]? = some s := by
  unfold getKey at h
  rw [List.findIdx?_eq_some_iff_getElem] at h
  obtain ⟨hlt, h1, _⟩ := h
  simp only [decide_eq_true_eq] at h1
  exact ⟨hlt, by rw [List.getElem?_eq_getElem hlt, h1]⟩

theorem getKey_none {names : List (List Char)} {s : List Char} : getKey names s = none ↔ s ∉ names := by
  unfold getKey
  rw [List.findIdx?_eq_none_iff]
  simp only [decide_eq_false_iff_not]
  constructor
  · intro h hm; exact h s hm rfl
  · intro h x hx e; exact h (e ▸ hx)

theorem freshLoop_some {names : List (List Char)} {d : Definition} {left i : Nat} {s : List Char}
    (h : freshLoop names d left i = some s) : s ∉ names := by
  induction left generalizing i with
  | zero => cases h
  | succ n ih =>
    unfold freshLoop at h
    split at h
    · rename_i hc
      cases h
      rw [Option.isNone_iff_eq_none, getKey_none] at hc
      exact hc
    · exact ih h

theorem freshLoop_none {names : List (List Char)} {d : Definition} {left i : Nat}
    (h : freshLoop names d left i = none) : ∀ j, i ≤ j → j < i + left → candidate d j ∈ names := by
  induction left generalizing i with
  | zero => intro j h1 h2; omega
  | succ n ih =>
    unfold freshLoop at h
    split at h
    · cases h
    · rename_i hc
      intro j h1 h2
      by_cases hj : j = i
      · subst hj
        apply Classical.byContradiction
        intro hn
        rw [← getKey_none] at hn
        exact hc (by rw [hn]; rfl)
      · exact ih h j (by omega) (by omega)

/-! ## The invariant -/

/-- `n0` is the number of keys of the operation as the client wrote it. -/
structure Inv (n0 : Nat) (st : St) : Prop where
  le : n0 ≤ st.names.length
  nodup : st.names.Nodup
  rkeys : (st.renames.map (·.1)).Nodup
  rvals : (st.renames.map (·.2)).Nodup
  rrange : ∀ p ∈ st.renames, n0 ≤ p.2 ∧ p.2 < st.names.length
  krange : ∀ id k, st.key id = some k → k < st.names.length
  sub : ∀ id k, st.renamed id = some k → (∃ rk, (rk, k) ∈ st.renames) ∧ (st.key id).isSome = true

theorem mem_of_lookup {α β : Type} [BEq α] [LawfulBEq α] {l : List (α × β)} {a : α} {b : β} (h : l.lookup a = some b) :
    (a, b) ∈ l := by
  induction l with
  | nil => cases h
  | cons x xs ih =>
    obtain ⟨x1, x2⟩ := x
    rw [List.lookup_cons] at h
    by_cases hx : a == x1
    · simp only [hx] at h
      cases h
      rw [eq_of_beq hx]
      exact List.mem_cons_self
    · have hx' : (a == x1) = false := by simpa using hx
      simp only [hx'] at h
      exact List.mem_cons_of_mem _ (ih h)

theorem not_mem_of_lookup {α β : Type} [BEq α] [LawfulBEq α] {l : List (α × β)} {a : α} (h : l.lookup a = none) :
    a ∉ l.map (·.1) := by
  induction l with
  | nil => simp
  | cons x xs ih =>
    obtain ⟨x1, x2⟩ := x
    rw [List.lookup_cons] at h
    by_cases hx : a == x1
    · simp only [hx] at h
      cases h
    · have hx' : (a == x1) = false := by simpa using hx
      simp only [hx'] at h
      rw [List.map_cons, List.mem_cons]
      rintro (e | e)
      · simp only at e
        subst e
        simp at hx'
      · exact ih h e

/-- What generating a key does. -/
structure Gen (n0 : Nat) (st : St) (setKeys : List Nat) (rename : Option RenameKey) (st' : St) (k : Nat) : Prop where
  inv : Inv n0 st'
  keys : st'.keys = st.keys
  subs : st'.subgraphKeys = st.subgraphKeys
  names : st.names <+: st'.names
  lt : k < st'.names.length
  mono : ∀ p ∈ st.renames, p ∈ st'.renames
  forRename : ∀ rk, rename = some rk → (rk, k) ∈ st'.renames
  forExtra : rename = none → (∀ x ∈ setKeys, x < st.names.length) → k ∉ setKeys

theorem intern_gen {n0 : Nat} {st : St} {setKeys : List Nat} {rename : Option RenameKey} {s : List Char}
    (hi : Inv n0 st) (hs : s ∉ st.names) (hr : ∀ rk, rename = some rk → rk ∉ st.renames.map (·.1)) :
    Gen n0 st setKeys rename (intern st rename s).1 (intern st rename s).2 := by
  have hg : getOrIntern st.names s = (st.names ++ [s], st.names.length) := by
    unfold getOrIntern
    rw [getKey_none.2 hs]
  have hle := hi.le
  have e1 : (intern st rename s).2 = st.names.length := by unfold intern; rw [hg]
  have e2 : (intern st rename s).1.names = st.names ++ [s] := by unfold intern; rw [hg]
  have e3 : (intern st rename s).1.keys = st.keys := rfl
  have e4 : (intern st rename s).1.subgraphKeys = st.subgraphKeys := rfl
  have e5 : (intern st rename s).1.renames = addRename st.renames rename st.names.length := by
    unfold intern; rw [hg]
  have hsub : ∀ p ∈ st.renames, p ∈ (intern st rename s).1.renames := by
    intro p hp
    rw [e5]
    cases rename with
    | none => exact hp
    | some rk => exact List.mem_cons_of_mem _ hp
  have hlen : (intern st rename s).1.names.length = st.names.length + 1 := by rw [e2]; simp
  refine ⟨⟨?_, ?_, ?_, ?_, ?_, ?_, ?_⟩, e3, e4, ?_, ?_, hsub, ?_, ?_⟩
  · omega
  · rw [e2]
    rw [List.nodup_append]
    refine ⟨hi.nodup, by simp, ?_⟩
    intro a ha b hb
    rw [List.mem_singleton] at hb
    subst hb
    rintro rfl
    exact hs ha
  · rw [e5]
    cases rename with
    | none => exact hi.rkeys
    | some rk => exact List.nodup_cons.2 ⟨hr rk rfl, hi.rkeys⟩
  · rw [e5]
    cases rename with
    | none => exact hi.rvals
    | some rk =>
      refine List.nodup_cons.2 ⟨?_, hi.rvals⟩
      intro hm
      obtain ⟨p, hp, he⟩ := List.mem_map.1 hm
      have := (hi.rrange p hp).2
      simp only at he
      omega
  · intro p hp
    rw [hlen]
    rw [e5] at hp
    cases rename with
    | none =>
      have := hi.rrange p hp
      omega
    | some rk =>
      rcases List.mem_cons.1 hp with rfl | hp
      · simp only; omega
      · have := hi.rrange p hp
        omega
  · intro id k hk
    have := hi.krange id k hk
    omega
  · intro id k hk
    obtain ⟨⟨rk, h1⟩, h2⟩ := hi.sub id k hk
    exact ⟨⟨rk, hsub _ h1⟩, h2⟩
  · rw [e2]; exact List.prefix_append _ _
  · rw [e1, hlen]; omega
  · intro rk hrk
    rw [e5, e1, hrk]
    exact List.mem_cons_self
  · intro _ hx hm
    have := hx _ hm
    rw [e1] at this
    omega

theorem gen_spec {n0 : Nat} {st : St} {setKeys : List Nat} {rename : Option RenameKey} {d : Definition} {st' : St} {k : Nat}
    (hi : Inv n0 st) (h : generateNewKey st setKeys rename d = some (st', k)) : Gen n0 st setKeys rename st' k := by
  unfold generateNewKey at h
  split at h
  · rename_i key hl
    cases h
    obtain ⟨rk, hrk, hl⟩ := Option.bind_eq_some_iff.1 hl
    have hm := mem_of_lookup hl
    refine ⟨hi, rfl, rfl, List.prefix_refl _, (hi.rrange _ hm).2, fun _ hp => hp, ?_, ?_⟩
    · intro rk' h'
      rw [hrk] at h'
      cases h'
      exact hm
    · intro hn; rw [hrk] at hn; cases hn
  · rename_i hl
    have hr : ∀ rk, rename = some rk → rk ∉ st.renames.map (·.1) := by
      intro rk hrk
      subst hrk
      exact not_mem_of_lookup hl
    split at h
    · rename_i hn
      simp only [Option.some.injEq] at h
      have := intern_gen (setKeys := setKeys) hi (getKey_none.1 hn) hr
      rw [h] at this
      exact this
    · rename_i key hk
      split at h
      · rename_i hc
        cases h
        refine ⟨hi, rfl, rfl, List.prefix_refl _, (getKey_some hk).1, fun _ hp => hp, ?_, fun _ _ => hc.2⟩
        intro rk hrk
        rw [hrk] at hc
        cases hc.1
      · obtain ⟨s, hs, he⟩ := Option.map_eq_some_iff.1 h
        have := intern_gen (setKeys := setKeys) hi (freshLoop_some hs) hr
        rw [he] at this
        exact this

/-! ## The first loop -/

/-- What is known of a field of the selection set before and after the first loop. -/
structure Renamed (n0 : Nat) (defs : Nat → Option Definition) (parent : Parent) (st : St) (l0 : List Nat)
    (done : List SetField) (acc : St × List Nat) : Prop where
  inv : Inv n0 acc.1
  keys : acc.1.keys = st.keys
  names : st.names <+: acc.1.names
  slen : acc.1.subgraphKeys.length = st.subgraphKeys.length
  mono : ∀ x ∈ l0, x ∈ acc.2
  range : ∀ x ∈ acc.2, x < acc.1.names.length
  out : ∀ id, (∀ f ∈ done, f.2 ≠ id) → acc.1.renamed id = st.renamed id
  rmono : ∀ p ∈ st.renames, p ∈ acc.1.renames
  change : ∀ id k, acc.1.renamed id = some k → st.renamed id = some k ∨
    (k ∈ acc.2 ∧ ∃ f ∈ done, f.2 = id ∧ ∃ key d rk, st.key id = some key ∧ defs id = some d ∧
      renameFor st.names parent f.1 key d = some rk ∧ (rk, k) ∈ acc.1.renames)
  hit : ∀ f ∈ done, f.2 < st.subgraphKeys.length → ∀ key d rk, st.key f.2 = some key → defs f.2 = some d →
    renameFor st.names parent f.1 key d = some rk → (acc.1.renamed f.2).isSome = true

theorem renameFor_names {names names' : List (List Char)} (h : names <+: names') {parent : Parent} {g k : Nat} {d : Definition}
    (hk : k < names.length) : renameFor names' parent g k d = renameFor names parent g k d := by
  obtain ⟨t, rfl⟩ := h
  unfold renameFor
  rw [List.getElem?_append_left hk]

theorem renameStep_spec {n0 : Nat} {defs : Nat → Option Definition} {parent : Parent} {st : St} {l0 : List Nat}
    {done : List SetField} {acc acc' : St × List Nat} {f : SetField} (hst : Inv n0 st)
    (hr : Renamed n0 defs parent st l0 done acc) (h : renameStep defs parent acc f = some acc') :
    Renamed n0 defs parent st l0 (done ++ [f]) acc' := by
  have hkey : ∀ id, acc.1.key id = st.key id := fun id => by unfold St.key; rw [hr.keys]
  have hkeep : (∀ key d rk, st.key f.2 = some key → defs f.2 = some d →
      renameFor st.names parent f.1 key d = some rk → False) → Renamed n0 defs parent st l0 (done ++ [f]) acc := by
    intro hno
    refine ⟨hr.inv, hr.keys, hr.names, hr.slen, hr.mono, hr.range, ?_, hr.rmono, ?_, ?_⟩
    · intro id hid
      exact hr.out id fun g hg => hid g (List.mem_append_left _ hg)
    · intro id k hk
      rcases hr.change id k hk with h | ⟨h1, g, hg, h2⟩
      · exact Or.inl h
      · exact Or.inr ⟨h1, g, List.mem_append_left _ hg, h2⟩
    · intro g hg hlt key d rk h1 h2 h3
      rcases List.mem_append.1 hg with hg | hg
      · exact hr.hit g hg hlt key d rk h1 h2 h3
      · rw [List.mem_singleton] at hg
        subst hg
        exact absurd (hno key d rk h1 h2 h3) id
  unfold renameStep at h
  simp only at h
  split at h
  · rename_i key d hk hd
    have hk' : st.key f.2 = some key := by rw [← hkey]; exact hk
    have hklt := hst.krange _ _ hk'
    split at h
    · rename_i hn
      cases h
      refine hkeep fun key' d' rk h1 h2 h3 => ?_
      rw [hk'] at h1
      rw [hd] at h2
      cases h1
      cases h2
      rw [renameFor_names hr.names hklt, h3] at hn
      cases hn
    · rename_i rk hrk
      obtain ⟨⟨st', k⟩, hg, he⟩ := Option.map_eq_some_iff.1 h
      have hgen := gen_spec hr.inv hg
      simp only at he
      subst he
      have hrk' : renameFor st.names parent f.1 key d = some rk := by
        rw [← renameFor_names hr.names hklt]; exact hrk
      have hren : ∀ id, ({ st' with subgraphKeys := st'.subgraphKeys.set f.2 (some k) } : St).renamed id =
          if f.2 = id ∧ f.2 < st.subgraphKeys.length then some k else acc.1.renamed id := by
        intro id
        unfold St.renamed
        simp only
        rw [join_set, hgen.subs, hr.slen]
      have hkey' : ∀ id, ({ st' with subgraphKeys := st'.subgraphKeys.set f.2 (some k) } : St).key id = st.key id := by
        intro id
        rw [← hkey id]
        unfold St.key
        simp only
        rw [hgen.keys]
      have hmem := hgen.forRename rk rfl
      refine ⟨⟨hgen.inv.le, hgen.inv.nodup, hgen.inv.rkeys, hgen.inv.rvals, hgen.inv.rrange, ?_, ?_⟩, ?_, ?_, ?_, ?_, ?_, ?_, ?_, ?_, ?_⟩
      · intro id k' hk2
        exact hgen.inv.krange id k' hk2
      · intro id k' hk2
        rw [hkey']
        rw [hren] at hk2
        split at hk2
        · rename_i hc
          cases hk2
          refine ⟨⟨rk, hmem⟩, ?_⟩
          rw [← hc.1, hk']
          rfl
        · obtain ⟨⟨rk', h1⟩, h2⟩ := hr.inv.sub id k' hk2
          exact ⟨⟨rk', hgen.mono _ h1⟩, by rw [← hkey]; exact h2⟩
      · exact hgen.keys.trans hr.keys
      · exact hr.names.trans hgen.names
      · simp only [List.length_set]
        rw [hgen.subs, hr.slen]
      · intro x hx
        exact List.mem_append_left _ (hr.mono x hx)
      · intro x hx
        rcases List.mem_append.1 hx with hx | hx
        · exact Nat.lt_of_lt_of_le (hr.range x hx) hgen.names.length_le
        · rw [List.mem_singleton] at hx
          subst hx
          exact hgen.lt
      · intro id hid
        rw [hren, if_neg]
        · exact hr.out id fun g hg => hid g (List.mem_append_left _ hg)
        · intro hc
          exact hid f (by simp) hc.1
      · intro p hp
        exact hgen.mono p (hr.rmono p hp)
      · intro id k' hk2
        rw [hren] at hk2
        split at hk2
        · rename_i hc
          cases hk2
          exact Or.inr ⟨by simp, f, by simp, hc.1, key, d, rk, hc.1 ▸ hk', hc.1 ▸ hd, hrk', hmem⟩
        · rcases hr.change id k' hk2 with h | ⟨h1, g, hg, h2, key', d', rk', h3, h4, h5, h6⟩
          · exact Or.inl h
          · exact Or.inr ⟨List.mem_append_left _ h1, g, List.mem_append_left _ hg, h2, key', d', rk', h3, h4, h5, hgen.mono _ h6⟩
      · intro g hg hlt key' d' rk' h1 h2 h3
        rw [hren]
        split
        · rfl
        · rename_i hc
          rcases List.mem_append.1 hg with hg | hg
          · exact hr.hit g hg hlt key' d' rk' h1 h2 h3
          · rw [List.mem_singleton] at hg
            subst hg
            exact absurd ⟨rfl, hlt⟩ hc
  · rename_i hno
    cases h
    refine hkeep fun key d rk h1 h2 _ => ?_
    exact hno key d (by rw [← hkey] at h1; exact h1) h2

theorem renameLoop_spec {n0 : Nat} {defs : Nat → Option Definition} {parent : Parent} {st : St} {l0 : List Nat}
    (hst : Inv n0 st) (set : List SetField) : ∀ (done : List SetField) (acc acc' : St × List Nat),
    Renamed n0 defs parent st l0 done acc → set.foldlM (renameStep defs parent) acc = some acc' →
    Renamed n0 defs parent st l0 (done ++ set) acc' := by
  induction set with
  | nil =>
    intro done acc acc' hr h
    cases h
    rw [List.append_nil]
    exact hr
  | cons f fs ih =>
    intro done acc acc' hr h
    rw [List.foldlM_cons] at h
    obtain ⟨mid, h1, h2⟩ := Option.bind_eq_some_iff.1 h
    have := ih (done ++ [f]) mid acc' (renameStep_spec hst hr h1) h2
    rw [List.append_assoc] at this
    exact this

/-! ## The second loop -/

/-- What holds during the second loop, over the state `st` it starts from and its selection set.
`fresh` says that no field of the selection set was renamed before. -/
structure Extra (fresh : Prop) (n0 : Nat) (defs : Nat → Option Definition) (parent : Parent) (set : List SetField) (st : St)
    (done : List SetField) (acc : St × List Nat) : Prop where
  inv : Inv n0 acc.1
  subs : acc.1.subgraphKeys = st.subgraphKeys
  rens : acc.1.renames = st.renames
  names : st.names <+: acc.1.names
  klen : acc.1.keys.length = st.keys.length
  keep : ∀ id k, st.key id = some k → acc.1.key id = some k
  out : ∀ id, (∀ f ∈ done, f.2 ≠ id) → acc.1.key id = st.key id
  range : ∀ x ∈ acc.2, x < acc.1.names.length
  inKeys : ∀ f ∈ set, ∀ k, acc.1.key f.2 = some k → k ∈ acc.2
  inSubs : fresh → ∀ f ∈ set, ∀ k, acc.1.renamed f.2 = some k → k ∈ acc.2
  hit : ∀ f ∈ done, f.2 < st.keys.length → (defs f.2).isSome = true → (acc.1.key f.2).isSome = true

/-- No field of the selection set shares a key with the extra field `id`. -/
def Distinct (set : List SetField) (id : Nat) (st : St) : Prop :=
  ∀ k, st.key id = some k → ∀ g ∈ set, g.2 ≠ id → st.key g.2 ≠ some k ∧ st.renamed g.2 ≠ some k

/-- The field `id` cannot take part in the reuse of keys: the parent is not an interface with a field of that name,
or no other field of the selection set has that name. -/
def NoReuse (defs : Nat → Option Definition) (parent : Parent) (set : List SetField) (id : Nat) (d : Definition) : Prop :=
  (∀ l, parent.interfaceFields = some l → d.nameId ∉ l) ∨
  (∀ g ∈ set, g.2 ≠ id → ∀ d', defs g.2 = some d' → d'.nameId ≠ d.nameId)

theorem reuse_some {defs : Nat → Option Definition} {parent : Parent} {st : St} {set : List SetField} {d : Definition} {k : Nat}
    (h : reuse defs parent st set d = some k) :
    (∃ l, parent.interfaceFields = some l ∧ d.nameId ∈ l) ∧
    ∃ o ∈ set, st.key o.2 = some k ∧ ∃ d', defs o.2 = some d' ∧ d'.nameId = d.nameId := by
  unfold reuse at h
  split at h
  · rename_i hc
    constructor
    · cases hp : parent.interfaceFields with
      | none => rw [hp] at hc; cases hc
      | some l =>
        rw [hp] at hc
        exact ⟨l, rfl, by simpa using hc⟩
    · obtain ⟨o, ho, he⟩ := List.exists_of_findSome?_eq_some h
      refine ⟨o, ho, ?_⟩
      split at he
      · rename_i k' d' h1 h2
        split at he
        · rename_i hn
          cases he
          exact ⟨h1, d', h2, hn⟩
        · cases he
      · cases he
  · cases h

theorem extraStep_spec {fresh : Prop} {n0 : Nat} {defs : Nat → Option Definition} {parent : Parent} {set : List SetField} {st : St}
    {done : List SetField} {acc acc' : St × List Nat} {f : SetField}
    (hr : Extra fresh n0 defs parent set st done acc) (h : extraStep defs parent set acc f = some acc') :
    Extra fresh n0 defs parent set st (done ++ [f]) acc' ∧
    (fresh → ∀ id d, (∃ f ∈ set, f.2 = id) → defs id = some d → NoReuse defs parent set id d → acc.1.renamed id = none →
      Distinct set id acc.1 → Distinct set id acc'.1) := by
  have hkeep : ((defs f.2).isSome = true → (acc.1.key f.2).isSome = true) →
      Extra fresh n0 defs parent set st (done ++ [f]) acc := by
    intro hno
    refine ⟨hr.inv, hr.subs, hr.rens, hr.names, hr.klen, hr.keep, ?_, hr.range, hr.inKeys, hr.inSubs, ?_⟩
    · intro id hid
      exact hr.out id fun g hg => hid g (List.mem_append_left _ hg)
    · intro g hg hlt hs
      rcases List.mem_append.1 hg with hg | hg
      · exact hr.hit g hg hlt hs
      · rw [List.mem_singleton] at hg
        subst hg
        exact hno hs
  unfold extraStep at h
  simp only at h
  split at h
  · rename_i d hk hd
    have hk' : acc.1.key f.2 = none := hk
    -- the effect of setting the key of `f`
    have hset : ∀ (st' : St) (k : Nat) (l' : List Nat), Inv n0 st' → st'.keys = acc.1.keys →
        st'.subgraphKeys = acc.1.subgraphKeys → st'.renames = acc.1.renames → acc.1.names <+: st'.names →
        k < st'.names.length → (∀ x ∈ acc.2, x ∈ l') → k ∈ l' → (∀ x ∈ l', x < st'.names.length) →
        Extra fresh n0 defs parent set st (done ++ [f]) ({ st' with keys := st'.keys.set f.2 (some k) }, l') ∧
        ∀ id, ({ st' with keys := st'.keys.set f.2 (some k) } : St).key id =
          if f.2 = id ∧ f.2 < st.keys.length then some k else acc.1.key id := by
      intro st' k l' hi h1 h2 h3 h4 h5 h6 h7 h8
      have hkey : ∀ id, ({ st' with keys := st'.keys.set f.2 (some k) } : St).key id =
          if f.2 = id ∧ f.2 < st.keys.length then some k else acc.1.key id := by
        intro id
        unfold St.key
        simp only
        rw [join_set, h1, hr.klen]
      have hren : ∀ id, ({ st' with keys := st'.keys.set f.2 (some k) } : St).renamed id = acc.1.renamed id := by
        intro id
        unfold St.renamed
        simp only
        rw [h2]
      refine ⟨⟨⟨hi.le, hi.nodup, hi.rkeys, hi.rvals, hi.rrange, ?_, ?_⟩, ?_, ?_, ?_, ?_, ?_, ?_, h8, ?_, ?_, ?_⟩, hkey⟩
      · intro id k' hk2
        rw [hkey] at hk2
        split at hk2
        · cases hk2; exact h5
        · exact Nat.lt_of_lt_of_le (hr.inv.krange id k' hk2) h4.length_le
      · intro id k' hk2
        rw [hren] at hk2
        obtain ⟨⟨rk, a⟩, b⟩ := hr.inv.sub id k' hk2
        refine ⟨⟨rk, ?_⟩, ?_⟩
        · show _ ∈ st'.renames
          rw [h3]; exact a
        · rw [hkey]
          split
          · rfl
          · exact b
      · exact h2.trans hr.subs
      · exact h3.trans hr.rens
      · exact hr.names.trans h4
      · simp only [List.length_set]
        rw [h1, hr.klen]
      · intro id k' hk2
        have := hr.keep id k' hk2
        rw [hkey, if_neg]
        · exact this
        · rintro ⟨rfl, _⟩
          rw [hk'] at this
          cases this
      · intro id hid
        rw [hkey, if_neg]
        · exact hr.out id fun g hg => hid g (List.mem_append_left _ hg)
        · rintro ⟨e, _⟩
          exact hid f (by simp) e
      · intro g hg k' hk2
        rw [hkey] at hk2
        split at hk2
        · cases hk2; exact h7
        · exact h6 _ (hr.inKeys g hg k' hk2)
      · intro hfr g hg k' hk2
        rw [hren] at hk2
        exact h6 _ (hr.inSubs hfr g hg k' hk2)
      · intro g hg hlt hs
        rw [hkey]
        split
        · rfl
        · rename_i hc
          rcases List.mem_append.1 hg with hg | hg
          · exact hr.hit g hg hlt hs
          · rw [List.mem_singleton] at hg
            subst hg
            exact absurd ⟨rfl, hlt⟩ hc
    split at h
    · rename_i k hre
      cases h
      obtain ⟨⟨l, hl, hnl⟩, o, ho, hok, d', hd', hn⟩ := reuse_some hre
      obtain ⟨he, hkey⟩ := hset acc.1 k acc.2 hr.inv rfl rfl rfl (List.prefix_refl _) (hr.inv.krange _ _ hok)
        (fun _ hx => hx) (hr.inKeys o ho k hok) hr.range
      refine ⟨he, ?_⟩
      intro hfr id di hin hdi hno _ hdist k' hk2 g hg hgne
      rw [hkey] at hk2
      have hren : ({ acc.1 with keys := acc.1.keys.set f.2 (some k) } : St).renamed g.2 = acc.1.renamed g.2 := rfl
      rw [hkey, hren]
      by_cases hfid : f.2 = id
      · -- `id` itself would reuse a key
        subst hfid
        rw [hd] at hdi
        cases hdi
        rcases hno with hno | hno
        · exact absurd hnl (hno l hl)
        · have hone : o.2 ≠ f.2 := by
            intro e
            rw [e, hk'] at hok
            cases hok
          exact absurd hn (hno o ho hone d' hd')
      · rw [if_neg (fun hc => hfid hc.1)] at hk2
        obtain ⟨a, b⟩ := hdist k' hk2 g hg hgne
        refine ⟨?_, b⟩
        split
        · rename_i hc
          intro e
          cases e
          -- `g = f` reuses the key of `o`
          by_cases hoid : o.2 = id
          · rw [hoid, hdi] at hd'
            cases hd'
            rcases hno with hno | hno
            · exact hno l hl (hn ▸ hnl)
            · exact hno g hg hgne d (hc.1 ▸ hd) hn.symm
          · exact (hdist k hk2 o ho hoid).1 hok
        · exact a
    · obtain ⟨⟨st', k⟩, hg, he⟩ := Option.map_eq_some_iff.1 h
      have hgen := gen_spec hr.inv hg
      simp only at he
      subst he
      have hrens : st'.renames = acc.1.renames := by
        unfold generateNewKey at hg
        simp only [Option.bind_none] at hg
        split at hg
        · simp only [Option.some.injEq] at hg
          have := congrArg (·.1.renames) hg
          exact this.symm
        · split at hg
          · cases hg; rfl
          · obtain ⟨s, _, he⟩ := Option.map_eq_some_iff.1 hg
            have := congrArg (·.1.renames) he
            exact this.symm
      have hfresh : k ∉ acc.2 := hgen.forExtra rfl hr.range
      obtain ⟨he, hkey⟩ := hset st' k (acc.2 ++ [k]) hgen.inv hgen.keys hgen.subs hrens hgen.names hgen.lt
        (fun _ hx => List.mem_append_left _ hx) (by simp) (by
          intro x hx
          rcases List.mem_append.1 hx with hx | hx
          · exact Nat.lt_of_lt_of_le (hr.range x hx) hgen.names.length_le
          · rw [List.mem_singleton] at hx
            subst hx
            exact hgen.lt)
      refine ⟨he, ?_⟩
      intro hfr id di hin hdi hno _ hdist k' hk2 g hg hgne
      have hren : ({ st' with keys := st'.keys.set f.2 (some k) } : St).renamed g.2 = acc.1.renamed g.2 := by
        unfold St.renamed
        simp only
        rw [hgen.subs]
      rw [hkey] at hk2
      rw [hkey, hren]
      split at hk2
      · rename_i hc
        cases hk2
        rw [if_neg (fun hc' => hgne (hc'.1.symm.trans hc.1))]
        exact ⟨fun e => hfresh (hr.inKeys g hg _ e), fun e => hfresh (hr.inSubs hfr g hg _ e)⟩
      · obtain ⟨a, b⟩ := hdist k' hk2 g hg hgne
        refine ⟨?_, b⟩
        split
        · intro e
          cases e
          obtain ⟨f0, hf0, rfl⟩ := hin
          exact hfresh (hr.inKeys f0 hf0 _ hk2)
        · exact a
  · rename_i hno
    cases h
    refine ⟨hkeep ?_, fun _ _ _ _ _ _ _ h => h⟩
    intro hs
    obtain ⟨d, hd⟩ := Option.isSome_iff_exists.1 hs
    cases hk : acc.1.key f.2 with
    | none => exact absurd hd (hno d hk)
    | some k => rfl

theorem extraLoop_spec {fresh : Prop} {n0 : Nat} {defs : Nat → Option Definition} {parent : Parent} {set : List SetField} {st : St}
    (l : List SetField) : ∀ (done : List SetField) (acc acc' : St × List Nat),
    Extra fresh n0 defs parent set st done acc → l.foldlM (extraStep defs parent set) acc = some acc' →
    Extra fresh n0 defs parent set st (done ++ l) acc' ∧
    (fresh → ∀ id d, (∃ f ∈ set, f.2 = id) → defs id = some d → NoReuse defs parent set id d → acc.1.renamed id = none →
      Distinct set id acc.1 → Distinct set id acc'.1) := by
  induction l with
  | nil =>
    intro done acc acc' hr h
    cases h
    rw [List.append_nil]
    exact ⟨hr, fun _ _ _ _ _ _ _ h => h⟩
  | cons f fs ih =>
    intro done acc acc' hr h
    rw [List.foldlM_cons] at h
    obtain ⟨mid, h1, h2⟩ := Option.bind_eq_some_iff.1 h
    obtain ⟨e1, d1⟩ := extraStep_spec hr h1
    obtain ⟨e2, d2⟩ := ih (done ++ [f]) mid acc' e1 h2
    rw [List.append_assoc] at e2
    refine ⟨e2, fun hfr id d hin hd hn hr' hdist => d2 hfr id d hin hd hn ?_ (d1 hfr id d hin hd hn hr' hdist)⟩
    unfold St.renamed at hr' ⊢
    rw [e1.subs, ← hr.subs]
    exact hr'

/-! ## A selection set -/

/-- What adjusting a selection set does. -/
structure Adjusted (n0 : Nat) (defs : Nat → Option Definition) (parent : Parent) (set : List SetField) (st st' : St) : Prop where
  inv : Inv n0 st'
  names : st.names <+: st'.names
  klen : st'.keys.length = st.keys.length
  slen : st'.subgraphKeys.length = st.subgraphKeys.length
  keep : ∀ id k, st.key id = some k → st'.key id = some k
  outKey : ∀ id, (∀ f ∈ set, f.2 ≠ id) → st'.key id = st.key id
  outSub : ∀ id, (∀ f ∈ set, f.2 ≠ id) → st'.renamed id = st.renamed id
  keyed : ∀ f ∈ set, f.2 < st.keys.length → (defs f.2).isSome = true → (st'.key f.2).isSome = true
  change : ∀ id k, st'.renamed id = some k → st.renamed id = some k ∨
    ∃ f ∈ set, f.2 = id ∧ ∃ key d rk, st.key id = some key ∧ defs id = some d ∧
      renameFor st.names parent f.1 key d = some rk ∧ (rk, k) ∈ st'.renames
  hit : ∀ f ∈ set, f.2 < st.subgraphKeys.length → ∀ key d rk, st.key f.2 = some key → defs f.2 = some d →
    renameFor st.names parent f.1 key d = some rk → (st'.renamed f.2).isSome = true
  distinct : (∀ f ∈ set, st.renamed f.2 = none) → ∀ f ∈ set, st.key f.2 = none → ∀ d, defs f.2 = some d →
    NoReuse defs parent set f.2 d → Distinct set f.2 st'

theorem adjustSet_spec {n0 : Nat} {defs : Nat → Option Definition} {parent : Parent} {set : List SetField} {st st' : St}
    (hst : Inv n0 st) (h : adjustSet defs st parent set = some st') : Adjusted n0 defs parent set st st' := by
  unfold adjustSet at h
  obtain ⟨acc, h1, h⟩ := Option.bind_eq_some_iff.1 h
  obtain ⟨acc', h2, h⟩ := Option.bind_eq_some_iff.1 h
  cases h
  have hl0 : ∀ x ∈ (set.filterMap fun f => (st.keys[f.2]?).join), x < st.names.length := by
    intro x hx
    obtain ⟨f, _, he⟩ := List.mem_filterMap.1 hx
    exact hst.krange _ _ he
  have r := renameLoop_spec (defs := defs) (parent := parent) (l0 := set.filterMap fun f => (st.keys[f.2]?).join) hst set []
    (st, _) acc ⟨hst, rfl, List.prefix_refl _, rfl, fun _ h => h, hl0, fun _ _ => rfl, fun _ h => h,
      fun _ _ h => Or.inl h, fun _ h => by cases h⟩ h1
  rw [List.nil_append] at r
  have hkey : ∀ id, acc.1.key id = st.key id := fun id => by unfold St.key; rw [r.keys]
  obtain ⟨e, hd⟩ := extraLoop_spec (fresh := ∀ f ∈ set, st.renamed f.2 = none) (defs := defs) (parent := parent) (set := set) (st := acc.1) set [] acc acc'
    ⟨r.inv, rfl, rfl, List.prefix_refl _, rfl, fun _ _ h => h, fun _ _ => rfl, r.range, by
      intro f hf k hk
      rw [hkey] at hk
      exact r.mono _ (List.mem_filterMap.2 ⟨f, hf, hk⟩), by
      intro hfr f hf k hk
      rcases r.change f.2 k hk with h | ⟨h, _⟩
      · rw [hfr f hf] at h; cases h
      · exact h, fun _ h => by cases h⟩ h2
  rw [List.nil_append] at e
  have hren : ∀ id, acc'.1.renamed id = acc.1.renamed id := fun id => by unfold St.renamed; rw [e.subs]
  refine ⟨e.inv, r.names.trans e.names, ?_, ?_, ?_, ?_, ?_, ?_, ?_, ?_, ?_⟩
  · rw [e.klen, r.keys]
  · rw [e.subs, r.slen]
  · intro id k hk
    exact e.keep id k (by rw [hkey]; exact hk)
  · intro id hid
    rw [e.out id hid, hkey]
  · intro id hid
    rw [hren, r.out id hid]
  · intro f hf hlt hs
    exact e.hit f hf (by rw [r.keys]; exact hlt) hs
  · intro id k hk
    rw [hren] at hk
    rcases r.change id k hk with h | ⟨_, f, hf, h3, key, d, rk, h4, h5, h6, h7⟩
    · exact Or.inl h
    · exact Or.inr ⟨f, hf, h3, key, d, rk, h4, h5, h6, by rw [e.rens]; exact h7⟩
  · intro f hf hlt key d rk h3 h4 h5
    rw [hren]
    exact r.hit f hf hlt key d rk h3 h4 h5
  · intro hfr f hf hk d hdf hno
    have hnone : acc.1.renamed f.2 = none := by
      cases hc : acc.1.renamed f.2 with
      | none => rfl
      | some k =>
        have := (r.inv.sub _ _ hc).2
        rw [hkey, hk] at this
        cases this
    refine hd hfr f.2 d ⟨f, hf, rfl⟩ hdf hno hnone ?_
    intro k hk2
    rw [hkey, hk] at hk2
    cases hk2

/-- What stays over any number of selection sets. -/
theorem adjustAll_spec {n0 : Nat} {defs : Nat → Option Definition} (sets : List (Parent × List SetField)) :
    ∀ {st st' : St}, Inv n0 st → adjustAll defs st sets = some st' →
      Inv n0 st' ∧ st.names <+: st'.names ∧ st'.keys.length = st.keys.length ∧
      st'.subgraphKeys.length = st.subgraphKeys.length ∧
      (∀ id k, st.key id = some k → st'.key id = some k) ∧
      (∀ id, (∀ p ∈ sets, ∀ f ∈ p.2, f.2 ≠ id) → st'.key id = st.key id ∧ st'.renamed id = st.renamed id) := by
  induction sets with
  | nil =>
    intro st st' hi h
    cases h
    exact ⟨hi, List.prefix_refl _, rfl, rfl, fun _ _ h => h, fun _ _ => ⟨rfl, rfl⟩⟩
  | cons p ps ih =>
    intro st st' hi h
    unfold adjustAll at h
    rw [List.foldlM_cons] at h
    obtain ⟨mid, h1, h2⟩ := Option.bind_eq_some_iff.1 h
    have a := adjustSet_spec hi h1
    obtain ⟨b1, b2, b3, b4, b5, b6⟩ := ih a.inv h2
    refine ⟨b1, a.names.trans b2, b3.trans a.klen, b4.trans a.slen, fun id k hk => b5 id k (a.keep id k hk), fun id hid => ?_⟩
    obtain ⟨c1, c2⟩ := b6 id fun q hq => hid q (List.mem_cons_of_mem _ hq)
    exact ⟨c1.trans (a.outKey id (hid p List.mem_cons_self)), c2.trans (a.outSub id (hid p List.mem_cons_self))⟩

end Verif.ResponseKeys
