import Verif.ResponseKeys.Total
/-!
Property C49: the response keys of the fields sent to subgraphs.
-/
namespace Verif.ResponseKeys

/-- The state in which key generation starts: keys are interned once, the client's fields have keys of the
operation, nothing is renamed. -/
structure Start (st : St) : Prop where
  nodup : st.names.Nodup
  range : ∀ id k : Nat, st.keys[id]? = some (some k) → k < st.names.length
  renames : st.renames = []
  subs : st.subgraphKeys = List.replicate st.keys.length none

theorem join_some {l : List (Option Nat)} {id k : Nat} : (l[id]?).join = some k ↔ l[id]? = some (some k) := by
  cases h : l[id]? with
  | none => simp
  | some o => cases o <;> simp

theorem Start.renamed {st : St} (h : Start st) (id : Nat) : st.renamed id = none := by
  unfold St.renamed
  rw [h.subs]
  cases hx : (List.replicate st.keys.length (none : Option Nat))[id]? with
  | none => rfl
  | some o =>
    have := List.mem_of_getElem? hx
    rw [List.mem_replicate] at this
    rw [this.2]
    rfl

theorem Start.inv {st : St} (h : Start st) : Inv st.names.length st := by
  refine ⟨Nat.le_refl _, h.nodup, by rw [h.renames]; simp, by rw [h.renames]; simp, by rw [h.renames]; simp, ?_, ?_⟩
  · intro id k hk
    exact h.range id k (join_some.1 hk)
  · intro id k hk
    rw [h.renamed] at hk
    cases hk

/-- C49, the client's keys: whatever the selection sets, no field the client selected changes its response key, and
no key changes its text. -/
theorem C49_client_keys_kept (defs : Nat → Option Definition) (sets : List (Parent × List SetField)) (st st' : St)
    (hs : Start st) (h : adjustAll defs st sets = some st') :
    (∀ id k : Nat, st.keys[id]? = some (some k) → st'.keys[id]? = some (some k)) ∧
    (∀ (k : Nat) s, st.names[k]? = some s → st'.names[k]? = some s) ∧ st'.names.Nodup := by
  obtain ⟨h1, ⟨t, h2⟩, _, _, h5, _⟩ := adjustAll_spec sets hs.inv h
  refine ⟨fun id k hk => join_some.1 (h5 id k (join_some.2 hk)), fun k s hk => ?_, h1.nodup⟩
  have hlt : k < st.names.length := (List.getElem?_eq_some_iff.1 hk).1
  rw [← h2, List.getElem?_append_left hlt]
  exact hk

/-- C49, renames: the key a client field is renamed to is no key of the client's operation, and neither is its
text. -/
theorem C49_renames_fresh (defs : Nat → Option Definition) (sets : List (Parent × List SetField)) (st st' : St)
    (hs : Start st) (h : adjustAll defs st sets = some st') (id k : Nat)
    (hk : st'.subgraphKeys[id]? = some (some k)) :
    (∀ id' k' : Nat, st.keys[id']? = some (some k') → k' ≠ k) ∧
    ∃ s, st'.names[k]? = some s ∧ s ∉ st.names ∧ ∃ key, st'.keys[id]? = some (some key) := by
  obtain ⟨h1, ⟨t, h2⟩, _, _, h5, _⟩ := adjustAll_spec sets hs.inv h
  obtain ⟨⟨rk, hm⟩, hkey⟩ := h1.sub id k (join_some.2 hk)
  obtain ⟨r1, r2⟩ := h1.rrange _ hm
  simp only at r1 r2
  refine ⟨fun id' k' hk' => ?_, st'.names[k], List.getElem?_eq_getElem r2, ?_, ?_⟩
  · have := hs.range id' k' hk'
    omega
  · intro hin
    obtain ⟨i, hi, he⟩ := List.getElem_of_mem hin
    have hi' : st'.names[i]? = some st'.names[k] := by
      rw [← he, ← h2, List.getElem?_append_left hi, List.getElem?_eq_getElem hi]
    have hi2 : i < st'.names.length := (List.getElem?_eq_some_iff.1 hi').1
    rw [List.getElem?_eq_getElem hi2, Option.some.injEq] at hi'
    have hik : i < k := by omega
    exact List.pairwise_iff_getElem.1 h1.nodup i k hi2 r2 hik hi'
  · obtain ⟨key, hkey⟩ := Option.isSome_iff_exists.1 hkey
    exact ⟨key, join_some.1 hkey⟩

/-- The setting of the remaining theorems: the selection set `set` of the type `parent`, reached after `pre` and
before `post`; the fields belong to this selection set only. -/
structure Setting (pre : List (Parent × List SetField)) (set : List SetField) (post : List (Parent × List SetField)) (n : Nat) : Prop where
  once : (set.map (·.2)).Nodup
  range : ∀ f ∈ set, f.2 < n
  pre : ∀ p ∈ pre, ∀ g ∈ p.2, ∀ f ∈ set, g.2 ≠ f.2
  post : ∀ p ∈ post, ∀ g ∈ p.2, ∀ f ∈ set, g.2 ≠ f.2

theorem setting_mid {defs : Nat → Option Definition} {pre : List (Parent × List SetField)} {parent : Parent} {set : List SetField}
    {post : List (Parent × List SetField)} {st st' : St} (hs : Start st) (hset : Setting pre set post st.keys.length)
    (h : adjustAll defs st (pre ++ (parent, set) :: post) = some st') :
    ∃ mid mid', Inv st.names.length mid ∧ Inv st.names.length st' ∧ st.names <+: mid.names ∧ Adjusted st.names.length defs parent set mid mid' ∧
      mid.keys.length = st.keys.length ∧ mid.subgraphKeys.length = st.keys.length ∧
      (∀ f ∈ set, mid.key f.2 = st.key f.2 ∧ mid.renamed f.2 = none) ∧
      (∀ f ∈ set, st'.key f.2 = mid'.key f.2 ∧ st'.renamed f.2 = mid'.renamed f.2) := by
  unfold adjustAll at h
  rw [List.foldlM_append] at h
  obtain ⟨mid, h1, h2⟩ := Option.bind_eq_some_iff.1 h
  rw [List.foldlM_cons] at h2
  obtain ⟨mid', h2, h3⟩ := Option.bind_eq_some_iff.1 h2
  obtain ⟨a1, a2, a3, a4, _, a6⟩ := adjustAll_spec pre hs.inv h1
  have b := adjustSet_spec a1 h2
  obtain ⟨c1, _, _, _, _, c6⟩ := adjustAll_spec post b.inv h3
  refine ⟨mid, mid', a1, c1, a2, b, a3, ?_, ?_, ?_⟩
  · rw [a4, hs.subs, List.length_replicate]
  · intro f hf
    obtain ⟨d1, d2⟩ := a6 f.2 fun p hp g hg => hset.pre p hp g hg f hf
    exact ⟨d1, d2.trans (hs.renamed _)⟩
  · intro f hf
    exact c6 f.2 fun p hp g hg => hset.post p hp g hg f hf

/-- C49, which fields are renamed: exactly the client's fields that have another type in the subgraph while the parent
is not an object, and those the client called `__typename`; and every field with a definition ends up with a key. -/
theorem C49_renamed_iff (defs : Nat → Option Definition) (pre : List (Parent × List SetField)) (parent : Parent)
    (set : List SetField) (post : List (Parent × List SetField)) (st st' : St) (hs : Start st)
    (hset : Setting pre set post st.keys.length)
    (h : adjustAll defs st (pre ++ (parent, set) :: post) = some st') :
    ∀ f ∈ set, ∀ d, defs f.2 = some d →
      (∃ k, st'.keys[f.2]? = some (some k)) ∧
      ((∃ k, st'.subgraphKeys[f.2]? = some (some k)) ↔ ∃ key : Nat, st.keys[f.2]? = some (some key) ∧
        ((parent.isObject = false ∧ f.1 ∈ d.distinctIn) ∨ st.names[key]? = some typenameStr)) := by
  intro f hf d hd
  obtain ⟨mid, mid', hm, _, ⟨t, hn⟩, ha, hl1, hl2, hpre, hpost⟩ := setting_mid hs hset h
  have hlt := hset.range f hf
  have hfor : ∀ key, key < st.names.length → ((∃ rk, renameFor mid.names parent f.1 key d = some rk) ↔
      ((parent.isObject = false ∧ f.1 ∈ d.distinctIn) ∨ st.names[key]? = some typenameStr)) := by
    intro key hk
    unfold renameFor
    rw [← hn, List.getElem?_append_left hk]
    by_cases hc : (!parent.isObject) = true ∧ f.1 ∈ d.distinctIn
    · rw [if_pos hc]
      have hc' : parent.isObject = false ∧ f.1 ∈ d.distinctIn := ⟨by simpa using hc.1, hc.2⟩
      exact ⟨fun _ => Or.inl hc', fun _ => ⟨_, rfl⟩⟩
    · rw [if_neg hc]
      have hc' : ¬ (parent.isObject = false ∧ f.1 ∈ d.distinctIn) := fun hx => hc ⟨by simpa using hx.1, hx.2⟩
      by_cases ht : st.names[key]? = some typenameStr
      · rw [if_pos ht]
        exact ⟨fun _ => Or.inr ht, fun _ => ⟨_, rfl⟩⟩
      · rw [if_neg ht]
        constructor
        · rintro ⟨_, hx⟩; cases hx
        · rintro (hx | hx)
          · exact absurd hx hc'
          · exact absurd hx ht
  constructor
  · have := ha.keyed f hf (by omega) (by rw [hd]; rfl)
    rw [← (hpost f hf).1] at this
    obtain ⟨k, hk⟩ := Option.isSome_iff_exists.1 this
    exact ⟨k, join_some.1 hk⟩
  · constructor
    · rintro ⟨k, hk⟩
      have hk' : mid'.renamed f.2 = some k := by rw [← (hpost f hf).2]; exact join_some.2 hk
      rcases ha.change f.2 k hk' with h1 | ⟨g, hg, he, key, d', rk, h1, h2, h3, _⟩
      · rw [(hpre f hf).2] at h1; cases h1
      · have hgf : g = f := by
          have hp := hset.once
          unfold List.Nodup at hp
          rw [List.pairwise_map] at hp
          obtain ⟨i, hi, e1⟩ := List.getElem_of_mem hg
          obtain ⟨j, hj, e2⟩ := List.getElem_of_mem hf
          rcases Nat.lt_trichotomy i j with hij | hij | hij
          · have := List.pairwise_iff_getElem.1 hp i j hi hj hij
            rw [e1, e2] at this
            exact absurd he this
          · subst hij; rw [← e1, ← e2]
          · have := List.pairwise_iff_getElem.1 hp j i hj hi hij
            rw [e1, e2] at this
            exact absurd he.symm this
        subst hgf
        rw [(hpre g hf).1] at h1
        rw [hd] at h2
        cases h2
        have hr := hs.range g.2 key (join_some.1 h1)
        exact ⟨key, join_some.1 h1, (hfor key hr).1 ⟨rk, h3⟩⟩
    · rintro ⟨key, hk, hc⟩
      obtain ⟨rk, hrk⟩ := (hfor key (hs.range f.2 key hk)).2 hc
      have := ha.hit f hf (by omega) key d rk (by rw [(hpre f hf).1]; exact join_some.2 hk) hd hrk
      rw [← (hpost f hf).2] at this
      obtain ⟨k, hk⟩ := Option.isSome_iff_exists.1 this
      exact ⟨k, join_some.1 hk⟩

/-- Why two fields of the client may share a key in the subgraph query: the client gave them the same key and neither
is renamed; or they are renamed and are the same field under the same key; or the client called both `__typename` and
they have the same type. -/
def ClientShares (st : St) (a b : Nat) (da db : Definition) : Prop :=
  ∃ ka kb : Nat, st.keys[a]? = some (some ka) ∧ st.keys[b]? = some (some kb) ∧
    (ka = kb ∨ (st.names[ka]? = some typenameStr ∧ st.names[kb]? = some typenameStr ∧ da.ty = db.ty))

/-- C49, distinct keys. MISSING: an extra field (one the client did not select) on an interface that has a field of
its name may take the key of another field of that name; without `NoReuse` the claim is false, see
`C49_reused_key_collides_same_field` and `C49_reused_key_collides_other_field`. Two fields of a selection set share a key
in the subgraph query only if both are the client's and the client gave them the same key; an extra field shares its key
with no other field. -/
theorem C49_distinct_partial (defs : Nat → Option Definition) (pre : List (Parent × List SetField)) (parent : Parent)
    (set : List SetField) (post : List (Parent × List SetField)) (st st' : St) (hs : Start st)
    (hset : Setting pre set post st.keys.length)
    (h : adjustAll defs st (pre ++ (parent, set) :: post) = some st')
    (hno : ∀ f ∈ set, st.keys[f.2]? = some none → ∀ d, defs f.2 = some d → NoReuse defs parent set f.2 d) :
    ∀ f ∈ set, ∀ g ∈ set, f.2 ≠ g.2 → ∀ df dg, defs f.2 = some df → defs g.2 = some dg →
      ∀ k, st'.subgraphKey f.2 = some k → st'.subgraphKey g.2 = some k → ClientShares st f.2 g.2 df dg := by
  obtain ⟨mid, mid', hm, hinv', ⟨t, hn⟩, ha, hl1, hl2, hpre, hpost⟩ := setting_mid hs hset h
  have hfresh : ∀ f ∈ set, mid.renamed f.2 = none := fun f hf => (hpre f hf).2
  have hsub : ∀ f ∈ set, st'.subgraphKey f.2 = (mid'.renamed f.2).or (mid'.key f.2) := by
    intro f hf
    rw [St.subgraphKey_eq, (hpost f hf).1, (hpost f hf).2]
  -- an extra field shares its key with no other
  have hextra : ∀ f ∈ set, st.keys[f.2]? = some none → ∀ g ∈ set, g.2 ≠ f.2 → ∀ df, defs f.2 = some df →
      ∀ k, st'.subgraphKey f.2 = some k → st'.subgraphKey g.2 ≠ some k := by
    intro f hf hk g hg hne df hdf k h1 h2
    have hkf : mid.key f.2 = none := by
      rw [(hpre f hf).1]
      unfold St.key
      rw [hk]
      rfl
    have hd := ha.distinct hfresh f hf hkf df hdf (hno f hf hk df hdf)
    have hrf : mid'.renamed f.2 = none := by
      cases hc : mid'.renamed f.2 with
      | none => rfl
      | some k =>
        rcases ha.change f.2 k hc with h1 | ⟨_, _, _, key, _, _, h1, _⟩
        · rw [hfresh f hf] at h1; cases h1
        · rw [hkf] at h1; cases h1
    rw [hsub f hf, hrf, Option.none_or] at h1
    rw [hsub g hg] at h2
    obtain ⟨d1, d2⟩ := hd k h1 g hg hne
    cases hr : mid'.renamed g.2 with
    | none => rw [hr, Option.none_or] at h2; exact d1 h2
    | some k' => rw [hr, Option.some_or] at h2; exact d2 (hr.trans h2)
  intro f hf g hg hne df dg hdf hdg k h1 h2
  have hget : ∀ f ∈ set, st.keys[f.2]? = some none ∨ ∃ k, st.keys[f.2]? = some (some k) := by
    intro f hf
    have := hset.range f hf
    rw [List.getElem?_eq_getElem this]
    cases st.keys[f.2] with
    | none => exact Or.inl rfl
    | some k => exact Or.inr ⟨k, rfl⟩
  rcases hget f hf with hfn | ⟨kf, hkf⟩
  · exact absurd h2 (hextra f hf hfn g hg (Ne.symm hne) df hdf k h1)
  rcases hget g hg with hgn | ⟨kg, hkg⟩
  · exact absurd h1 (hextra g hg hgn f hf hne dg hdg k h2)
  refine ⟨kf, kg, hkf, hkg, ?_⟩
  rw [hsub f hf] at h1
  rw [hsub g hg] at h2
  have hkf' : mid'.key f.2 = some kf := ha.keep _ _ (by rw [(hpre f hf).1]; exact join_some.2 hkf)
  have hkg' : mid'.key g.2 = some kg := ha.keep _ _ (by rw [(hpre g hg).1]; exact join_some.2 hkg)
  have hrange : ∀ x kx, mid'.renamed x = some kx → st.names.length ≤ kx := by
    intro x kx hx
    obtain ⟨⟨rk, hm⟩, _⟩ := ha.inv.sub x kx hx
    exact (ha.inv.rrange _ hm).1
  have hrf := hs.range f.2 kf hkf
  have hrg := hs.range g.2 kg hkg
  cases hcf : mid'.renamed f.2 with
  | none =>
    rw [hcf, Option.none_or, hkf'] at h1
    cases h1
    cases hcg : mid'.renamed g.2 with
    | none =>
      rw [hcg, Option.none_or, hkg'] at h2
      cases h2
      exact Or.inl rfl
    | some k' =>
      rw [hcg, Option.some_or] at h2
      cases h2
      have := hrange _ _ hcg
      omega
  | some k1 =>
    rw [hcf, Option.some_or] at h1
    cases h1
    cases hcg : mid'.renamed g.2 with
    | none =>
      rw [hcg, Option.none_or, hkg'] at h2
      cases h2
      have := hrange _ _ hcf
      omega
    | some k' =>
      rw [hcg, Option.some_or] at h2
      cases h2
      rcases ha.change f.2 _ hcf with hx | ⟨f', _, _, key1, d1, rk1, a1, a2, a3, a4⟩
      · rw [hfresh f hf] at hx; cases hx
      rcases ha.change g.2 _ hcg with hx | ⟨g', _, _, key2, d2, rk2, b1, b2, b3, b4⟩
      · rw [hfresh g hg] at hx; cases hx
      rw [(hpre f hf).1] at a1
      rw [(hpre g hg).1] at b1
      rw [hdf] at a2
      rw [hdg] at b2
      cases a2
      cases b2
      have ea : kf = key1 := by
        have := join_some.1 a1
        rw [hkf] at this
        simpa using this
      have eb : kg = key2 := by
        have := join_some.1 b1
        rw [hkg] at this
        simpa using this
      subst ea
      subst eb
      -- the same value of the rename map comes from the same rename
      have hrk : rk1 = rk2 := by
        have hp := ha.inv.rvals
        unfold List.Nodup at hp
        rw [List.pairwise_map] at hp
        obtain ⟨i, hi, e1⟩ := List.getElem_of_mem a4
        obtain ⟨j, hj, e2⟩ := List.getElem_of_mem b4
        rcases Nat.lt_trichotomy i j with hij | hij | hij
        · have := List.pairwise_iff_getElem.1 hp i j hi hj hij
          rw [e1, e2] at this
          exact absurd rfl this
        · subst hij
          rw [e1] at e2
          exact congrArg (·.1) e2
        · have := List.pairwise_iff_getElem.1 hp j i hj hi hij
          rw [e1, e2] at this
          exact absurd rfl this
      subst hrk
      unfold renameFor at a3 b3
      rw [← hn, List.getElem?_append_left hrf] at a3
      rw [← hn, List.getElem?_append_left hrg] at b3
      split at a3
      · cases a3
        split at b3
        · simp only [Option.some.injEq, RenameKey.distinctType.injEq] at b3
          exact Or.inl b3.1.symm
        · split at b3 <;> cases b3
      · split at a3
        · rename_i ht
          cases a3
          split at b3
          · cases b3
          · split at b3
            · rename_i ht'
              simp only [Option.some.injEq, RenameKey.typename.injEq] at b3
              exact Or.inr ⟨ht, ht', b3.symm⟩
            · cases b3
        · cases a3

/-- C49, consistent renames: two fields of a selection set that the client gave the same key and that are the same field
of the schema get the same key in the subgraph query if both are renamed for their type, so that they still merge. -/
theorem C49_rename_consistent (defs : Nat → Option Definition) (pre : List (Parent × List SetField)) (parent : Parent)
    (set : List SetField) (post : List (Parent × List SetField)) (st st' : St) (hs : Start st)
    (hset : Setting pre set post st.keys.length)
    (h : adjustAll defs st (pre ++ (parent, set) :: post) = some st') (hp : parent.isObject = false) :
    ∀ f ∈ set, ∀ g ∈ set, ∀ d, defs f.2 = some d → defs g.2 = some d → f.1 ∈ d.distinctIn → g.1 ∈ d.distinctIn →
      ∀ k, st.keys[f.2]? = some (some k) → st.keys[g.2]? = some (some k) →
        st'.subgraphKey f.2 = st'.subgraphKey g.2 := by
  intro f hf g hg d hdf hdg hif hig k hkf hkg
  obtain ⟨mid, mid', hm, _, _, ha, hl1, hl2, hpre, hpost⟩ := setting_mid hs hset h
  have hrn : ∀ f ∈ set, f.1 ∈ d.distinctIn → defs f.2 = some d → st.keys[f.2]? = some (some k) →
      ∃ kk, mid'.renamed f.2 = some kk ∧ (RenameKey.distinctType k d.id, kk) ∈ mid'.renames := by
    intro f hf hi hd hk
    have hkm : mid.key f.2 = some k := by rw [(hpre f hf).1]; exact join_some.2 hk
    have hlt := hset.range f hf
    have hrk : renameFor mid.names parent f.1 k d = some (.distinctType k d.id) := by
      unfold renameFor
      rw [if_pos ⟨by simp [hp], hi⟩]
    obtain ⟨kk, hkk⟩ := Option.isSome_iff_exists.1 (ha.hit f hf (by omega) k d _ hkm hd hrk)
    refine ⟨kk, hkk, ?_⟩
    rcases ha.change f.2 kk hkk with h1 | ⟨x, hx, he, key, d', rk, h1, h2, h3, h4⟩
    · rw [(hpre f hf).2] at h1; cases h1
    · rw [hkm] at h1
      rw [hd] at h2
      cases h1
      cases h2
      have hxf : x = f := by
        have hpp := hset.once
        unfold List.Nodup at hpp
        rw [List.pairwise_map] at hpp
        obtain ⟨i, hi, e1⟩ := List.getElem_of_mem hx
        obtain ⟨j, hj, e2⟩ := List.getElem_of_mem hf
        rcases Nat.lt_trichotomy i j with hij | hij | hij
        · have := List.pairwise_iff_getElem.1 hpp i j hi hj hij
          rw [e1, e2] at this
          exact absurd he this
        · subst hij; rw [← e1, ← e2]
        · have := List.pairwise_iff_getElem.1 hpp j i hj hi hij
          rw [e1, e2] at this
          exact absurd he.symm this
      subst hxf
      rw [hrk] at h3
      cases h3
      exact h4
  obtain ⟨k1, r1, m1⟩ := hrn f hf hif hdf hkf
  obtain ⟨k2, r2, m2⟩ := hrn g hg hig hdg hkg
  have hk12 : k1 = k2 := by
    have hpp := ha.inv.rkeys
    unfold List.Nodup at hpp
    rw [List.pairwise_map] at hpp
    obtain ⟨i, hi, e1⟩ := List.getElem_of_mem m1
    obtain ⟨j, hj, e2⟩ := List.getElem_of_mem m2
    rcases Nat.lt_trichotomy i j with hij | hij | hij
    · have := List.pairwise_iff_getElem.1 hpp i j hi hj hij
      rw [e1, e2] at this
      exact absurd rfl this
    · subst hij
      rw [e1] at e2
      exact congrArg (·.2) e2
    · have := List.pairwise_iff_getElem.1 hpp j i hj hi hij
      rw [e1, e2] at this
      exact absurd rfl this
  rw [St.subgraphKey_eq, St.subgraphKey_eq, (hpost f hf).2, (hpost g hg).2, r1, r2, hk12]
  rfl

/-- C49, no exhaustion: as long as the operation has few enough keys, the search for a fresh key (256 attempts, then
`unimplemented!`) succeeds. -/
theorem C49_total (defs : Nat → Option Definition) (sets : List (Parent × List SetField)) (st : St)
    (h : st.names.length + 2 * (sets.map (·.2.length)).sum ≤ 256) : ∃ st', adjustAll defs st sets = some st' :=
  adjustAll_total sets h

/-! ### A concrete case -/

def sName : List Char := ['n', 'a', 'm', 'e']
def sNick : List Char := ['n', 'i', 'c', 'k']
def sId : List Char := ['i', 'd']

def dName : Definition := ⟨0, 100, sName, 1, []⟩
def dNick : Definition := ⟨1, 101, sNick, 1, []⟩
def dId : Definition := ⟨2, 102, sId, 2, [5]⟩

/-- `... on User { name: id, __typename: nick } ` of a union, with an extra field `name`; `id` has another type in the
subgraph 5. -/
def caseDefs (i : Nat) : Option Definition := [dId, dNick, dName][i]?
def caseStart : St := ⟨[sName, typenameStr], [], [some 0, some 1, none], [none, none, none]⟩
def caseSet : List SetField := [(5, 0), (5, 1), (5, 2)]

example : Start caseStart ∧ Setting [] caseSet [] 3 ∧
    (∀ f ∈ caseSet, caseStart.keys[f.2]? = some none → ∀ d, caseDefs f.2 = some d →
      NoReuse caseDefs ⟨false, none⟩ caseSet f.2 d) ∧
    (adjustAll caseDefs caseStart [(⟨false, none⟩, caseSet)]).map
        (fun st => (st.names, [0, 1, 2].map st.subgraphKey, st.keys)) =
      some ([sName, typenameStr, sId, sNick, '_' :: sName ++ ['6', '4', '0', '0']], [some 2, some 3, some 4],
        [some 0, some 1, some 4]) := by
  refine ⟨⟨by decide, ?_, rfl, rfl⟩, ⟨by decide, by decide, by simp, by simp⟩, ?_, by decide +kernel⟩
  · intro id k h
    match id with
    | 0 => cases h; decide
    | 1 => cases h; decide
    | 2 => cases h
    | n + 3 => cases h
  · intro f _ _ d _
    exact Or.inl fun l hl => by cases hl

/-! ### The full property is false of the code -/

/-- C49 is false on interfaces: the client selects `name: name(lang: "fr")` of an interface, and another subgraph requires
`name` without arguments. The extra field takes the key of the client's field although it is the same field with other
arguments: the subgraph query has two different fields under one key. -/
theorem C49_reused_key_collides_same_field :
    let defs : Nat → Option Definition := fun i => [dName, dName][i]?
    let st : St := ⟨[sName], [], [some 0, none], [none, none]⟩
    Start st ∧ ∃ st', adjustAll defs st [(⟨false, some [100]⟩, [(5, 0), (5, 1)])] = some st' ∧
      st.keys[1]? = some none ∧ st'.subgraphKey 0 = some 0 ∧ st'.subgraphKey 1 = some 0 := by
  refine ⟨⟨by decide, ?_, rfl, rfl⟩, ⟨[sName], [], [some 0, some 0], [none, none]⟩, by decide +kernel, rfl, rfl, rfl⟩
  intro id k h
  match id with
  | 0 => cases h; decide
  | 1 => cases h
  | n + 2 => cases h

/-- C49 is false on interfaces: `{ ... on Cat { name } ... on Dog { name: nick } }` with the extra field `Dog.name`. The
extra field takes the key of `Cat.name`, which is also that of `Dog.nick`. -/
theorem C49_reused_key_collides_other_field :
    let catName : Definition := ⟨0, 100, sName, 1, []⟩
    let dogNick : Definition := ⟨1, 101, sNick, 1, []⟩
    let dogName : Definition := ⟨2, 100, sName, 1, []⟩
    let defs : Nat → Option Definition := fun i => [catName, dogNick, dogName][i]?
    let st : St := ⟨[sName], [], [some 0, some 0, none], [none, none, none]⟩
    Start st ∧ ∃ st', adjustAll defs st [(⟨false, some [100]⟩, [(5, 0), (5, 1), (5, 2)])] = some st' ∧
      st.keys[2]? = some none ∧ st'.subgraphKey 1 = some 0 ∧ st'.subgraphKey 2 = some 0 := by
  refine ⟨⟨by decide, ?_, rfl, rfl⟩, ⟨[sName], [], [some 0, some 0, some 0], [none, none, none]⟩, by decide +kernel, rfl, rfl, rfl⟩
  intro id k h
  match id with
  | 0 => cases h; decide
  | 1 => cases h; decide
  | 2 => cases h
  | n + 3 => cases h

/-- A gap next to C49: keys are only compared within the selection set of one query field. `Pet.owner` has an extra field
`name`, `Cat.owner` the client's `name: nick`; both parents have the response key `owner`, so that the subgraph merges the
two selection sets, in which `name` stands for two fields. -/
theorem C49_merged_selection_sets_collide :
    let defs : Nat → Option Definition := fun i => [dName, dNick][i]?
    let st : St := ⟨[sName], [], [none, some 0], [none, none]⟩
    Start st ∧ ∃ st', adjustAll defs st [(⟨true, none⟩, [(5, 0)]), (⟨true, none⟩, [(5, 1)])] = some st' ∧
      st'.subgraphKey 0 = some 0 ∧ st'.subgraphKey 1 = some 0 := by
  refine ⟨⟨by decide, ?_, rfl, rfl⟩, ⟨[sName], [], [some 0, some 0], [none, none]⟩, by decide +kernel, rfl, rfl⟩
  intro id k h
  match id with
  | 0 => cases h
  | 1 => cases h; decide
  | n + 2 => cases h

end Verif.ResponseKeys
