import Verif.Views.Lemmas

/-!
# Views of the response: lemmas about injections
-/

namespace Verif.Views

open Verif.OpChecks (sortBy insertBy sortBy_perm sortBy_sorted)

/-! ## Paths -/

/-- The injection that follows a path. -/
def chain (p : List Nat) (inj : Inj) : Inj := p.foldr .select inj

/-- The field set of a path. -/
def chainSet (p : List Nat) (fs : List (Item Unit)) : List (Item Unit) := p.foldr (fun f fs => [.mk f () fs]) fs

theorem prepend_eq (p : List Nat) (fs : List (Item Unit)) (inj : Inj) :
    prepend p (fs, inj) = (chainSet p fs, chain p inj) := by
  induction p with
  | nil => rfl
  | cons f p ih => rw [prepend, ih]; rfl

theorem forPath_eq (rest : List Nat) : ∀ first, forPath first rest =
    (chainSet (first :: rest) [], chain (first :: rest) .identity) := by
  induction rest with
  | nil => intro first; rfl
  | cons n rest ih => intro first; rw [forPath, ih]; rfl

theorem chain_append (p q : List Nat) (inj : Inj) : chain (p ++ q) inj = chain p (chain q inj) := by
  simp [chain]

theorem chainSet_append (p q : List Nat) (fs : List (Item Unit)) : chainSet (p ++ q) fs = chainSet p (chainSet q fs) := by
  simp [chainSet]

theorem chainSet_strict (p : List Nat) {fs : List (Item Unit)} (h : Strict fs) : Strict (chainSet p fs) := by
  induction p with
  | nil => exact h
  | cons f p ih => exact .cons _ _ ih (by intro j hj; cases hj) .nil

theorem inject_chain (names : Nat → String) (inj : Inj) (p : List Nat) : ∀ (reqs : List (Item Data)) (o : Obj),
    inject names (chain p inj) reqs o = readPath p (inject names inj) reqs o := by
  induction p with
  | nil => intro reqs o; rfl
  | cons f p ih =>
    intro reqs o
    show inject names (.select f (chain p inj)) reqs o = _
    rw [inject, readPath]
    cases reqs.find? (fun r => r.id == f) with
    | none => rfl
    | some r =>
      simp only
      cases o.find r.data.key with
      | none => rfl
      | some v => exact forward_ext (fun o => ih _ o) _

theorem readPath_congr {k k' : List (Item Data) → Obj → Out Json} {fs : List (Item Unit)}
    (h : ∀ reqs o, Strict reqs → Covers reqs fs → k reqs o = k' reqs o) (p : List Nat) :
    ∀ (reqs : List (Item Data)) (o : Obj), Strict reqs → Covers reqs (chainSet p fs) →
      readPath p k reqs o = readPath p k' reqs o := by
  induction p with
  | nil => intro reqs o hs hc; exact h reqs o hs hc
  | cons f p ih =>
    intro reqs o hs hc
    obtain ⟨⟨r, hr, hcr⟩, -⟩ := Covers.head (f := .mk f () (chainSet p fs)) (fs := []) hs hc
    rw [readPath, readPath]
    have : reqs.find? (fun r => r.id == f) = some r := hr
    rw [this]
    simp only
    split
    · rfl
    · exact forward_ext (fun o => ih r.sub o (hs.mem (look_some hr).1) hcr) _

/-! ## The join over the keys of an object -/

/-- What one key adds when its field is looked up. -/
def plainEntry (names : Nat → String) (kv : Nat × Inj) (reqs : List (Item Data)) (o : Obj) : Out (List (String × Json)) :=
  match kv.2 with
  | .select id next =>
    match look id reqs with
    | none => .err
    | some r =>
      match o.find r.data.key with
      | none => if skipped r.data o then .ok [] else .err
      | some v => (forward (inject names next r.sub) v).map (fun j => [(names kv.1, j)])
  | inj => (inject names inj reqs o).map (fun j => [(names kv.1, j)])

theorem seekInjection_eq {l : List (Item Data)} (hs : Strict l) {i : Nat} {r : Item Data} (h : look i l = some r) :
    ∃ rest, seekInjection i l = .found r rest ∧ Strict rest ∧ ∀ j, i ≤ j → look j rest = look j l := by
  induction l with
  | nil => cases h
  | cons x t ih =>
    obtain ⟨-, hlt, ht⟩ := hs.head
    rw [look_cons] at h
    rw [seekInjection]
    split at h
    · rename_i he
      cases h
      rw [if_neg (by omega), if_pos he.symm]
      exact ⟨_, rfl, hs, fun j hj => rfl⟩
    · rename_i hne
      obtain ⟨hm, hid⟩ := look_some h
      have := hlt r hm
      rw [if_neg (by omega), if_neg (by omega)]
      obtain ⟨rest, h1, h2, h3⟩ := ih ht h
      refine ⟨rest, h1, h2, ?_⟩
      intro j hj
      rw [h3 j hj, look_cons, if_neg (by omega)]

theorem keyLe_some {i a : Nat} {b : Option Nat × Nat} (h : keyLe (some i, a) b = true) : ∃ j c, b = (some j, c) ∧ i ≤ j := by
  obtain ⟨b, c⟩ := b
  cases b with
  | none => simp [keyLe] at h
  | some j =>
    refine ⟨j, c, rfl, ?_⟩
    simp only [keyLe, decide_eq_true_eq] at h
    omega

theorem injectEntry_other (names : Nat → String) (key : Nat) (inj : Inj) (rem reqs : List (Item Data)) (o : Obj)
    (h : ∀ id next, inj ≠ .select id next) :
    injectEntry names (key, inj) rem reqs o = ((inject names inj reqs o).map (fun j => [(names key, j)]), rem) := by
  cases inj with
  | identity => simp [injectEntry]
  | default j => rw [injectEntry, inject]; rfl
  | select id next => exact absurd rfl (h id next)
  | object kvs => simp [injectEntry]

theorem plainEntry_select (names : Nat → String) (key id : Nat) (next : Inj) {reqs : List (Item Data)} (o : Obj)
    {r : Item Data} (hr : look id reqs = some r) :
    plainEntry names (key, .select id next) reqs o =
      match o.find r.data.key with
      | none => if skipped r.data o then .ok [] else .err
      | some v => (forward (inject names next r.sub) v).map (fun j => [(names key, j)]) := by
  simp only [plainEntry, hr]

theorem plainEntry_other (names : Nat → String) (key : Nat) (inj : Inj) (reqs : List (Item Data)) (o : Obj)
    (h : ∀ id next, inj ≠ .select id next) :
    plainEntry names (key, inj) reqs o = (inject names inj reqs o).map (fun j => [(names key, j)]) := by
  cases inj with
  | select id next => exact absurd rfl (h id next)
  | _ => rfl

theorem injectEntries_eq (names : Nat → String) (reqs : List (Item Data)) (o : Obj) :
    ∀ (kvs : List (Nat × Inj)) (rem : List (Item Data)), Strict rem →
      (kvs.Pairwise fun a b => keyLe (orderKey a) (orderKey b) = true) →
      (∀ kv ∈ kvs, ∀ id next, kv.2 = .select id next → (look id reqs).isSome = true ∧ look id rem = look id reqs) →
      injectEntries names kvs rem reqs o = inOrder (kvs.map (fun kv => plainEntry names kv reqs o))
  | [], rem, _, _, _ => by rw [injectEntries]; rfl
  | (key, inj) :: kvs, rem, hs, hp, hl => by
    obtain ⟨hp1, hp2⟩ := List.pairwise_cons.1 hp
    rw [injectEntries]
    simp only [List.map_cons, inOrder]
    by_cases hsel : ∃ id next, inj = .select id next
    · obtain ⟨id, next, rfl⟩ := hsel
      obtain ⟨h1, h2⟩ := hl _ List.mem_cons_self id next rfl
      obtain ⟨r, hr⟩ := Option.isSome_iff_exists.1 h1
      obtain ⟨rest, h3, h4, h5⟩ := seekInjection_eq hs (h2.trans hr)
      rw [injectEntry, h3, plainEntry_select names key id next o hr]
      simp only
      have hrest := injectEntries_eq names reqs o kvs rest h4 hp2 ?_
      · rw [hrest]
        rfl
      intro kv hkv id' next' he
      obtain ⟨h6, h7⟩ := hl kv (List.mem_cons_of_mem _ hkv) id' next' he
      refine ⟨h6, ?_⟩
      have hle := hp1 kv hkv
      have ho : orderKey kv = (some id', kv.1) := by unfold orderKey; rw [he]
      obtain ⟨j, c, hjc, hij⟩ := keyLe_some (i := id) (a := key) hle
      rw [ho] at hjc
      cases hjc
      rw [h5 id' hij, h7]
    · have hne : ∀ id next, inj ≠ .select id next := fun id next he => hsel ⟨id, next, he⟩
      rw [injectEntry_other names key inj rem reqs o hne, plainEntry_other names key inj reqs o hne]
      simp only
      rw [injectEntries_eq names reqs o kvs rem hs hp2 (fun kv hkv => hl kv (List.mem_cons_of_mem _ hkv))]

/-! ## Sorting -/

theorem map_insertBy {α β : Type} (g : α → β) (le : α → α → Bool) (le' : β → β → Bool)
    (h : ∀ a b, le a b = le' (g a) (g b)) (x : α) (l : List α) :
    (insertBy le x l).map g = insertBy le' (g x) (l.map g) := by
  induction l with
  | nil => rfl
  | cons y t ih =>
    rw [insertBy, List.map_cons, insertBy, ← h x y]
    split
    · rfl
    · rw [List.map_cons, ih]

theorem map_sortBy {α β : Type} (g : α → β) (le : α → α → Bool) (le' : β → β → Bool)
    (h : ∀ a b, le a b = le' (g a) (g b)) (l : List α) : (sortBy le l).map g = sortBy le' (l.map g) := by
  induction l with
  | nil => rfl
  | cons x t ih =>
    show (insertBy le x (sortBy le t)).map g = insertBy le' (g x) (sortBy le' (t.map g))
    rw [map_insertBy g le le' h, ih]

theorem keyLe_trans (a b c : Option Nat × Nat) (h1 : keyLe a b = true) (h2 : keyLe b c = true) : keyLe a c = true := by
  obtain ⟨a1, a2⟩ := a
  obtain ⟨b1, b2⟩ := b
  obtain ⟨c1, c2⟩ := c
  cases a1 <;> cases b1 <;> cases c1 <;> simp_all [keyLe] <;> omega

theorem keyLe_total (a b : Option Nat × Nat) : (keyLe a b || keyLe b a) = true := by
  obtain ⟨a1, a2⟩ := a
  obtain ⟨b1, b2⟩ := b
  cases a1 <;> cases b1 <;> simp [keyLe] <;> omega

theorem pushKeyValues_sorted (kvs : List (Nat × Inj)) :
    (pushKeyValues kvs).Pairwise fun a b => keyLe (orderKey a) (orderKey b) = true :=
  sortBy_sorted (le := fun a b => keyLe (orderKey a) (orderKey b))
    (fun a b c h1 h2 => keyLe_trans (orderKey a) (orderKey b) (orderKey c) h1 h2)
    (fun a b => keyLe_total (orderKey a) (orderKey b)) kvs

theorem mem_pushKeyValues {kv : Nat × Inj} {kvs : List (Nat × Inj)} : kv ∈ pushKeyValues kvs ↔ kv ∈ kvs :=
  (sortBy_perm _ kvs).mem_iff

/-! ## Created requirements and injections -/

/-- What is known of what is created for a selection: its injection follows the path of the selection
and then does, for any requirements that cover the fields of the end, what the end says. -/
structure Created (s : Sel) (names : Nat → String) (fs : List (Item Unit)) (inj : Inj) : Prop where
  split : ∃ fs' inj', fs = chainSet (spine s) fs' ∧ inj = chain (spine s) inj' ∧
    (∀ id next, inj' ≠ .select id next) ∧ Strict fs' ∧
    ∀ reqs o, Strict reqs → Covers reqs fs' → inject names inj' reqs o = endOf names s reqs o

theorem Created.inject {s : Sel} {names : Nat → String} {fs : List (Item Unit)} {inj : Inj} (h : Created s names fs inj)
    {reqs : List (Item Data)} (hs : Strict reqs) (hc : Covers reqs fs) (o : Obj) :
    inject names inj reqs o = meaning names s reqs o := by
  obtain ⟨fs', inj', rfl, rfl, -, -, h2⟩ := h.split
  rw [inject_chain, meaning]
  exact readPath_congr h2 _ reqs o hs hc

theorem Created.strict {s : Sel} {names : Nat → String} {fs : List (Item Unit)} {inj : Inj} (h : Created s names fs inj) :
    Strict fs := by
  obtain ⟨fs', inj', rfl, rfl, -, hs, h2⟩ := h.split
  exact chainSet_strict _ hs

/-- The entry of a key: the first field is in the field set, and looking it up gives what the
selection describes. -/
def CreatedEntry (names : Nat → String) (f : Nat × FieldSel) (fs : List (Item Unit)) (inj : Inj) : Prop :=
  Strict fs ∧ ∀ reqs o, Strict reqs → Covers reqs fs →
    (∀ id next, inj = .select id next → (look id reqs).isSome = true) ∧
    (orderKey (f.1, inj), plainEntry names (f.1, inj) reqs o) = entryOf names f reqs o

theorem createdEntry_path {names : Nat → String} {key : Nat} {p : List Nat} {fs : List (Item Unit)} {inj : Inj}
    {k : List (Item Data) → Obj → Out Json} (hn : ∀ id next, inj ≠ .select id next)
    (hk : ∀ reqs o, Strict reqs → Covers reqs fs → inject names inj reqs o = k reqs o)
    {reqs : List (Item Data)} (o : Obj) (hs : Strict reqs) (hc : Covers reqs (chainSet p fs)) :
    (∀ id next, chain p inj = .select id next → (look id reqs).isSome = true) ∧
    orderKey (key, chain p inj) = (p.head?, key) ∧
    plainEntry names (key, chain p inj) reqs o = entryAt (names key) k p reqs o := by
  cases p with
  | nil =>
    refine ⟨fun id next h => absurd h (hn id next), ?_, ?_⟩
    · show orderKey (key, inj) = _
      unfold orderKey
      cases inj with
      | select id next => exact absurd rfl (hn id next)
      | _ => rfl
    · show plainEntry names (key, inj) reqs o = _
      rw [plainEntry_other names key inj reqs o hn, entryAt, hk reqs o hs hc]
  | cons f p =>
    obtain ⟨⟨r, hr, hcr⟩, -⟩ := Covers.head (f := .mk f () (chainSet p fs)) (fs := []) hs hc
    change look f reqs = some r at hr
    change Covers r.sub (chainSet p fs) at hcr
    refine ⟨?_, rfl, ?_⟩
    · intro id next h
      have h : Inj.select f (chain p inj) = .select id next := h
      cases h
      rw [hr]
      rfl
    · show plainEntry names (key, .select f (chain p inj)) reqs o = _
      have hf : reqs.find? (fun r => r.id == f) = some r := hr
      simp only [plainEntry, hr, entryAt, hf]
      cases o.find r.data.key with
      | none => rfl
      | some v =>
        simp only
        congr 1
        refine forward_ext ?_ _
        intro o'
        rw [inject_chain]
        exact readPath_congr hk p r.sub o' (hs.mem (look_some hr).1) hcr

mutual

theorem create_created (names : Nat → String) : ∀ (s : Sel) (fs : List (Item Unit)) (inj : Inj),
    create s = .ok (fs, inj) → Created s names fs inj
  | .identity, fs, inj, h => by
    rw [create] at h
    cases h
    exact ⟨[], .identity, rfl, rfl, (by intro a b h; cases h), .nil, fun reqs o _ _ => by rw [inject, endOf]⟩
  | .path first rest, fs, inj, h => by
    rw [create, forPath_eq] at h
    cases h
    exact ⟨[], .identity, rfl, rfl, (by intro a b h; cases h), .nil, fun reqs o _ _ => by rw [inject, endOf]⟩
  | .several, fs, inj, h => by
    rw [create] at h
    cases h
  | .list path item, fs, inj, h => by
    rw [create] at h
    obtain ⟨⟨fs1, inj1⟩, h1, h2⟩ := map_ok.1 h
    rw [prepend_eq] at h2
    cases h2
    obtain ⟨fs', inj', rfl, rfl, h3, h4, h5⟩ := (create_created names item fs1 inj1 h1).split
    refine ⟨fs', inj', ?_, ?_, h3, h4, ?_⟩
    · rw [spine, chainSet_append]
    · rw [spine, chain_append]
    · intro reqs o hs hc
      rw [endOf]
      exact h5 reqs o hs hc
  | .object path fields, fs, inj, h => by
    rw [create] at h
    obtain ⟨⟨fs1, kvs⟩, h1, h2⟩ := map_ok.1 h
    simp only at h2
    rw [prepend_eq] at h2
    cases h2
    obtain ⟨h3, h4⟩ := createFields_created names fields [] fs1 kvs h1
    refine ⟨fs1, _, rfl, rfl, (by intro a b h; cases h), h3 .nil, ?_⟩
    intro reqs o hs hc
    obtain ⟨-, h5, h6⟩ := h4 reqs o hs hc
    rw [inject, endOf, injectEntries_eq names reqs o _ _ hs (pushKeyValues_sorted kvs)]
    · rw [← h6, ← map_sortBy (fun kv => (orderKey kv, plainEntry names kv reqs o))
        (fun a b => keyLe (orderKey a) (orderKey b)) _ (fun a b => rfl), List.map_map]
      rfl
    · intro kv hkv id next he
      exact ⟨h5 kv (mem_pushKeyValues.1 hkv) id next he, rfl⟩

theorem createFields_created (names : Nat → String) : ∀ (fields : List (Nat × FieldSel)) (fs0 fs : List (Item Unit))
    (kvs : List (Nat × Inj)), createFields fs0 fields = .ok (fs, kvs) →
    (Strict fs0 → Strict fs) ∧ ∀ reqs o, Strict reqs → Covers reqs fs →
      Covers reqs fs0 ∧
      (∀ kv ∈ kvs, ∀ id next, kv.2 = .select id next → (look id reqs).isSome = true) ∧
      kvs.map (fun kv => (orderKey kv, plainEntry names kv reqs o)) = entriesOf names fields reqs o
  | [], fs0, fs, kvs, h => by
    rw [createFields] at h
    cases h
    refine ⟨id, fun reqs o hs hc => ⟨hc, (by intro kv hkv; cases hkv), ?_⟩⟩
    rw [entriesOf]
    rfl
  | f :: rest, fs0, fs, kvs, h => by
    rw [createFields] at h
    obtain ⟨⟨requires, key, value⟩, h1, h2⟩ := bind_ok.1 h
    obtain ⟨⟨fs2, kvs2⟩, h3, h4⟩ := map_ok.1 h2
    simp only at h4
    cases h4
    obtain ⟨rfl, h5, h6⟩ := createField_created names f requires key value h1
    obtain ⟨h7, h8⟩ := createFields_created names rest _ _ _ h3
    refine ⟨fun h0 => h7 (strict_union _ _ h0 h5), ?_⟩
    intro reqs o hs hc
    obtain ⟨h9, h10, h11⟩ := h8 reqs o hs hc
    obtain ⟨h12, h13⟩ := covers_union.1 h9
    obtain ⟨h14, h15⟩ := h6 reqs o hs h13
    refine ⟨h12, ?_, ?_⟩
    · intro kv hkv id next he
      rcases List.mem_cons.1 hkv with rfl | hkv
      · exact h14 id next he
      · exact h10 kv hkv id next he
    · rw [List.map_cons, h11, h15, entriesOf]

theorem createField_created (names : Nat → String) : ∀ (f : Nat × FieldSel) (requires : List (Item Unit)) (key : Nat)
    (value : Inj), createField f = .ok (requires, key, value) →
    f.1 = key ∧ CreatedEntry names f requires value
  | (key, .value s), requires, key', value, h => by
    rw [createField] at h
    obtain ⟨⟨fs, inj⟩, h1, h2⟩ := map_ok.1 h
    simp only at h2
    cases h2
    rw [createValue] at h1
    have hc := create_created names s _ _ h1
    refine ⟨rfl, hc.strict, ?_⟩
    intro reqs o hs hcov
    obtain ⟨fs', inj', rfl, rfl, h3, h4, h5⟩ := hc.split
    obtain ⟨h6, h7, h8⟩ := createdEntry_path (key := key) h3 h5 o hs hcov
    refine ⟨h6, ?_⟩
    rw [entryOf, h7, h8]
  | (key, .field id), requires, key', value, h => by
    rw [createField] at h
    obtain ⟨⟨fs, inj⟩, h1, h2⟩ := map_ok.1 h
    simp only at h2
    cases h2
    rw [createValue] at h1
    cases h1
    refine ⟨rfl, chainSet_strict [id] .nil, ?_⟩
    intro reqs o hs hcov
    obtain ⟨h6, h7, h8⟩ := createdEntry_path (key := key) (names := names) (p := [id]) (fs := []) (inj := .identity)
      (k := fun _ _ => .panic) (by intro a b h; cases h) (fun reqs o _ _ => by rw [inject]) o hs hcov
    refine ⟨h6, ?_⟩
    rw [entryOf]
    show (orderKey (key, chain [id] .identity), plainEntry names (key, chain [id] .identity) reqs o) = _
    rw [h7, h8]
    rfl
  | (key, .default j), requires, key', value, h => by
    rw [createField] at h
    obtain ⟨⟨fs, inj⟩, h1, h2⟩ := map_ok.1 h
    simp only at h2
    cases h2
    rw [createValue] at h1
    cases h1
    refine ⟨rfl, .nil, ?_⟩
    intro reqs o hs hcov
    refine ⟨(by intro a b h; cases h), ?_⟩
    rw [entryOf, plainEntry_other names key _ reqs o (by intro a b h; cases h), inject]
    rfl

end

/-! ## What an injection reads -/

mutual

theorem inject_congr (names : Nat → String) : ∀ (inj : Inj) (reqs : List (Item Data)) (o o' : Obj), AgreeOn reqs o o' →
    inject names inj reqs o = inject names inj reqs o'
  | .identity, reqs, o, o', h => by rw [inject, inject]
  | .default j, reqs, o, o', h => by rw [inject, inject]
  | .object kvs, reqs, o, o', h => by
    rw [inject, inject, injectEntries_congr names kvs reqs reqs o o' (fun _ h => h) h]
  | .select id next, reqs, o, o', h => by
    rw [inject, inject]
    split
    · rfl
    · rename_i r hr
      have hf := agreeOn_mem _ _ _ h r (List.mem_of_find?_eq_some hr)
      rw [agreeField_eq] at hf
      cases h1 : o.find r.data.key with
      | none =>
        cases h2 : o'.find r.data.key with
        | none => rfl
        | some w => simp only [h1, h2] at hf
      | some v =>
        cases h2 : o'.find r.data.key with
        | none => simp only [h1, h2] at hf
        | some w =>
          simp only [h1, h2] at hf
          exact forward_congr (fun a b hab => inject_congr names next r.sub a b hab) v w hf

theorem injectEntries_congr (names : Nat → String) : ∀ (kvs : List (Nat × Inj)) (rem reqs : List (Item Data)) (o o' : Obj),
    (∀ r ∈ rem, r ∈ reqs) → AgreeOn reqs o o' → injectEntries names kvs rem reqs o = injectEntries names kvs rem reqs o'
  | [], rem, reqs, o, o', hm, h => by rw [injectEntries, injectEntries]
  | kv :: kvs, rem, reqs, o, o', hm, h => by
    obtain ⟨h1, h2, h3⟩ := injectEntry_congr names kv rem reqs o o' hm h
    rw [injectEntries, injectEntries]
    simp only [h1, h2]
    rw [injectEntries_congr names kvs _ reqs o o' h3 h]

theorem injectEntry_congr (names : Nat → String) : ∀ (kv : Nat × Inj) (rem reqs : List (Item Data)) (o o' : Obj),
    (∀ r ∈ rem, r ∈ reqs) → AgreeOn reqs o o' →
    (injectEntry names kv rem reqs o).1 = (injectEntry names kv rem reqs o').1 ∧
    (injectEntry names kv rem reqs o).2 = (injectEntry names kv rem reqs o').2 ∧
    ∀ r ∈ (injectEntry names kv rem reqs o').2, r ∈ reqs
  | (key, .identity), rem, reqs, o, o', hm, h => by
    rw [injectEntry_other names key .identity rem reqs o (by intro a b h; cases h),
      injectEntry_other names key .identity rem reqs o' (by intro a b h; cases h)]
    exact ⟨by rw [inject_congr names _ reqs o o' h], rfl, hm⟩
  | (key, .default j), rem, reqs, o, o', hm, h => by
    rw [injectEntry, injectEntry]
    exact ⟨rfl, rfl, hm⟩
  | (key, .object kvs), rem, reqs, o, o', hm, h => by
    rw [injectEntry_other names key (.object kvs) rem reqs o (by intro a b h; cases h),
      injectEntry_other names key (.object kvs) rem reqs o' (by intro a b h; cases h)]
    exact ⟨by rw [inject_congr names (.object kvs) reqs o o' h], rfl, hm⟩
  | (key, .select id next), rem, reqs, o, o', hm, h => by
    rw [injectEntry, injectEntry]
    cases hk : seekInjection id rem with
    | exhausted => exact ⟨rfl, rfl, by intro r hr; cases hr⟩
    | less => exact ⟨rfl, rfl, by intro r hr; cases hr⟩
    | found r rest =>
      have hmem : r ∈ rem ∧ ∀ x ∈ rest, x ∈ rem := by
        clear h hm
        induction rem with
        | nil => cases hk
        | cons x t ih =>
          rw [seekInjection] at hk
          split at hk
          · cases hk
          · split at hk
            · cases hk
              exact ⟨List.mem_cons_self, fun x hx => hx⟩
            · obtain ⟨a, b⟩ := ih hk
              exact ⟨List.mem_cons_of_mem _ a, fun x hx => List.mem_cons_of_mem _ (b x hx)⟩
      have hf := agreeOn_mem _ _ _ h r (hm r hmem.1)
      have hd := agreeOn_definition _ _ _ h
      rw [agreeField_eq] at hf
      refine ⟨?_, rfl, fun x hx => hm x (hmem.2 x hx)⟩
      cases h1 : o.find r.data.key with
      | none =>
        cases h2 : o'.find r.data.key with
        | none => simp only [h1, h2, skipped_congr hd]
        | some w => simp only [h1, h2] at hf
      | some v =>
        cases h2 : o'.find r.data.key with
        | none => simp only [h1, h2] at hf
        | some w =>
          simp only [h1, h2] at hf
          simp only [h1, h2]
          rw [forward_congr (fun a b hab => inject_congr names next r.sub a b hab) v w hf]

end

end Verif.Views
