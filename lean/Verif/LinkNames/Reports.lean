import Verif.LinkNames.Answers

namespace Verif.LinkNames

/-! ## Imports -/

def importDiags (i : Nat) (im : Import) : List (Nat × Diag) :=
  match im with
  | .qualified n (some as) =>
    if (as.head? == some '@') != (n.head? == some '@') then [(i, if n.head? == some '@' then Diag.missingAt else Diag.extraAt)] else []
  | _ => []

theorem ingestImport_diags (i id : Nat) (im : Import) (st : St) : (ingestImport i id st im).diags = st.diags ++ importDiags i im := by
  cases im with
  | string n => simp [ingestImport, importDiags, pushDef]
  | qualified n as =>
    cases as with
    | none => simp [ingestImport, importDiags, pushDef]
    | some as =>
      unfold ingestImport importDiags
      simp only
      split <;> simp [pushDef]

theorem ingestImports_diags (i id : Nat) : ∀ (ims : List Import) (st : St),
    (ims.foldl (ingestImport i id) st).diags = st.diags ++ ims.flatMap (importDiags i)
  | [], st => by simp
  | im :: ims, st => by
    rw [List.foldl_cons, ingestImports_diags i id ims, ingestImport_diags, List.flatMap_cons, List.append_assoc]

theorem pushSchema_diags (st : St) (s : Schema) : (pushSchema st s).diags = st.diags ++
    (match s.namespace with
      | none => []
      | some ns => if (get st.namespaces (s.sg, ns)).isSome then [(s.sg, Diag.collision)] else []) := by
  unfold pushSchema
  cases h1 : s.namespace <;> cases h2 : fedOfUrl s.url <;> simp only
  · simp
  · simp
  · split <;> simp
  · split <;> simp

theorem lookNs_isSome {st : St} (hi : Inv st) (i : Nat) (p : Text) : (get st.namespaces (i, p)).isSome = (lookNs st i p).isSome := by
  unfold lookNs
  cases h : get st.namespaces (i, p) with
  | none => rfl
  | some k =>
    have := (hi.ns _ (get_mem h)).1
    simp only [Option.bind_some, List.getElem?_eq_getElem this]
    rfl

/-- What is wrong with links. -/
inductive LinksWrong (parse : Text → Option Url) (ls : List Link) : Diag → Prop where
  | missingAt {l : Link} {o n : Text} : l ∈ ls → Import.qualified ('@' :: o) (some n) ∈ l.imports → (∀ m, n ≠ '@' :: m) →
      LinksWrong parse ls .missingAt
  | extraAt {l : Link} {o n : Text} : l ∈ ls → Import.qualified o (some ('@' :: n)) ∈ l.imports → (∀ m, o ≠ '@' :: m) →
      LinksWrong parse ls .extraAt
  | collision {a b c : List Link} {l k : Link} {p : Text} : ls = a ++ l :: b ++ k :: c → Prefix parse l p → Prefix parse k p →
      LinksWrong parse ls .collision

theorem head_at {s : Text} : (s.head? == some '@') = true ↔ ∃ m, s = '@' :: m := by
  cases s with
  | nil => simp
  | cons c s => simp

theorem mem_importDiags (i : Nat) (im : Import) (e : Nat × Diag) : e ∈ importDiags i im ↔ e.1 = i ∧
    ((e.2 = .missingAt ∧ ∃ o n, im = .qualified ('@' :: o) (some n) ∧ ∀ m, n ≠ '@' :: m) ∨
      (e.2 = .extraAt ∧ ∃ o n, im = .qualified o (some ('@' :: n)) ∧ ∀ m, o ≠ '@' :: m)) := by
  obtain ⟨e1, e2⟩ := e
  cases im with
  | string n => simp [importDiags]
  | qualified n as =>
    cases as with
    | none => simp [importDiags]
    | some as =>
      unfold importDiags
      simp only
      by_cases h1 : (as.head? == some '@') = true <;> by_cases h2 : (n.head? == some '@') = true
      · obtain ⟨m, rfl⟩ := head_at.mp h1
        obtain ⟨k, rfl⟩ := head_at.mp h2
        simp
      · have h2' : ∀ m, n ≠ '@' :: m := fun m h => h2 (head_at.mpr ⟨m, h⟩)
        obtain ⟨m, rfl⟩ := head_at.mp h1
        rw [show (n.head? == some '@') = false from by simpa using h2]
        simp only [List.head?_cons, beq_self_eq_true, bne_iff_ne, ne_eq, Bool.true_eq_false, not_false_eq_true, if_true,
          Bool.false_eq_true, if_false, List.mem_singleton, Prod.mk.injEq, Import.qualified.injEq, Option.some.injEq]
        constructor
        · rintro ⟨rfl, rfl⟩
          exact ⟨rfl, Or.inr ⟨rfl, n, m, ⟨rfl, rfl⟩, h2'⟩⟩
        · rintro ⟨rfl, ⟨rfl, o, n', ⟨e, _⟩, _⟩ | ⟨rfl, _⟩⟩
          · exact absurd e (h2' o)
          · exact ⟨rfl, rfl⟩
      · have h1' : ∀ m, as ≠ '@' :: m := fun m h => h1 (head_at.mpr ⟨m, h⟩)
        obtain ⟨m, rfl⟩ := head_at.mp h2
        rw [show (as.head? == some '@') = false from by simpa using h1]
        simp only [List.head?_cons, beq_self_eq_true, bne_iff_ne, ne_eq, Bool.false_eq_true, not_false_eq_true, if_true,
          List.mem_singleton, Prod.mk.injEq, Import.qualified.injEq, Option.some.injEq]
        constructor
        · rintro ⟨rfl, rfl⟩
          exact ⟨rfl, Or.inl ⟨rfl, m, as, ⟨rfl, rfl⟩, h1'⟩⟩
        · rintro ⟨rfl, ⟨rfl, _⟩ | ⟨rfl, o, n', ⟨_, e⟩, _⟩⟩
          · exact ⟨rfl, rfl⟩
          · exact absurd e (h1' n')
      · have h1' : ∀ m, as ≠ '@' :: m := fun m h => h1 (head_at.mpr ⟨m, h⟩)
        have h2' : ∀ m, n ≠ '@' :: m := fun m h => h2 (head_at.mpr ⟨m, h⟩)
        rw [show (n.head? == some '@') = false from by simpa using h2, show (as.head? == some '@') = false from by simpa using h1]
        simp only [bne_self_eq_false, Bool.false_eq_true, if_false, List.not_mem_nil, Import.qualified.injEq, Option.some.injEq,
          false_iff]
        rintro ⟨rfl, ⟨rfl, o, n', ⟨e, _⟩, _⟩ | ⟨rfl, o, n', ⟨_, e⟩, _⟩⟩
        · exact absurd e (h2' o)
        · exact absurd e (h1' n')

/-! ## Links -/

/-- The links read so far, of a subgraph which had none. -/
structure Reported (parse : Text → Option Url) (i : Nat) (ds : List SchemaDir) (st st' : St) : Prop where
  diags : ∀ e, e ∈ st'.diags ↔ e ∈ st.diags ∨ e.1 = i ∧
    (LinksWrong parse (ds.filterMap (fun s => if s.name = "link".toList then s.link else none)) e.2 ∨
      e.2 = .badLink ∧ ∃ s ∈ ds, s.name = "link".toList ∧ s.link = none)

theorem linksWrong_append {parse : Text → Option Url} {ls : List Link} {l : Link} {e : Diag} :
    LinksWrong parse (ls ++ [l]) e ↔ LinksWrong parse ls e ∨
      (e = .missingAt ∧ ∃ o n, Import.qualified ('@' :: o) (some n) ∈ l.imports ∧ ∀ m, n ≠ '@' :: m) ∨
      (e = .extraAt ∧ ∃ o n, Import.qualified o (some ('@' :: n)) ∈ l.imports ∧ ∀ m, o ≠ '@' :: m) ∨
      (e = .collision ∧ ∃ k ∈ ls, ∃ p, Prefix parse k p ∧ Prefix parse l p) := by
  constructor
  · intro h
    cases h with
    | missingAt hl hm hn =>
      rcases List.mem_append.mp hl with hl | hl
      · exact Or.inl (.missingAt hl hm hn)
      · rw [List.mem_singleton.mp hl] at hm
        exact Or.inr (Or.inl ⟨rfl, _, _, hm, hn⟩)
    | extraAt hl hm hn =>
      rcases List.mem_append.mp hl with hl | hl
      · exact Or.inl (.extraAt hl hm hn)
      · rw [List.mem_singleton.mp hl] at hm
        exact Or.inr (Or.inr (Or.inl ⟨rfl, _, _, hm, hn⟩))
    | @collision a b c x k p e h1 h2 =>
      rcases List.eq_nil_or_concat c with rfl | ⟨c', y, rfl⟩
      · have := List.append_inj' e (by simp)
        obtain ⟨e1, e2⟩ := this
        simp only [List.cons.injEq, and_true] at e2
        subst e2
        exact Or.inr (Or.inr (Or.inr ⟨rfl, x, by rw [e1]; simp, p, h1, h2⟩))
      · have e' : ls ++ [l] = (a ++ x :: b ++ k :: c') ++ [y] := by rw [e]; simp
        have := List.append_inj' e' (by simp)
        exact Or.inl (.collision this.1 h1 h2)
  · rintro (h | ⟨rfl, o, n, hm, hn⟩ | ⟨rfl, o, n, hm, hn⟩ | ⟨rfl, k, hk, p, h1, h2⟩)
    · cases h with
      | missingAt hl hm hn => exact .missingAt (List.mem_append_left _ hl) hm hn
      | extraAt hl hm hn => exact .extraAt (List.mem_append_left _ hl) hm hn
      | @collision a b c x k p e h1 h2 =>
        refine .collision (a := a) (b := b) (c := c ++ [l]) ?_ h1 h2
        rw [e, List.append_assoc, List.cons_append]
    · exact .missingAt (List.mem_append_right _ (List.mem_singleton.mpr rfl)) hm hn
    · exact .extraAt (List.mem_append_right _ (List.mem_singleton.mpr rfl)) hm hn
    · obtain ⟨a, b, rfl⟩ := List.append_of_mem hk
      exact .collision (a := a) (b := b) (c := []) rfl h1 h2

theorem reported_append {parse : Text → Option Url} {i : Nat} {st : St} (hi : Inv st) (hlt : i < st.sgs.length)
    (hfresh : ∀ p, lookNs st i p = none) (n : Nat) : ∀ (ds : List SchemaDir), ds.length = n →
    Reported parse i ds st (ds.foldl (linkDir parse i) st) := by
  induction n with
  | zero =>
    intro ds h
    have : ds = [] := by simpa using h
    subst this
    refine ⟨fun e => ?_⟩
    simp only [List.foldl_nil, List.filterMap_nil, List.not_mem_nil, false_and, exists_false, and_false, or_false]
    constructor
    · exact Or.inl
    · rintro (h | ⟨_, h⟩)
      · exact h
      · obtain ⟨e1, e2⟩ := e
        simp only at h
        cases h with
        | missingAt h => cases h
        | extraAt h => cases h
        | collision h => simp at h
  | succ n ih =>
    intro ds h
    rcases List.eq_nil_or_concat ds with rfl | ⟨ds', d, rfl⟩
    · simp at h
    · rw [List.concat_eq_append] at h ⊢
      have hl : ds'.length = n := by simpa using h
      have h1 := ih ds' hl
      have h2 : LinkStep parse i _ st (ds'.foldl (linkDir parse i) st) := linkStep_all hi hlt
      rw [List.foldl_append]
      show Reported parse i (ds' ++ [d]) st (linkDir parse i _ d)
      generalize ds'.foldl (linkDir parse i) st = st1 at h1 h2 ⊢
      refine ⟨fun e => ?_⟩
      unfold linkDir
      by_cases hn : d.name = "link".toList
      · rw [if_pos hn]
        cases hd : d.link with
        | none =>
          show e ∈ st1.diags ++ [(i, Diag.badLink)] ↔ _
          rw [List.mem_append, h1.diags, List.filterMap_append]
          simp only [List.filterMap_cons, hn, if_true, hd, List.filterMap_nil, List.append_nil, List.mem_append,
            List.mem_singleton]
          constructor
          · rintro ((h | ⟨h, h' | ⟨h', s, hs, h3⟩⟩) | rfl)
            · exact Or.inl h
            · exact Or.inr ⟨h, Or.inl h'⟩
            · exact Or.inr ⟨h, Or.inr ⟨h', s, Or.inl hs, h3⟩⟩
            · exact Or.inr ⟨rfl, Or.inr ⟨rfl, d, Or.inr rfl, hn, hd⟩⟩
          · rintro (h | ⟨h, h' | ⟨h', s, hs | hs, h3⟩⟩)
            · exact Or.inl (Or.inl h)
            · exact Or.inl (Or.inr ⟨h, Or.inl h'⟩)
            · exact Or.inl (Or.inr ⟨h, Or.inr ⟨h', s, hs, h3⟩⟩)
            · exact Or.inr (by obtain ⟨e1, e2⟩ := e; simp only at h h'; rw [h, h'])
        | some l =>
          show e ∈ (l.imports.foldl (ingestImport i st1.schemas.length)
            (pushSchema { st1 with exts := st1.exts ++ extsOf parse l } (schemaOf parse i l))).diags ↔ _
          rw [ingestImports_diags, pushSchema_diags, List.filterMap_append]
          simp only [List.filterMap_cons, hn, if_true, hd, List.filterMap_nil, List.mem_append, List.mem_flatMap, mem_importDiags,
            List.mem_singleton, linksWrong_append, h1.diags]
          generalize hls : ds'.filterMap (fun s => if s.name = "link".toList then s.link else none) = ls at h2 ⊢
          have hcol : (e ∈ (match (schemaOf parse i l).namespace with
              | none => []
              | some ns => if (get st1.namespaces ((schemaOf parse i l).sg, ns)).isSome then
                  [((schemaOf parse i l).sg, Diag.collision)] else [])) ↔
              e.1 = i ∧ e.2 = .collision ∧ ∃ k ∈ ls, ∃ p, Prefix parse k p ∧ Prefix parse l p := by
            have hsg : (schemaOf parse i l).sg = i := rfl
            have hearlier : ∀ p, (get st1.namespaces (i, p)).isSome = true ↔ ∃ k ∈ ls, Prefix parse k p := by
              intro p
              rw [lookNs_isSome h2.inv, h2.ns, hfresh]
              constructor
              · intro h
                refine Classical.byContradiction (fun hno => ?_)
                rw [(lastBy_none _ _ _).mpr ⟨fun z hz => if_neg (fun hz' => hno ⟨z, hz, (namespace_iff parse i z p).mp hz'⟩), rfl⟩] at h
                simp at h
              · rintro ⟨k, hk, hp⟩
                rw [Option.isSome_iff_ne_none]
                intro hnone
                have := ((lastBy_none _ _ _).mp hnone).1 k hk
                rw [if_pos ((namespace_iff parse i k p).mpr hp)] at this
                cases this
            cases hns : (schemaOf parse i l).namespace with
            | none =>
              simp only [List.not_mem_nil, false_iff]
              rintro ⟨_, _, k, _, p, _, hp⟩
              rw [← namespace_iff parse i, hns] at hp
              cases hp
            | some q =>
              simp only
              rw [hsg]
              by_cases hq : (get st1.namespaces (i, q)).isSome = true
              · rw [if_pos hq, List.mem_singleton]
                obtain ⟨k, hk, hp⟩ := (hearlier q).mp hq
                constructor
                · rintro rfl
                  exact ⟨rfl, rfl, k, hk, q, hp, (namespace_iff parse i l q).mp hns⟩
                · rintro ⟨h, h', _⟩
                  obtain ⟨e1, e2⟩ := e
                  simp only at h h'
                  rw [h, h']
              · rw [if_neg hq]
                simp only [List.not_mem_nil, false_iff]
                rintro ⟨_, _, k, hk, p, hp, hp'⟩
                rw [← namespace_iff parse i l, hns] at hp'
                cases hp'
                exact hq ((hearlier _).mpr ⟨k, hk, hp⟩)
          rw [hcol]
          constructor
          · rintro (((h | ⟨h, h' | ⟨h', s, hs, h3⟩⟩) | ⟨h, h', hc⟩) | ⟨im, him, h, ⟨h', o, n, rfl, hx⟩ | ⟨h', o, n, rfl, hx⟩⟩)
            · exact Or.inl h
            · exact Or.inr ⟨h, Or.inl (Or.inl h')⟩
            · exact Or.inr ⟨h, Or.inr ⟨h', s, Or.inl hs, h3⟩⟩
            · exact Or.inr ⟨h, Or.inl (Or.inr (Or.inr (Or.inr ⟨h', hc⟩)))⟩
            · exact Or.inr ⟨h, Or.inl (Or.inr (Or.inl ⟨h', o, n, him, hx⟩))⟩
            · exact Or.inr ⟨h, Or.inl (Or.inr (Or.inr (Or.inl ⟨h', o, n, him, hx⟩)))⟩
          · rintro (h | ⟨h, (h' | ⟨h', o, n, him, hx⟩ | ⟨h', o, n, him, hx⟩ | ⟨h', hc⟩) | ⟨h', s, hs | rfl, h3⟩⟩)
            · exact Or.inl (Or.inl (Or.inl h))
            · exact Or.inl (Or.inl (Or.inr ⟨h, Or.inl h'⟩))
            · exact Or.inr ⟨_, him, h, Or.inl ⟨h', o, n, rfl, hx⟩⟩
            · exact Or.inr ⟨_, him, h, Or.inr ⟨h', o, n, rfl, hx⟩⟩
            · exact Or.inl (Or.inr ⟨h, h', hc⟩)
            · exact Or.inl (Or.inl (Or.inr ⟨h, Or.inr ⟨h', s, hs, h3⟩⟩))
            · rw [hd] at h3
              cases h3.2
      · rw [if_neg hn, h1.diags, List.filterMap_append]
        simp only [List.filterMap_cons, hn, if_false, List.filterMap_nil, List.append_nil, List.mem_append, List.mem_singleton]
        constructor
        · rintro (h | ⟨h, h' | ⟨h', s, hs, h3⟩⟩)
          · exact Or.inl h
          · exact Or.inr ⟨h, Or.inl h'⟩
          · exact Or.inr ⟨h, Or.inr ⟨h', s, Or.inl hs, h3⟩⟩
        · rintro (h | ⟨h, h' | ⟨h', s, hs | rfl, h3⟩⟩)
          · exact Or.inl h
          · exact Or.inr ⟨h, Or.inl h'⟩
          · exact Or.inr ⟨h, Or.inr ⟨h', s, hs, h3⟩⟩
          · exact absurd h3.1 hn

/-! ## The second pass -/

theorem composeArg_diags (i : Nat) (a : Text × Option Text) (st : St) (e : Nat × Diag) : e ∈ (composeArg i st a).diags ↔
    e ∈ st.diags ∨ e = (i, .badCompose) ∧ ∃ v, a = ("name".toList, v) ∧ ∀ n, v ≠ some ('@' :: n) := by
  obtain ⟨a1, a2⟩ := a
  unfold composeArg
  simp only
  by_cases h1 : a1 = "name".toList
  · rw [if_pos h1]
    subst h1
    cases a2 with
    | none =>
      simp only [List.mem_append, List.mem_singleton]
      constructor
      · rintro (h | h)
        · exact Or.inl h
        · exact Or.inr ⟨h, none, rfl, by simp⟩
      · rintro (h | ⟨h, _⟩)
        · exact Or.inl h
        · exact Or.inr h
    | some name =>
      simp only
      by_cases h2 : name.head? = some '@'
      · rw [if_pos h2]
        constructor
        · exact Or.inl
        · rintro (h | ⟨_, v, hv, hn⟩)
          · exact h
          · simp only [Prod.mk.injEq, true_and] at hv
            subst hv
            obtain ⟨t, ht⟩ := List.head?_eq_some_iff.mp h2
            exact absurd (by rw [ht]) (hn t)
      · rw [if_neg h2]
        simp only [List.mem_append, List.mem_singleton]
        constructor
        · rintro (h | h)
          · exact Or.inl h
          · refine Or.inr ⟨h, some name, rfl, fun n hn => ?_⟩
            simp only [Option.some.injEq] at hn
            rw [hn] at h2
            exact h2 rfl
        · rintro (h | ⟨h, _⟩)
          · exact Or.inl h
          · exact Or.inr h
  · rw [if_neg h1]
    constructor
    · exact Or.inl
    · rintro (h | ⟨_, v, hv, _⟩)
      · exact h
      · simp only [Prod.mk.injEq] at hv
        exact absurd hv.1 h1

theorem composeArgs_diags (i : Nat) : ∀ (as : List (Text × Option Text)) (st : St) (e : Nat × Diag),
    e ∈ (as.foldl (composeArg i) st).diags ↔
      e ∈ st.diags ∨ e = (i, .badCompose) ∧ ∃ v, ("name".toList, v) ∈ as ∧ ∀ n, v ≠ some ('@' :: n)
  | [], st, e => by simp
  | a :: as, st, e => by
    rw [List.foldl_cons, composeArgs_diags i as, composeArg_diags]
    constructor
    · rintro ((h | ⟨h, v, rfl, hv⟩) | ⟨h, v, hm, hv⟩)
      · exact Or.inl h
      · exact Or.inr ⟨h, v, List.mem_cons_self, hv⟩
      · exact Or.inr ⟨h, v, List.mem_cons_of_mem _ hm, hv⟩
    · rintro (h | ⟨h, v, hm, hv⟩)
      · exact Or.inl (Or.inl h)
      · rcases List.mem_cons.mp hm with hm | hm
        · exact Or.inl (Or.inr ⟨h, v, hm.symm, hv⟩)
        · exact Or.inr ⟨h, v, hm, hv⟩

theorem composeDirs_diags (i : Nat) : ∀ (ds : List SchemaDir) (st : St) (e : Nat × Diag),
    e ∈ (ds.foldl (composeDir i) st).diags ↔ e ∈ st.diags ∨ e = (i, .badCompose) ∧ ∃ s ∈ ds,
      (matchName st i s.name).2 = .builtin .composeDirective ∧ ∃ v, ("name".toList, v) ∈ s.args ∧ ∀ n, v ≠ some ('@' :: n)
  | [], st, e => by simp
  | d :: ds, st, e => by
    rw [List.foldl_cons, composeDirs_diags i ds]
    have h1 := compStep i [d] st
    simp only [List.foldl_cons, List.foldl_nil] at h1
    have hm : ∀ n, matchName (composeDir i st d) i n = matchName st i n :=
      matchName_congr h1.sgs h1.schemas h1.namespaces h1.defs h1.imported h1.dirDefs i
    simp only [hm]
    have hd : e ∈ (composeDir i st d).diags ↔ e ∈ st.diags ∨ e = (i, .badCompose) ∧
        (matchName st i d.name).2 = .builtin .composeDirective ∧ ∃ v, ("name".toList, v) ∈ d.args ∧ ∀ n, v ≠ some ('@' :: n) := by
      unfold composeDir
      split
      · rename_i h
        rw [composeArgs_diags, h]
        simp
      · rename_i h
        constructor
        · exact Or.inl
        · rintro (h' | ⟨_, h', _⟩)
          · exact h'
          · exact absurd h' h
    rw [hd]
    constructor
    · rintro ((h | ⟨h, hr⟩) | ⟨h, s, hs, hr⟩)
      · exact Or.inl h
      · exact Or.inr ⟨h, d, List.mem_cons_self, hr⟩
      · exact Or.inr ⟨h, s, List.mem_cons_of_mem _ hs, hr⟩
    · rintro (h | ⟨h, s, hs, hr⟩)
      · exact Or.inl (Or.inl h)
      · rcases List.mem_cons.mp hs with rfl | hs
        · exact Or.inl (Or.inr ⟨h, hr⟩)
        · exact Or.inr ⟨h, s, hs, hr⟩

/-! ## All the subgraphs -/

theorem ingest_diags (parse : Text → Option Url) (d : Doc) {st : St} (hi : Inv st) (e : Nat × Diag) :
    e ∈ (ingest parse st d).diags ↔ e ∈ st.diags ∨ e.1 = st.sgs.length ∧ Wrong parse (ingest parse st d) st.sgs.length d e.2 := by
  have hstep := ingestStep parse d hi
  unfold ingest at hstep ⊢
  simp only at hstep ⊢
  generalize hst1 : ({ (pushSubgraph st d.virtual) with
      dirDefs := (pushSubgraph st d.virtual).dirDefs ++ d.defs.map (fun n => (st.sgs.length, n)) } : St) = st1 at hstep ⊢
  have e1 : st1.sgs.length = st.sgs.length + 1 ∧ st1.diags = st.diags ∧ (∀ j p, lookNs st1 j p = lookNs st j p) ∧ Inv st1 := by
    subst hst1
    refine ⟨by simp [pushSubgraph], rfl, fun _ _ => rfl, ?_⟩
    have := (ingestStep parse ⟨d.virtual, d.defs, []⟩ hi).inv
    exact this
  clear hst1
  obtain ⟨hl, hd1, hns, hi1⟩ := e1
  have h2 := reported_append (parse := parse) (i := st.sgs.length) hi1 (by omega)
    (fun p => by rw [hns]; exact lookNs_fresh hi p) _ d.directives rfl
  have h3 : CompStep _ _ _ _ := compStep st.sgs.length d.directives (d.directives.foldl (linkDir parse st.sgs.length) st1)
  rw [composeDirs_diags, h2.diags, hd1]
  generalize d.directives.foldl (linkDir parse st.sgs.length) st1 = st2 at h2 h3 hstep ⊢
  generalize d.directives.foldl (composeDir st.sgs.length) st2 = st3 at h3 hstep ⊢
  have hmn : ∀ n, matchName st3 st.sgs.length n = matchName st2 st.sgs.length n :=
    matchName_congr h3.sgs h3.schemas h3.namespaces h3.defs h3.imported h3.dirDefs _
  obtain ⟨e1, e2⟩ := e
  simp only [Prod.mk.injEq]
  constructor
  · rintro ((h | ⟨h, h' | ⟨rfl, h'⟩⟩) | ⟨⟨h, rfl⟩, s, hs, hc, hv⟩)
    · exact Or.inl h
    · refine Or.inr ⟨h, ?_⟩
      cases h' with
      | missingAt hl hm hn => exact ⟨_, hl, _, _, hm, hn⟩
      | extraAt hl hm hn => exact ⟨_, hl, _, _, hm, hn⟩
      | collision he h1 h2 => exact ⟨_, _, _, _, _, _, he, h1, h2⟩
    · exact Or.inr ⟨h, h'⟩
    · refine Or.inr ⟨h, s, hs, ?_, hv⟩
      unfold Stands
      rw [resolve_known, hmn]
      exact hc
  · rintro (h | ⟨h, h'⟩)
    · exact Or.inl (Or.inl h)
    · cases e2 with
      | badLink => exact Or.inl (Or.inr ⟨h, Or.inr ⟨rfl, h'⟩⟩)
      | missingAt =>
        obtain ⟨l, hl, o, n, hm, hn⟩ := h'
        exact Or.inl (Or.inr ⟨h, Or.inl (.missingAt hl hm hn)⟩)
      | extraAt =>
        obtain ⟨l, hl, o, n, hm, hn⟩ := h'
        exact Or.inl (Or.inr ⟨h, Or.inl (.extraAt hl hm hn)⟩)
      | collision =>
        obtain ⟨a, l, b, k, c, p, he, h1, h2⟩ := h'
        exact Or.inl (Or.inr ⟨h, Or.inl (.collision he h1 h2)⟩)
      | badCompose =>
        obtain ⟨s, hs, hc, hv⟩ := h'
        unfold Stands at hc
        rw [resolve_known, hmn] at hc
        exact Or.inr ⟨⟨h, rfl⟩, s, hs, hc, hv⟩

theorem wrong_same {parse : Text → Option Url} {d : Doc} {i : Nat} {st st' : St} (hi : Inv st) (hi' : Inv st') (h : Same i st st')
    (ha : About parse d i st) (e : Diag) : Wrong parse st' i d e ↔ Wrong parse st i d e := by
  have : ∀ n r, Stands st' i n r ↔ Stands st i n r := by
    intro n r
    unfold Stands
    rw [resolve_matchName hi ha.sg, resolve_matchName hi' (h.sg.trans ha.sg), h.readName]
  cases e <;> simp only [Wrong, this]

theorem fold_diags (parse : Text → Option Url) : ∀ (ds : List Doc) (st : St), Inv st → ∀ e,
    e ∈ (ds.foldl (ingest parse) st).diags ↔ e ∈ st.diags ∨ ∃ (k : Nat) (d : Doc), ds[k]? = some d ∧ e.1 = st.sgs.length + k ∧
      Wrong parse (ds.foldl (ingest parse) st) e.1 d e.2
  | [], st, hi, e => by simp
  | d :: ds, st, hi, e => by
    have h1 := ingestStep parse d hi
    have hf := ingest_fold parse ds (ingest parse st d) h1.inv
    rw [List.foldl_cons, fold_diags parse ds _ h1.inv, ingest_diags parse d hi]
    have hsame := hf.2.2.1 st.sgs.length (by rw [h1.len]; omega)
    have hw := wrong_same h1.inv hf.1 hsame h1.about
    constructor
    · rintro ((h | ⟨h, h'⟩) | ⟨k, d', hd, hk, h'⟩)
      · exact Or.inl h
      · exact Or.inr ⟨0, d, rfl, h, by rw [h]; exact (hw e.2).mpr h'⟩
      · exact Or.inr ⟨k + 1, d', hd, by rw [hk, h1.len]; omega, h'⟩
    · rintro (h | ⟨k, d', hd, hk, h'⟩)
      · exact Or.inl (Or.inl h)
      · cases k with
        | zero =>
          simp only [List.getElem?_cons_zero, Option.some.injEq] at hd
          subst hd
          have hk' : e.1 = st.sgs.length := hk
          rw [hk'] at h'
          exact Or.inl (Or.inr ⟨hk', (hw e.2).mp h'⟩)
        | succ k =>
          exact Or.inr ⟨k, d', hd, by rw [hk, h1.len]; omega, h'⟩

/-! ## Extensions -/

theorem mem_extsOf (parse : Text → Option Url) (l : Link) (e : Ext) :
    e ∈ extsOf parse l ↔ e.linkUrl = l.url ∧ Registers parse l e.name := by
  obtain ⟨eu, en⟩ := e
  unfold extsOf Registers
  cases hu : urlOf parse l with
  | none =>
    simp only [List.not_mem_nil, false_iff]
    rintro ⟨_, u, ss, h1, h2, _⟩
    have : urlOf parse l = some u := by
      unfold urlOf
      rw [Option.filter_eq_some_iff]
      exact ⟨h1, by rw [h2]; rfl⟩
    rw [hu] at this
    cases this
  | some u =>
    unfold urlOf at hu
    rw [Option.filter_eq_some_iff] at hu
    obtain ⟨hp, hseg⟩ := hu
    obtain ⟨ss, hss⟩ := Option.isSome_iff_exists.mp hseg
    simp only
    unfold extOfLink
    have part : ∀ (x : Option Text), ((⟨eu, en⟩ : Ext) ∈ (match x with | some n => [(⟨l.url, n⟩ : Ext)] | none => [])) ↔
        eu = l.url ∧ x = some en := by
      intro x
      cases x with
      | none => simp
      | some n =>
        simp only [List.mem_singleton, Ext.mk.injEq, Option.some.injEq]
        exact and_congr_right (fun _ => eq_comm)
    have orr : ∀ (x : Option Text), l.as.or x = some en ↔ l.as = some en ∨ l.as = none ∧ x = some en := by
      intro x
      cases l.as <;> simp
    rw [List.mem_append]
    constructor
    · rintro (h | h)
      · split at h
        · rename_i hf
          obtain ⟨h1, h2⟩ := (part _).mp h
          rw [orr, fileExtName_iff hss] at h2
          exact ⟨h1, u, ss, hp, hss, Or.inl ⟨hf, h2⟩⟩
        · cases h
      · split at h
        · rename_i hf
          obtain ⟨h1, h2⟩ := (part _).mp h
          rw [orr, registryExtName_iff hss] at h2
          exact ⟨h1, u, ss, hp, hss, Or.inr ⟨(registryUrl_iff hss).mp hf, h2⟩⟩
        · cases h
    · rintro ⟨h1, u', ss', hp', hss', h⟩
      rw [hp] at hp'
      cases hp'
      rw [hss] at hss'
      cases hss'
      rcases h with ⟨hf, h⟩ | ⟨hf, h⟩
      · left
        rw [if_pos hf]
        refine (part _).mpr ⟨h1, ?_⟩
        rw [orr, fileExtName_iff hss]
        exact h
      · right
        rw [if_pos ((registryUrl_iff hss).mpr hf)]
        refine (part _).mpr ⟨h1, ?_⟩
        rw [orr, registryExtName_iff hss]
        exact h

theorem mem_exts (parse : Text → Option Url) (loaded : List Ext) (ds : List Doc) (e : Ext) :
    e ∈ (ingestAll parse loaded ds).exts ↔ e ∈ loaded ∨ ∃ d ∈ ds, ∃ l ∈ d.links, e.linkUrl = l.url ∧ Registers parse l e.name := by
  unfold ingestAll
  rw [(ingest_fold parse ds _ (inv_start loaded)).2.2.2]
  simp only [List.mem_append, List.mem_flatMap, mem_extsOf]

end Verif.LinkNames
