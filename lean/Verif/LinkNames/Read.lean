import Verif.LinkNames.State

namespace Verif.LinkNames

/-! ## The directives a subgraph defines -/

def owns (st : St) (i : Nat) : List Text := (st.dirDefs.filter (fun e => e.1 == i)).map (·.2)

theorem takeWhile_filter_lt {i : Nat} : ∀ {l : List (Nat × Text)}, l.Pairwise (fun a b => a.1 ≤ b.1) →
    (l.drop (l.takeWhile (fun d => decide (d.1 < i))).length).takeWhile (fun d => d.1 == i) = l.filter (fun e => e.1 == i)
  | [], _ => rfl
  | e :: l, h => by
    rw [List.pairwise_cons] at h
    rw [List.takeWhile_cons, List.filter_cons]
    by_cases h1 : e.1 < i
    · have h2 : ¬ (e.1 == i) = true := by simp; omega
      rw [if_pos (by simpa using h1), if_neg h2, List.length_cons, List.drop_succ_cons]
      exact takeWhile_filter_lt h.2
    · rw [if_neg (by simpa using h1), List.length_nil, List.drop_zero]
      have key : ∀ {k : List (Nat × Text)}, k.Pairwise (fun a b => a.1 ≤ b.1) → (∀ x ∈ k, i ≤ x.1) →
          k.takeWhile (fun d => d.1 == i) = k.filter (fun e => e.1 == i) := by
        intro k
        induction k with
        | nil => intro _ _; rfl
        | cons x k ih =>
          intro hp hk
          rw [List.pairwise_cons] at hp
          rw [List.takeWhile_cons, List.filter_cons]
          by_cases hx : (x.1 == i) = true
          · rw [if_pos hx, if_pos hx, ih hp.2 (fun y hy => hk y (List.mem_cons_of_mem _ hy))]
          · rw [if_neg hx, if_neg hx]
            have hx' : i < x.1 := by
              have := hk x List.mem_cons_self
              have h2 : x.1 ≠ i := by simpa using hx
              omega
            symm
            rw [List.filter_eq_nil_iff]
            intro y hy
            have := hp.1 y hy
            simp
            omega
      have hp : (e :: l).Pairwise (fun a b => a.1 ≤ b.1) := List.pairwise_cons.mpr h
      have := key hp (by
        intro x hx
        rcases List.mem_cons.mp hx with rfl | hx
        · omega
        · have := h.1 x hx
          omega)
      rw [this, List.filter_cons]

theorem localDef_none {st : St} (hi : Inv st) (i : Nat) (m : Text) : localDef st i m = none ↔ m ∉ owns st i := by
  unfold localDef owns
  simp only [takeWhile_filter_lt hi.sorted, Option.map_eq_none_iff, List.findIdx?_eq_none_iff]
  constructor
  · intro h hm
    obtain ⟨e, he, rfl⟩ := List.mem_map.mp hm
    simpa using h e he
  · intro h e he
    rw [beq_eq_false_iff_ne]
    rintro rfl
    exact h (List.mem_map.mpr ⟨e, he, rfl⟩)

theorem localDef_some {st : St} (hi : Inv st) {i : Nat} {m : Text} {k : Nat} (h : localDef st i m = some k) :
    ∃ e, st.dirDefs[k]? = some e ∧ e.1 = i ∧ m ∈ owns st i := by
  have hin : m ∈ owns st i := by
    have hn := (not_congr (localDef_none hi i m)).mp (by rw [h]; simp)
    exact Classical.byContradiction hn
  unfold localDef at h
  simp only [Option.map_eq_some_iff] at h
  obtain ⟨j, hj, rfl⟩ := h
  have hlt := hj
  rw [List.findIdx?_eq_some_iff_getElem] at hj
  obtain ⟨hl, _, _⟩ := hj
  generalize hs : (st.dirDefs.takeWhile (fun d => decide (d.1 < i))).length = s at *
  have htw : ((st.dirDefs.drop s).takeWhile (fun d => d.1 == i))[j] ∈ (st.dirDefs.drop s).takeWhile (fun d => d.1 == i) :=
    List.getElem_mem hl
  generalize hx : ((st.dirDefs.drop s).takeWhile (fun d => d.1 == i))[j] = x at htw
  have h1 : ((st.dirDefs.drop s).takeWhile (fun d => d.1 == i))[j]? = some x := by
    rw [List.getElem?_eq_getElem hl, hx]
  have h2 : (st.dirDefs.drop s)[j]? = some x := by
    obtain ⟨t, ht⟩ : (st.dirDefs.drop s).takeWhile (fun d => d.1 == i) <+: st.dirDefs.drop s := List.takeWhile_prefix _
    rw [← ht, getElem?_append_lt hl, h1]
  refine ⟨x, ?_, ?_, hin⟩
  · rw [← h2, List.getElem?_drop]
  · have hf := takeWhile_filter_lt (i := i) hi.sorted
    rw [hs] at hf
    rw [hf] at htw
    have := (List.mem_filter.mp htw).2
    simpa using this

/-! ## The answer -/

def interp (url : Text) (o : Text) : Option Referent :=
  match fedOfUrl url with
  | some .v2 => (federationDirectives.lookup o).map .known
  | some .composite => (compositeDirectives.lookup o).map .known
  | _ => some (.foreign url o)

def mineOr (st : St) (i : Nat) (m : Text) : Referent := if m ∈ owns st i then .mine else .unknown

def readBare (st : St) (g : Subgraph) (i : Nat) (m : Text) : Referent :=
  match coreDirectives.lookup m with
  | some b => .known b
  | none =>
    if g.spec ≠ .v2 ∧ g.virtual = false then
      match federationDirectives.lookup m with
      | some b => .known b
      | none => mineOr st i m
    else mineOr st i m

def readPlain (st : St) (g : Subgraph) (i : Nat) (m : Text) : Referent :=
  match lookDef st i m with
  | some x => (interp x.1.url x.2).getD (mineOr st i m)
  | none => readBare st g i m

def readName (st : St) (g : Subgraph) (i : Nat) (n : Text) : Referent :=
  match (splitName n).1.bind (lookNs st i) with
  | some s => (interp s.url (splitName n).2).getD (mineOr st i (splitName n).2)
  | none => readPlain st g i (splitName n).2

theorem fedOfUrl_v1 (url : Text) : fedOfUrl url ≠ some .v1 := by
  unfold fedOfUrl
  split
  · simp
  · split <;> simp

/-- The answer, with the definitions of the subgraph. -/
def finish (st : St) (i : Nat) (m : Text) (r : Match) : Match :=
  match r with
  | .noMatch =>
    match localDef st i m with
    | some d => .locally d
    | none => .noMatch
  | other => other

theorem matchName_eq (st : St) (i : Nat) (n : Text) :
    matchName st i n = ((splitName n).2, finish st i (splitName n).2
      (matchInner st i (splitName n).2 ((splitName n).1.bind (fun p => get st.namespaces (i, p))))) := by
  unfold matchName finish
  simp only
  generalize matchInner st i (splitName n).2 ((splitName n).1.bind (fun p => get st.namespaces (i, p))) = r
  cases r <;> simp only
  cases localDef st i (splitName n).2 <;> rfl

theorem resolve_finish_noMatch {st : St} (hi : Inv st) (i : Nat) (m : Text) :
    resolve st i (finish st i m .noMatch) = some (mineOr st i m) := by
  unfold finish mineOr
  cases hl : localDef st i m with
  | none =>
    rw [if_neg ((localDef_none hi i m).mp hl)]
    rfl
  | some d =>
    obtain ⟨e, he, rfl, hm⟩ := localDef_some hi hl
    simp only [resolve, he, Option.bind_some, if_pos hm, if_true]

theorem resolve_finish_table {st : St} (hi : Inv st) (i : Nat) (m : Text) (o : Option Builtin) :
    resolve st i (finish st i m (match o with | some b => Match.builtin b | none => .noMatch)) =
      some ((o.map Referent.known).getD (mineOr st i m)) := by
  cases o with
  | none => exact resolve_finish_noMatch hi i m
  | some b => rfl

theorem resolve_matchName {st : St} (hi : Inv st) {i : Nat} {g : Subgraph} (hg : st.sgs[i]? = some g) (n : Text) :
    resolve st i (matchName st i n).2 = some (readName st g i n) := by
  rw [matchName_eq]
  simp only
  unfold readName
  generalize (splitName n).2 = m
  generalize (splitName n).1 = po
  cases hns : po.bind (fun p => get st.namespaces (i, p)) with
  | some k =>
    obtain ⟨p, rfl, hp⟩ := Option.bind_eq_some_iff.mp hns
    have hk := hi.ns _ (get_mem hp)
    obtain ⟨s, hs⟩ : ∃ s, st.schemas[k]? = some s := ⟨_, List.getElem?_eq_getElem hk.1⟩
    have hl : lookNs st i p = some s := by
      unfold lookNs
      rw [hp]
      exact hs
    simp only [Option.bind_some, hl]
    have ht := hi.typ s (List.mem_of_getElem? hs)
    have hsg : s.sg = i := hk.2.2 s hs
    unfold matchInner matchQualified interp
    simp only [hs, ht, typeOf]
    cases hf : fedOfUrl s.url with
    | none => simp [finish, resolve, hs, hsg]
    | some f =>
      cases f with
      | v1 => exact absurd hf (fedOfUrl_v1 _)
      | v2 =>
        simp only [federation_eq]
        exact resolve_finish_table hi i m _
      | composite =>
        simp only [composite_eq]
        exact resolve_finish_table hi i m _
  | none =>
    have hl : po.bind (lookNs st i) = none := by
      cases po with
      | none => rfl
      | some p =>
        have : get st.namespaces (i, p) = none := hns
        simp only [Option.bind_some, lookNs, this, Option.bind_none]
    simp only [hl]
    unfold matchInner readPlain
    simp only
    cases hd : get st.imported (i, m) with
    | some k =>
      have hk := hi.df _ (get_mem hd)
      obtain ⟨d, hd'⟩ : ∃ d, st.defs[k]? = some d := ⟨_, List.getElem?_eq_getElem hk.1⟩
      obtain ⟨s, hs⟩ : ∃ s, st.schemas[d.schema]? = some s :=
        ⟨_, List.getElem?_eq_getElem (hi.sch d (List.mem_of_getElem? hd'))⟩
      have hlk : lookDef st i m = some (s, d.original) := by
        unfold lookDef
        simp [hd, hd', hs]
      rw [hlk]
      have ht := hi.typ s (List.mem_of_getElem? hs)
      have hsg : s.sg = i := hk.2.2 d hd' s hs
      unfold matchImported interp
      simp only [hd', hs, ht, typeOf]
      cases hf : fedOfUrl s.url with
      | none => simp [finish, resolve, hd', hs, hsg]
      | some f =>
        cases f with
        | v1 => exact absurd hf (fedOfUrl_v1 _)
        | v2 =>
          simp only [federation_eq]
          exact resolve_finish_table hi i m _
        | composite =>
          simp only [composite_eq]
          exact resolve_finish_table hi i m _
    | none =>
      have hlk : lookDef st i m = none := by
        unfold lookDef
        simp [hd]
      rw [hlk]
      unfold matchBare readBare
      simp only [core_eq, hg]
      cases coreDirectives.lookup m with
      | some b => rfl
      | none =>
        simp only
        split
        · rw [federation_eq]
          refine (resolve_finish_table hi i m _).trans ?_
          cases federationDirectives.lookup m <;> rfl
        · exact resolve_finish_noMatch hi i m

theorem matchName_fst (st : St) (i : Nat) (n : Text) : (matchName st i n).1 = (splitName n).2 := by
  rw [matchName_eq]

theorem resolve_known {st : St} {i : Nat} {r : Match} {b : Builtin} : resolve st i r = some (.known b) ↔ r = .builtin b := by
  constructor
  · intro h
    cases r with
    | builtin b' =>
      simp only [resolve, Option.some.injEq, Referent.known.injEq] at h
      rw [h]
    | noMatch => simp [resolve] at h
    | crash => simp [resolve] at h
    | qualified s n =>
      simp only [resolve, Option.bind_eq_some_iff] at h
      obtain ⟨x, _, h⟩ := h
      split at h <;> simp at h
    | imported d =>
      simp only [resolve, Option.bind_eq_some_iff] at h
      obtain ⟨x, _, y, _, h⟩ := h
      split at h <;> simp at h
    | locally d =>
      simp only [resolve, Option.bind_eq_some_iff] at h
      obtain ⟨x, _, h⟩ := h
      split at h <;> simp at h
  · rintro rfl
    rfl

/-! ## The subgraphs one after the other -/

/-- Nothing changes for a subgraph. -/
structure Same (i : Nat) (st st' : St) : Prop where
  sg : st'.sgs[i]? = st.sgs[i]?
  ns : ∀ p, lookNs st' i p = lookNs st i p
  df : ∀ n, lookDef st' i n = lookDef st i n
  owns : owns st' i = owns st i
  comp : ∀ m, (i, m) ∈ st'.composed ↔ (i, m) ∈ st.composed

theorem Same.readName {i : Nat} {st st' : St} (h : Same i st st') (g : Subgraph) (n : Text) : readName st' g i n = readName st g i n := by
  unfold LinkNames.readName readPlain readBare mineOr
  rw [show lookNs st' i = lookNs st i from funext h.ns, h.df, h.owns]

theorem Same.trans {i : Nat} {a b c : St} (h : Same i a b) (k : Same i b c) : Same i a c :=
  ⟨k.sg.trans h.sg, fun p => (k.ns p).trans (h.ns p), fun n => (k.df n).trans (h.df n), k.owns.trans h.owns,
    fun m => (k.comp m).trans (h.comp m)⟩

/-- What the second pass changes. -/
structure CompStep (i : Nat) (ds : List SchemaDir) (st st' : St) : Prop where
  sgs : st'.sgs = st.sgs
  schemas : st'.schemas = st.schemas
  namespaces : st'.namespaces = st.namespaces
  defs : st'.defs = st.defs
  imported : st'.imported = st.imported
  dirDefs : st'.dirDefs = st.dirDefs
  exts : st'.exts = st.exts
  comp : ∀ e, e ∈ st'.composed ↔ e ∈ st.composed ∨ e.1 = i ∧ ∃ s ∈ ds, (matchName st i s.name).2 = .builtin .composeDirective ∧
    ∃ name, ("name".toList, some name) ∈ s.args ∧ name.head? = some '@' ∧ e.2 = (splitName (trimAt name)).2

theorem matchName_congr {st st' : St} (h1 : st'.sgs = st.sgs) (h2 : st'.schemas = st.schemas) (h3 : st'.namespaces = st.namespaces)
    (h4 : st'.defs = st.defs) (h5 : st'.imported = st.imported) (h6 : st'.dirDefs = st.dirDefs) (i : Nat) (n : Text) :
    matchName st' i n = matchName st i n := by
  simp only [matchName_eq, finish, matchInner, matchQualified, matchImported, matchBare, localDef, h1, h2, h3, h4, h5, h6]

structure ArgsStep (i : Nat) (as : List (Text × Option Text)) (st st' : St) : Prop where
  sgs : st'.sgs = st.sgs
  schemas : st'.schemas = st.schemas
  namespaces : st'.namespaces = st.namespaces
  defs : st'.defs = st.defs
  imported : st'.imported = st.imported
  dirDefs : st'.dirDefs = st.dirDefs
  exts : st'.exts = st.exts
  comp : ∀ e, e ∈ st'.composed ↔ e ∈ st.composed ∨ e.1 = i ∧
    ∃ name, ("name".toList, some name) ∈ as ∧ name.head? = some '@' ∧ e.2 = (splitName (trimAt name)).2

theorem argStep (i : Nat) (a : Text × Option Text) (st : St) : ArgsStep i [a] st (composeArg i st a) := by
  obtain ⟨a1, a2⟩ := a
  unfold composeArg
  simp only
  split
  · rename_i h1
    subst h1
    cases a2 with
    | none =>
      refine ⟨rfl, rfl, rfl, rfl, rfl, rfl, rfl, fun e => ?_⟩
      simp
    | some name =>
      simp only
      split
      · rename_i h2
        refine ⟨rfl, rfl, rfl, rfl, rfl, rfl, rfl, fun e => ?_⟩
        rw [List.mem_cons, matchName_fst]
        constructor
        · rintro (rfl | h)
          · exact Or.inr ⟨rfl, name, List.mem_singleton.mpr rfl, h2, rfl⟩
          · exact Or.inl h
        · rintro (h | ⟨h3, name', hm, _, h4⟩)
          · exact Or.inr h
          · have := List.mem_singleton.mp hm
            simp only [Prod.mk.injEq, Option.some.injEq, true_and] at this
            subst this
            exact Or.inl (by rw [← h3, ← h4])
      · rename_i h2
        refine ⟨rfl, rfl, rfl, rfl, rfl, rfl, rfl, fun e => ?_⟩
        constructor
        · exact Or.inl
        · rintro (h | ⟨h3, name', hm, h5, h4⟩)
          · exact h
          · have := List.mem_singleton.mp hm
            simp only [Prod.mk.injEq, Option.some.injEq, true_and] at this
            subst this
            exact absurd h5 h2
  · rename_i h1
    refine ⟨rfl, rfl, rfl, rfl, rfl, rfl, rfl, fun e => ?_⟩
    constructor
    · exact Or.inl
    · rintro (h | ⟨h3, name', hm, h5, h4⟩)
      · exact h
      · have := List.mem_singleton.mp hm
        simp only [Prod.mk.injEq] at this
        exact absurd this.1.symm h1

theorem argsStep (i : Nat) : ∀ (as : List (Text × Option Text)) (st : St), ArgsStep i as st (as.foldl (composeArg i) st)
  | [], st => ⟨rfl, rfl, rfl, rfl, rfl, rfl, rfl, fun e => by simp⟩
  | a :: as, st => by
    rw [List.foldl_cons]
    have h1 := argStep i a st
    have h2 := argsStep i as (composeArg i st a)
    refine ⟨h2.sgs.trans h1.sgs, h2.schemas.trans h1.schemas, h2.namespaces.trans h1.namespaces, h2.defs.trans h1.defs,
      h2.imported.trans h1.imported, h2.dirDefs.trans h1.dirDefs, h2.exts.trans h1.exts, fun e => ?_⟩
    rw [h2.comp, h1.comp]
    constructor
    · rintro ((h | ⟨h, n, hm, hr⟩) | ⟨h, n, hm, hr⟩)
      · exact Or.inl h
      · exact Or.inr ⟨h, n, by rw [List.mem_singleton.mp hm]; exact List.mem_cons_self, hr⟩
      · exact Or.inr ⟨h, n, List.mem_cons_of_mem _ hm, hr⟩
    · rintro (h | ⟨h, n, hm, hr⟩)
      · exact Or.inl (Or.inl h)
      · rcases List.mem_cons.mp hm with hm | hm
        · exact Or.inl (Or.inr ⟨h, n, by rw [← hm]; exact List.mem_singleton.mpr rfl, hr⟩)
        · exact Or.inr ⟨h, n, hm, hr⟩

theorem compStep (i : Nat) : ∀ (ds : List SchemaDir) (st : St), CompStep i ds st (ds.foldl (composeDir i) st)
  | [], st => ⟨rfl, rfl, rfl, rfl, rfl, rfl, rfl, fun e => by simp⟩
  | d :: ds, st => by
    rw [List.foldl_cons]
    have h1 : ∃ as, ArgsStep i as st (composeDir i st d) ∧ ((matchName st i d.name).2 = .builtin .composeDirective → as = d.args) ∧
        ((matchName st i d.name).2 ≠ .builtin .composeDirective → as = []) := by
      unfold composeDir
      split
      · rename_i h
        exact ⟨d.args, argsStep i _ _, fun _ => rfl, fun h' => absurd h h'⟩
      · rename_i h
        exact ⟨[], argsStep i [] st, fun h' => absurd h' h, fun _ => rfl⟩
    obtain ⟨as, h1, hy, hn⟩ := h1
    have h2 := compStep i ds (composeDir i st d)
    have hm : ∀ n, matchName (composeDir i st d) i n = matchName st i n :=
      matchName_congr h1.sgs h1.schemas h1.namespaces h1.defs h1.imported h1.dirDefs i
    refine ⟨h2.sgs.trans h1.sgs, h2.schemas.trans h1.schemas, h2.namespaces.trans h1.namespaces, h2.defs.trans h1.defs,
      h2.imported.trans h1.imported, h2.dirDefs.trans h1.dirDefs, h2.exts.trans h1.exts, fun e => ?_⟩
    rw [h2.comp, h1.comp]
    simp only [hm]
    constructor
    · rintro ((h | ⟨h, n, hmem, hr⟩) | ⟨h, s, hs, hr⟩)
      · exact Or.inl h
      · by_cases hc : (matchName st i d.name).2 = .builtin .composeDirective
        · rw [hy hc] at hmem
          exact Or.inr ⟨h, d, List.mem_cons_self, hc, n, hmem, hr⟩
        · rw [hn hc] at hmem
          cases hmem
      · exact Or.inr ⟨h, s, List.mem_cons_of_mem _ hs, hr⟩
    · rintro (h | ⟨h, s, hs, hc, n, hmem, hr⟩)
      · exact Or.inl (Or.inl h)
      · rcases List.mem_cons.mp hs with rfl | hs
        · exact Or.inl (Or.inr ⟨h, n, by rw [hy hc]; exact hmem, hr⟩)
        · exact Or.inr ⟨h, s, hs, hc, n, hmem, hr⟩

/-- What is known about a subgraph. -/
structure About (parse : Text → Option Url) (d : Doc) (i : Nat) (st : St) : Prop where
  sg : st.sgs[i]? = some ⟨d.virtual, d.links.foldl specStep (if d.virtual then .composite else .v1)⟩
  ns : ∀ p, lookNs st i p =
    lastBy (fun l => if (schemaOf parse i l).namespace = some p then some (schemaOf parse i l) else none) d.links none
  df : ∀ n, lookDef st i n =
    lastBy (fun x => if finalOf x.2 = n then some (schemaOf parse i x.1, origOf x.2) else none) d.imports none
  owns : owns st i = d.defs
  comp : ∀ m, (i, m) ∈ st.composed ↔ Asked st i d m

structure IngestStep (parse : Text → Option Url) (d : Doc) (st st' : St) : Prop where
  len : st'.sgs.length = st.sgs.length + 1
  inv : Inv st'
  about : About parse d st.sgs.length st'
  others : ∀ j, j < st.sgs.length → Same j st st'
  exts : st'.exts = st.exts ++ d.links.flatMap (extsOf parse)

theorem lookNs_fresh {st : St} (hi : Inv st) (p : Text) : lookNs st st.sgs.length p = none := by
  unfold lookNs
  cases h : get st.namespaces (st.sgs.length, p) with
  | none => rfl
  | some k =>
    have := (hi.ns _ (get_mem h)).2.1
    simp at this

theorem lookDef_fresh {st : St} (hi : Inv st) (n : Text) : lookDef st st.sgs.length n = none := by
  unfold lookDef
  cases h : get st.imported (st.sgs.length, n) with
  | none => rfl
  | some k =>
    have := (hi.df _ (get_mem h)).2.1
    simp at this

theorem ingestStep (parse : Text → Option Url) (d : Doc) {st : St} (hi : Inv st) : IngestStep parse d st (ingest parse st d) := by
  unfold ingest
  simp only
  generalize hst1 : ({ (pushSubgraph st d.virtual) with
      dirDefs := (pushSubgraph st d.virtual).dirDefs ++ d.defs.map (fun n => (st.sgs.length, n)) } : St) = st1
  have e1 : st1.sgs = st.sgs ++ [⟨d.virtual, if d.virtual then .composite else .v1⟩] ∧ st1.schemas = st.schemas ∧
      st1.namespaces = st.namespaces ∧ st1.defs = st.defs ∧ st1.imported = st.imported ∧
      st1.dirDefs = st.dirDefs ++ d.defs.map (fun n => (st.sgs.length, n)) ∧ st1.composed = st.composed ∧ st1.exts = st.exts := by
    subst hst1
    exact ⟨rfl, rfl, rfl, rfl, rfl, rfl, rfl, rfl⟩
  clear hst1
  obtain ⟨a1, a2, a3, a4, a5, a6, a7, a8⟩ := e1
  have hl1 : st1.sgs.length = st.sgs.length + 1 := by rw [a1]; simp
  have hi1 : Inv st1 := by
    refine ⟨?_, ?_, ?_, ?_, ?_, ?_, ?_⟩
    · rw [a3, a2, hl1]
      intro e he
      have := hi.ns e he
      exact ⟨this.1, by omega, this.2.2⟩
    · rw [a5, a4, a2, hl1]
      intro e he
      have := hi.df e he
      exact ⟨this.1, by omega, this.2.2⟩
    · rw [a4, a2]; exact hi.sch
    · rw [a2]; exact hi.typ
    · rw [a6, hl1]
      intro e he
      rcases List.mem_append.mp he with he | he
      · have := hi.dirs e he
        omega
      · obtain ⟨n, _, rfl⟩ := List.mem_map.mp he
        simp
    · rw [a6, List.pairwise_append]
      refine ⟨hi.sorted, ?_, ?_⟩
      · rw [List.pairwise_map]
        exact List.Pairwise.imp (fun _ => Nat.le_refl _) (List.pairwise_of_forall (fun _ _ => trivial) : d.defs.Pairwise (fun _ _ => True))
      · intro a ha b hb
        obtain ⟨n, _, rfl⟩ := List.mem_map.mp hb
        exact Nat.le_of_lt (hi.dirs a ha)
    · rw [a7, hl1]
      intro e he
      have := hi.comp e he
      omega
  have hns1 : ∀ j p, lookNs st1 j p = lookNs st j p := fun j p => by unfold lookNs; rw [a3, a2]
  have hdf1 : ∀ j p, lookDef st1 j p = lookDef st j p := fun j p => by unfold lookDef; rw [a5, a4, a2]
  have hlt : st.sgs.length < st1.sgs.length := by omega
  have h2 : LinkStep parse st.sgs.length d.links st1 (d.directives.foldl (linkDir parse st.sgs.length) st1) := linkStep_all hi1 hlt
  generalize d.directives.foldl (linkDir parse st.sgs.length) st1 = st2 at h2 ⊢
  have h3 := compStep st.sgs.length d.directives st2
  generalize d.directives.foldl (composeDir st.sgs.length) st2 = st3 at h3 ⊢
  have hi3 : Inv st3 := by
    have hi2 := h2.inv
    refine ⟨?_, ?_, ?_, ?_, ?_, ?_, ?_⟩
    · rw [h3.namespaces, h3.schemas, h3.sgs]; exact hi2.ns
    · rw [h3.imported, h3.defs, h3.schemas, h3.sgs]; exact hi2.df
    · rw [h3.defs, h3.schemas]; exact hi2.sch
    · rw [h3.schemas]; exact hi2.typ
    · rw [h3.dirDefs, h3.sgs]; exact hi2.dirs
    · rw [h3.dirDefs]; exact hi2.sorted
    · rw [h3.sgs]
      intro e he
      rcases (h3.comp e).mp he with he | ⟨he, _⟩
      · exact hi2.comp e he
      · rw [he, h2.len]; exact hlt
  have hns3 : ∀ j p, lookNs st3 j p = lookNs st2 j p := fun j p => by unfold lookNs; rw [h3.namespaces, h3.schemas]
  have hdf3 : ∀ j p, lookDef st3 j p = lookDef st2 j p := fun j p => by unfold lookDef; rw [h3.imported, h3.defs, h3.schemas]
  have hown : ∀ j, owns st3 j = owns st j ++ (if j = st.sgs.length then d.defs else []) := by
    intro j
    unfold owns
    rw [h3.dirDefs, h2.dirDefs, a6, List.filter_append, List.map_append]
    congr 1
    by_cases hj : j = st.sgs.length
    · subst hj
      rw [if_pos rfl, List.filter_eq_self.mpr (by
        intro e he
        obtain ⟨n, _, rfl⟩ := List.mem_map.mp he
        simp), List.map_map]
      exact List.map_id' _
    · rw [if_neg hj, List.filter_eq_nil_iff.mpr (by
        intro e he
        obtain ⟨n, _, rfl⟩ := List.mem_map.mp he
        simp
        exact Ne.symm hj)]
      rfl
  refine ⟨by rw [h3.sgs, h2.len, hl1], hi3, ⟨?_, ?_, ?_, ?_, ?_⟩, ?_, ?_⟩
  · rw [h3.sgs, h2.sgHere, a1]
    simp
  · intro p
    rw [hns3, h2.ns, hns1, lookNs_fresh hi]
  · intro n
    rw [hdf3, h2.df, hdf1, lookDef_fresh hi]
    rfl
  · rw [hown, if_pos rfl]
    have : owns st st.sgs.length = [] := by
      unfold owns
      rw [List.filter_eq_nil_iff.mpr (by
        intro e he
        have := hi.dirs e he
        simp
        omega)]
      rfl
    rw [this, List.nil_append]
  · intro m
    rw [h3.comp, h2.composed, a7]
    have hmn : ∀ n, matchName st3 st.sgs.length n = matchName st2 st.sgs.length n :=
      matchName_congr h3.sgs h3.schemas h3.namespaces h3.defs h3.imported h3.dirDefs _
    unfold Asked Stands
    simp only [resolve_known, hmn]
    constructor
    · rintro (h | ⟨_, s, hs, hc, name, hm, hh, he⟩)
      · have := hi.comp _ h
        simp at this
      · obtain ⟨k, hk⟩ := trimAt_shape name
        refine ⟨s, hs, hc, k - 1, trimAt name, ?_, trimAt_head name, rest_iff.mpr he.symm⟩
        have hk0 : k ≠ 0 := by
          rintro rfl
          simp only [List.replicate_zero, List.nil_append] at hk
          rw [hk] at hh
          exact trimAt_head name hh
        rw [Nat.sub_add_cancel (by omega), ← hk]
        exact hm
    · rintro ⟨s, hs, hc, k, y, hm, hy, hr⟩
      refine Or.inr ⟨trivial, s, hs, hc, _, hm, by rw [List.replicate_succ]; rfl, ?_⟩
      rw [trimAt_replicate _ hy]
      exact (rest_iff.mp hr).symm
  · intro j hj
    have hne : j ≠ st.sgs.length := by omega
    refine ⟨?_, ?_, ?_, ?_, ?_⟩
    · rw [h3.sgs, h2.sgThere j hne, a1, getElem?_append_lt hj]
    · intro p
      rw [hns3, h2.nsThere j p hne, hns1]
    · intro n
      rw [hdf3, h2.dfThere j n hne, hdf1]
    · rw [hown, if_neg hne, List.append_nil]
    · intro m
      rw [h3.comp, h2.composed, a7]
      constructor
      · rintro (h | ⟨h, _⟩)
        · exact h
        · exact absurd h hne
      · exact Or.inl
  · rw [h3.exts, h2.exts, a8]

theorem Same.about {parse : Text → Option Url} {d : Doc} {i : Nat} {st st' : St} (hi : Inv st) (hi' : Inv st') (h : Same i st st')
    (ha : About parse d i st) : About parse d i st' := by
  refine ⟨h.sg.trans ha.sg, fun p => (h.ns p).trans (ha.ns p), fun n => (h.df n).trans (ha.df n), h.owns.trans ha.owns, fun m => ?_⟩
  rw [h.comp, ha.comp]
  unfold Asked Stands
  have : ∀ n, resolve st' i (matchName st' i n).2 = resolve st i (matchName st i n).2 := by
    intro n
    rw [resolve_matchName hi ha.sg, resolve_matchName hi' (h.sg.trans ha.sg), h.readName]
  simp only [this]

theorem ingest_fold (parse : Text → Option Url) : ∀ (ds : List Doc) (st : St), Inv st →
    Inv (ds.foldl (ingest parse) st) ∧ (ds.foldl (ingest parse) st).sgs.length = st.sgs.length + ds.length ∧
    (∀ j, j < st.sgs.length → Same j st (ds.foldl (ingest parse) st)) ∧
    (ds.foldl (ingest parse) st).exts = st.exts ++ ds.flatMap (fun d => d.links.flatMap (extsOf parse))
  | [], st, hi => ⟨hi, rfl, fun j _ => ⟨rfl, fun _ => rfl, fun _ => rfl, rfl, fun _ => Iff.rfl⟩, by simp⟩
  | d :: ds, st, hi => by
    have h1 := ingestStep parse d hi
    obtain ⟨k1, k2, k3, k4⟩ := ingest_fold parse ds (ingest parse st d) h1.inv
    rw [List.foldl_cons]
    refine ⟨k1, by rw [k2, h1.len, List.length_cons]; omega, fun j hj => (h1.others j hj).trans (k3 j (by rw [h1.len]; omega)), ?_⟩
    rw [k4, h1.exts, List.flatMap_cons, List.append_assoc]

theorem about_all {parse : Text → Option Url} {loaded : List Ext} {ds : List Doc} {i : Nat} {d : Doc} (h : ds[i]? = some d) :
    Inv (ingestAll parse loaded ds) ∧ About parse d i (ingestAll parse loaded ds) := by
  obtain ⟨hlt, hd⟩ := List.getElem?_eq_some_iff.mp h
  have hsplit : ds = ds.take i ++ d :: ds.drop (i + 1) := by
    conv => lhs; rw [← List.take_append_drop i ds]
    congr 1
    rw [List.drop_eq_getElem_cons hlt, hd]
  unfold ingestAll
  have e : ds.foldl (ingest parse) { exts := loaded } =
      (ds.drop (i + 1)).foldl (ingest parse) (ingest parse ((ds.take i).foldl (ingest parse) { exts := loaded }) d) := by
    conv => lhs; rw [hsplit]
    rw [List.foldl_append, List.foldl_cons]
  rw [e]
  obtain ⟨k1, k2, _, _⟩ := ingest_fold parse (ds.take i) { exts := loaded } (inv_start loaded)
  generalize (ds.take i).foldl (ingest parse) { exts := loaded } = st0 at k1 k2
  have hlen : st0.sgs.length = i := by
    rw [k2, List.length_take, Nat.min_eq_left (by omega)]
    simp
  have h1 := ingestStep parse d k1
  obtain ⟨j1, j2, j3, _⟩ := ingest_fold parse (ds.drop (i + 1)) (ingest parse st0 d) h1.inv
  refine ⟨j1, (j3 i (by rw [h1.len, hlen]; omega)).about h1.inv j1 ?_⟩
  have := h1.about
  rwa [hlen] at this

end Verif.LinkNames
