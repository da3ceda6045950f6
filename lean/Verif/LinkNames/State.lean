import Verif.LinkNames.Texts

namespace Verif.LinkNames

/-! ## What is found in a state -/

def lookNs (st : St) (i : Nat) (p : Text) : Option Schema := (get st.namespaces (i, p)).bind (fun k => st.schemas[k]?)

def lookDef (st : St) (i : Nat) (n : Text) : Option (Schema × Text) :=
  (get st.imported (i, n)).bind (fun k => st.defs[k]?.bind (fun d => st.schemas[d.schema]?.map (fun s => (s, d.original))))

def typeOf (url : Text) : SchemaType := match fedOfUrl url with | some f => .fed f | none => .other

structure Inv (st : St) : Prop where
  ns : ∀ e ∈ st.namespaces, e.2 < st.schemas.length ∧ e.1.1 < st.sgs.length ∧ ∀ s, st.schemas[e.2]? = some s → s.sg = e.1.1
  df : ∀ e ∈ st.imported, e.2 < st.defs.length ∧ e.1.1 < st.sgs.length ∧
    ∀ d, st.defs[e.2]? = some d → ∀ s, st.schemas[d.schema]? = some s → s.sg = e.1.1
  sch : ∀ d ∈ st.defs, d.schema < st.schemas.length
  typ : ∀ s ∈ st.schemas, s.type = typeOf s.url
  dirs : ∀ e ∈ st.dirDefs, e.1 < st.sgs.length
  sorted : st.dirDefs.Pairwise (fun a b => a.1 ≤ b.1)
  comp : ∀ e ∈ st.composed, e.1 < st.sgs.length

theorem inv_start (loaded : List Ext) : Inv { exts := loaded } :=
  ⟨by simp, by simp, by simp, by simp, by simp, List.Pairwise.nil, by simp⟩

theorem get_cons (e : (Nat × Text) × Nat) (m : List ((Nat × Text) × Nat)) (k : Nat × Text) :
    get (e :: m) k = if e.1 = k then some e.2 else get m k := by
  unfold get
  rw [List.find?_cons]
  by_cases h : e.1 = k
  · simp [h]
  · simp [h]

theorem get_mem {m : List ((Nat × Text) × Nat)} {k : Nat × Text} {v : Nat} (h : get m k = some v) : (k, v) ∈ m := by
  unfold get at h
  rw [Option.map_eq_some_iff] at h
  obtain ⟨e, he, rfl⟩ := h
  have h1 := List.find?_some he
  have h2 := List.mem_of_find?_eq_some he
  have : e.1 = k := by simpa using h1
  rw [← this]
  exact h2

theorem getElem?_append_lt {α : Type} {l k : List α} {i : Nat} (h : i < l.length) : (l ++ k)[i]? = l[i]? :=
  List.getElem?_append_left h

/-! ## Imports -/

def finalOf : Import → Text
  | .string n => trimAt n
  | .qualified n none => trimAt n
  | .qualified _ (some as) => trimAt as

def origOf : Import → Text
  | .string n => trimAt n
  | .qualified n _ => trimAt n

/-- What one import changes. -/
structure ImportStep (i : Nat) (id : Nat) (im : Import) (st st' : St) : Prop where
  sgs : st'.sgs = st.sgs
  schemas : st'.schemas = st.schemas
  namespaces : st'.namespaces = st.namespaces
  dirDefs : st'.dirDefs = st.dirDefs
  composed : st'.composed = st.composed
  exts : st'.exts = st.exts
  defs : ∃ d, st'.defs = st.defs ++ [d] ∧ d.schema = id ∧ d.original = origOf im
  imported : st'.imported = ((i, finalOf im), st.defs.length) :: st.imported

theorem importStep (i id : Nat) (im : Import) (st : St) : ImportStep i id im st (ingestImport i id st im) := by
  cases im with
  | string n => exact ⟨rfl, rfl, rfl, rfl, rfl, rfl, ⟨_, rfl, rfl, rfl⟩, rfl⟩
  | qualified n as =>
    cases as with
    | none => exact ⟨rfl, rfl, rfl, rfl, rfl, rfl, ⟨_, rfl, rfl, rfl⟩, rfl⟩
    | some as =>
      unfold ingestImport
      simp only
      split
      · exact ⟨rfl, rfl, rfl, rfl, rfl, rfl, ⟨_, rfl, rfl, rfl⟩, rfl⟩
      · exact ⟨rfl, rfl, rfl, rfl, rfl, rfl, ⟨_, rfl, rfl, rfl⟩, rfl⟩

/-- What the imports of a schema change. -/
structure ImportsStep (i : Nat) (s : Schema) (ims : List Import) (st st' : St) : Prop where
  sgs : st'.sgs = st.sgs
  schemas : st'.schemas = st.schemas
  namespaces : st'.namespaces = st.namespaces
  dirDefs : st'.dirDefs = st.dirDefs
  composed : st'.composed = st.composed
  exts : st'.exts = st.exts
  inv : Inv st'
  here : ∀ n, lookDef st' i n =
    lastBy (fun im => if finalOf im = n then some (s, origOf im) else none) ims (lookDef st i n)
  there : ∀ j n, j ≠ i → lookDef st' j n = lookDef st j n

theorem importsStep {i id : Nat} {s : Schema} : ∀ {ims : List Import} {st : St}, Inv st → st.schemas[id]? = some s → s.sg = i →
    i < st.sgs.length → ImportsStep i s ims st (ims.foldl (ingestImport i id) st)
  | [], st, hi, hs, hsg, hlt => ⟨rfl, rfl, rfl, rfl, rfl, rfl, hi, fun _ => rfl, fun _ _ _ => rfl⟩
  | im :: ims, st, hi, hs, hsg, hlt => by
    rw [List.foldl_cons]
    have h1 := importStep i id im st
    generalize ingestImport i id st im = st1 at h1 ⊢
    obtain ⟨d, hd, hd1, hd2⟩ := h1.defs
    have hid : id < st.schemas.length := by
      rw [List.getElem?_eq_some_iff] at hs
      exact hs.1
    have hi1 : Inv st1 := by
      refine ⟨?_, ?_, ?_, ?_, ?_, ?_, ?_⟩
      · rw [h1.namespaces, h1.schemas, h1.sgs]; exact hi.ns
      · rw [h1.imported, hd, h1.sgs, h1.schemas]
        intro e he
        rcases List.mem_cons.mp he with rfl | he
        · refine ⟨by simp, hlt, fun x hx t ht => ?_⟩
          simp only [List.getElem?_concat_length, Option.some.injEq] at hx
          subst hx
          rw [hd1, hs] at ht
          cases ht
          exact hsg
        · have := hi.df e he
          refine ⟨by rw [List.length_append]; omega, this.2.1, ?_⟩
          rw [getElem?_append_lt this.1]
          exact this.2.2
      · rw [hd, h1.schemas]
        intro x hx
        rcases List.mem_append.mp hx with hx | hx
        · exact hi.sch x hx
        · rw [List.mem_singleton.mp hx, hd1]; exact hid
      · rw [h1.schemas]; exact hi.typ
      · rw [h1.dirDefs, h1.sgs]; exact hi.dirs
      · rw [h1.dirDefs]; exact hi.sorted
      · rw [h1.composed, h1.sgs]; exact hi.comp
    have look : ∀ j n, lookDef st1 j n = if j = i ∧ finalOf im = n then some (s, origOf im) else lookDef st j n := by
      intro j n
      unfold lookDef
      rw [h1.imported, get_cons, hd, h1.schemas]
      by_cases hc : j = i ∧ finalOf im = n
      · rw [if_pos hc, if_pos (by rw [hc.1, hc.2])]
        simp only [Option.bind_some, List.getElem?_concat_length, hd1, hs, hd2, Option.map_some]
      · rw [if_neg hc, if_neg (by
          intro e
          simp only [Prod.mk.injEq] at e
          exact hc ⟨e.1.symm, e.2⟩)]
        cases hg : get st.imported (j, n) with
        | none => rfl
        | some k =>
          simp only [Option.bind_some]
          rw [getElem?_append_lt (hi.df _ (get_mem hg)).1]
    have h2 := importsStep (ims := ims) hi1 (by rw [h1.schemas]; exact hs) hsg (by rw [h1.sgs]; exact hlt)
    refine ⟨h2.sgs.trans h1.sgs, h2.schemas.trans h1.schemas, h2.namespaces.trans h1.namespaces, h2.dirDefs.trans h1.dirDefs,
      h2.composed.trans h1.composed, h2.exts.trans h1.exts, h2.inv, ?_, ?_⟩
    · intro n
      rw [h2.here, look]
      show _ = lastBy _ ims (Option.or _ _)
      congr 1
      by_cases hc : finalOf im = n
      · simp [hc]
      · simp [hc]
    · intro j n hj
      rw [h2.there j n hj, look, if_neg (fun h => hj h.1)]

/-! ## Links -/

def urlOf (parse : Text → Option Url) (l : Link) : Option Url := (parse l.url).filter (fun u => u.segments.isSome)

def schemaOf (parse : Text → Option Url) (i : Nat) (l : Link) : Schema :=
  ⟨i, typeOf l.url, l.url, (urlOf parse l).bind linkName, l.as⟩

def extsOf (parse : Text → Option Url) (l : Link) : List Ext :=
  match urlOf parse l with
  | some u => extOfLink l u
  | none => []

def specStep (f : Fed) (l : Link) : Fed := match fedOfUrl l.url with | some g => f.max g | none => f

def importPairs (ls : List Link) : List (Link × Import) := ls.flatMap (fun l => l.imports.map (fun i => (l, i)))

/-- What links change. -/
structure LinkStep (parse : Text → Option Url) (i : Nat) (ls : List Link) (st st' : St) : Prop where
  len : st'.sgs.length = st.sgs.length
  sgHere : st'.sgs[i]? = st.sgs[i]?.map (fun g => { g with spec := ls.foldl specStep g.spec })
  sgThere : ∀ j, j ≠ i → st'.sgs[j]? = st.sgs[j]?
  dirDefs : st'.dirDefs = st.dirDefs
  composed : st'.composed = st.composed
  exts : st'.exts = st.exts ++ ls.flatMap (extsOf parse)
  inv : Inv st'
  ns : ∀ p, lookNs st' i p = lastBy (fun l => if (schemaOf parse i l).namespace = some p then some (schemaOf parse i l) else none) ls (lookNs st i p)
  nsThere : ∀ j p, j ≠ i → lookNs st' j p = lookNs st j p
  df : ∀ n, lookDef st' i n =
    lastBy (fun x => if finalOf x.2 = n then some (schemaOf parse i x.1, origOf x.2) else none) (importPairs ls) (lookDef st i n)
  dfThere : ∀ j n, j ≠ i → lookDef st' j n = lookDef st j n

theorem LinkStep.refl {parse : Text → Option Url} {i : Nat} {st : St} (h : Inv st) : LinkStep parse i [] st st :=
  ⟨rfl, by cases st.sgs[i]? <;> rfl, fun _ _ => rfl, rfl, rfl, by simp, h, fun _ => rfl, fun _ _ _ => rfl, fun _ => rfl,
    fun _ _ _ => rfl⟩

theorem LinkStep.trans {parse : Text → Option Url} {i : Nat} {a b : List Link} {st st1 st2 : St} (h1 : LinkStep parse i a st st1)
    (h2 : LinkStep parse i b st1 st2) : LinkStep parse i (a ++ b) st st2 := by
  refine ⟨h2.len.trans h1.len, ?_, fun j hj => (h2.sgThere j hj).trans (h1.sgThere j hj), h2.dirDefs.trans h1.dirDefs,
    h2.composed.trans h1.composed, ?_, h2.inv, ?_, fun j p hj => (h2.nsThere j p hj).trans (h1.nsThere j p hj), ?_,
    fun j n hj => (h2.dfThere j n hj).trans (h1.dfThere j n hj)⟩
  · rw [h2.sgHere, h1.sgHere]
    cases st.sgs[i]? <;> simp [List.foldl_append]
  · rw [h2.exts, h1.exts, List.flatMap_append, List.append_assoc]
  · intro p
    rw [h2.ns, h1.ns, lastBy_append]
  · intro n
    rw [h2.df, h1.df, importPairs, importPairs, importPairs, List.flatMap_append, lastBy_append]

theorem lookDef_schemas {st st' : St} (hi : Inv st) (h1 : st'.imported = st.imported) (h2 : st'.defs = st.defs) {k : List Schema}
    (h3 : st'.schemas = st.schemas ++ k) (j : Nat) (n : Text) : lookDef st' j n = lookDef st j n := by
  unfold lookDef
  rw [h1, h2, h3]
  cases hg : get st.imported (j, n) with
  | none => rfl
  | some x =>
    simp only [Option.bind_some]
    cases hd : st.defs[x]? with
    | none => rfl
    | some d =>
      simp only [Option.bind_some]
      rw [getElem?_append_lt (hi.sch d (List.mem_of_getElem? hd))]

/-- What a new schema changes. -/
structure SchemaStep (s : Schema) (st st' : St) : Prop where
  sgs : st'.sgs = match fedOfUrl s.url with
    | none => st.sgs
    | some f => st.sgs.modify s.sg (fun g => { g with spec := g.spec.max f })
  schemas : st'.schemas = st.schemas ++ [s]
  namespaces : st'.namespaces = match s.namespace with
    | none => st.namespaces
    | some ns => ((s.sg, ns), st.schemas.length) :: st.namespaces
  defs : st'.defs = st.defs
  imported : st'.imported = st.imported
  dirDefs : st'.dirDefs = st.dirDefs
  composed : st'.composed = st.composed
  exts : st'.exts = st.exts

theorem schemaStep (st : St) (s : Schema) : SchemaStep s st (pushSchema st s) := by
  unfold pushSchema
  cases h1 : s.namespace <;> cases h2 : fedOfUrl s.url <;> constructor <;> simp [h1, h2]

theorem linkStep_one {parse : Text → Option Url} {i : Nat} {l : Link} {st : St} (hi : Inv st) (hlt : i < st.sgs.length) :
    LinkStep parse i [l] st (ingestLink parse i st (some l)) := by
  show LinkStep parse i [l] st (l.imports.foldl (ingestImport i st.schemas.length)
    (pushSchema { st with exts := st.exts ++ extsOf parse l } (schemaOf parse i l)))
  generalize hst0 : ({ st with exts := st.exts ++ extsOf parse l } : St) = st0
  have e0 : st0.sgs = st.sgs ∧ st0.schemas = st.schemas ∧ st0.namespaces = st.namespaces ∧ st0.defs = st.defs ∧
      st0.imported = st.imported ∧ st0.dirDefs = st.dirDefs ∧ st0.composed = st.composed ∧ st0.exts = st.exts ++ extsOf parse l := by
    subst hst0; exact ⟨rfl, rfl, rfl, rfl, rfl, rfl, rfl, rfl⟩
  clear hst0
  obtain ⟨a1, a2, a3, a4, a5, a6, a7, a8⟩ := e0
  have h1 := schemaStep st0 (schemaOf parse i l)
  generalize hs1 : schemaOf parse i l = s at h1 ⊢
  have hsg : s.sg = i := by rw [← hs1]; rfl
  have hsu : s.url = l.url := by rw [← hs1]; rfl
  have hst : s.type = typeOf s.url := by rw [← hs1]; rfl
  generalize pushSchema st0 s = st1 at h1 ⊢
  have hlen1 : st1.sgs.length = st.sgs.length := by
    rw [h1.sgs, a1]
    split <;> simp
  have hsch1 : st1.schemas = st.schemas ++ [s] := by rw [h1.schemas, a2]
  have hi1 : Inv st1 := by
    refine ⟨?_, ?_, ?_, ?_, ?_, ?_, ?_⟩
    · rw [h1.namespaces, hsch1, hlen1, a3, a2]
      have old : ∀ e ∈ st.namespaces, e.2 < (st.schemas ++ [s]).length ∧ e.1.1 < st.sgs.length ∧
          ∀ t, (st.schemas ++ [s])[e.2]? = some t → t.sg = e.1.1 := by
        intro e he
        have := hi.ns e he
        refine ⟨by rw [List.length_append]; omega, this.2.1, ?_⟩
        rw [getElem?_append_lt this.1]
        exact this.2.2
      split
      · exact old
      · intro e he
        rcases List.mem_cons.mp he with rfl | he
        · refine ⟨by simp, by rw [hsg]; exact hlt, fun t ht => ?_⟩
          simp only [List.getElem?_concat_length, Option.some.injEq] at ht
          rw [← ht]
        · exact old e he
    · rw [h1.imported, h1.defs, hlen1, hsch1, a5, a4]
      intro e he
      have := hi.df e he
      refine ⟨this.1, this.2.1, fun d hd t ht => ?_⟩
      rw [getElem?_append_lt (hi.sch d (List.mem_of_getElem? hd))] at ht
      exact this.2.2 d hd t ht
    · rw [h1.defs, hsch1, a4]
      intro d hd
      have := hi.sch d hd
      rw [List.length_append]
      omega
    · rw [hsch1]
      intro t ht
      rcases List.mem_append.mp ht with ht | ht
      · exact hi.typ t ht
      · rw [List.mem_singleton.mp ht]; exact hst
    · rw [h1.dirDefs, hlen1, a6]; exact hi.dirs
    · rw [h1.dirDefs, a6]; exact hi.sorted
    · rw [h1.composed, hlen1, a7]; exact hi.comp
  have hget : st1.schemas[st.schemas.length]? = some s := by rw [hsch1]; simp
  have h2 := importsStep (ims := l.imports) hi1 hget hsg (by rw [hlen1]; exact hlt)
  generalize l.imports.foldl (ingestImport i st.schemas.length) st1 = st2 at h2 ⊢
  have sg1 : ∀ j, st1.sgs[j]? = if j = i then st.sgs[j]?.map (fun g => { g with spec := specStep g.spec l }) else st.sgs[j]? := by
    intro j
    rw [h1.sgs, a1, hsu, hsg]
    unfold specStep
    cases hf : fedOfUrl l.url with
    | none =>
      simp only
      split
      · cases st.sgs[j]? <;> rfl
      · rfl
    | some f =>
      simp only
      rw [List.getElem?_modify]
      by_cases hj : j = i
      · subst hj
        simp
      · rw [if_neg hj]
        simp [Ne.symm hj]
  have ns1 : ∀ j p, lookNs st1 j p = if j = i ∧ s.namespace = some p then some s else lookNs st j p := by
    intro j p
    have old : (get st.namespaces (j, p)).bind (fun k => (st.schemas ++ [s])[k]?) = lookNs st j p := by
      unfold lookNs
      cases hg : get st.namespaces (j, p) with
      | none => rfl
      | some k =>
        simp only [Option.bind_some]
        rw [getElem?_append_lt (hi.ns _ (get_mem hg)).1]
    show (get st1.namespaces (j, p)).bind (fun k => st1.schemas[k]?) = _
    rw [h1.namespaces, hsch1, a3, a2]
    cases hns : s.namespace with
    | none =>
      simp only
      rw [old, if_neg (by simp)]
    | some q =>
      simp only
      rw [get_cons]
      by_cases hc : j = i ∧ q = p
      · rw [if_pos (by rw [hsg, hc.1, hc.2]), if_pos ⟨hc.1, by rw [hc.2]⟩]
        simp
      · rw [if_neg (by
          rw [hsg]
          intro e
          simp only [Prod.mk.injEq] at e
          exact hc ⟨e.1.symm, e.2⟩), old, if_neg (by
          intro h
          exact hc ⟨h.1, by simpa using h.2⟩)]
  have df1 : ∀ j n, lookDef st1 j n = lookDef st j n :=
    lookDef_schemas hi (by rw [h1.imported, a5]) (by rw [h1.defs, a4]) hsch1
  have nsEq : ∀ j p, lookNs st2 j p = lookNs st1 j p := by
    intro j p
    unfold lookNs
    rw [h2.namespaces, h2.schemas]
  refine ⟨by rw [h2.sgs, hlen1], ?_, ?_, ?_, ?_, ?_, h2.inv, ?_, ?_, ?_, ?_⟩
  · rw [h2.sgs, sg1, if_pos rfl]
    rfl
  · intro j hj
    rw [h2.sgs, sg1, if_neg hj]
  · rw [h2.dirDefs, h1.dirDefs, a6]
  · rw [h2.composed, h1.composed, a7]
  · rw [h2.exts, h1.exts, a8]
    simp
  · intro p
    rw [nsEq, ns1]
    show _ = Option.or _ _
    simp only [hs1]
    by_cases hc : s.namespace = some p
    · rw [if_pos ⟨trivial, hc⟩, if_pos hc]; rfl
    · rw [if_neg (fun h => hc h.2), if_neg hc]; rfl
  · intro j p hj
    rw [nsEq, ns1, if_neg (fun h => hj h.1)]
  · intro n
    rw [h2.here, df1]
    unfold importPairs lastBy
    rw [List.flatMap_cons, List.flatMap_nil, List.append_nil, List.foldl_map, ← hs1]
  · intro j n hj
    rw [h2.there j n hj, df1]

theorem linkStep_all {parse : Text → Option Url} {i : Nat} : ∀ {ds : List SchemaDir} {st : St}, Inv st → i < st.sgs.length →
    LinkStep parse i (ds.filterMap (fun s => if s.name = "link".toList then s.link else none)) st (ds.foldl (linkDir parse i) st)
  | [], st, hi, hlt => LinkStep.refl hi
  | d :: ds, st, hi, hlt => by
    rw [List.foldl_cons, List.filterMap_cons]
    by_cases hn : d.name = "link".toList
    · rw [if_pos hn, linkDir, if_pos hn]
      cases hl : d.link with
      | none =>
        simp only
        have h := linkStep_all (ds := ds) (st := ingestLink parse i st none) (parse := parse) (i := i)
          ⟨hi.ns, hi.df, hi.sch, hi.typ, hi.dirs, hi.sorted, hi.comp⟩ hlt
        exact ⟨h.len, h.sgHere, h.sgThere, h.dirDefs, h.composed, h.exts, h.inv, h.ns, h.nsThere, h.df, h.dfThere⟩
      | some l =>
        simp only
        have h1 := linkStep_one (parse := parse) (l := l) hi hlt
        have h2 := linkStep_all (ds := ds) (parse := parse) h1.inv (by rw [h1.len]; exact hlt)
        exact h1.trans h2
    · rw [if_neg hn, linkDir, if_neg hn]
      exact linkStep_all hi hlt

end Verif.LinkNames
