import Verif.LinkNames.Reports

/-!
# C80: which directive a name stands for, and what becomes of it
-/
namespace Verif.LinkNames

variable {parse : Text → Option Url} {loaded : List Ext} {ds : List Doc} {i : Nat} {d : Doc}

/-- A name without prefix stands for what the subgraph imports under it, for a directive of the language, for a directive of
the federation when the subgraph does not link it, or for a directive of the subgraph's own. What is missing: subgraphs with
both specifications, with URLs which only look like that of the federation, with imports which are in error, and names
under which something else than a directive is imported. -/
theorem C80_plain_partial (h : ds[i]? = some d) (hc : Clear d) {n : Text} (hn : Single n)
    (ht : ∀ x ∈ d.imports, ∀ o, ¬ Brings x.2 false n o) (r : Referent) :
    Stands (ingestAll parse loaded ds) i n r ↔ Plain d n r := by
  obtain ⟨hi, ha⟩ := about_all (parse := parse) (loaded := loaded) h
  unfold Stands
  rw [resolve_matchName hi ha.sg, Option.some.injEq, ← readPlain_iff ha hc ht r]
  unfold readName splitName
  rw [splitOnce_single hn]
  exact Iff.rfl

/-- A name with the prefix of a link stands for the directive of that schema, and when it has none for a directive of the
subgraph's own. -/
theorem C80_prefixed (h : ds[i]? = some d) {n p m : Text} (hn : Parts n p m) {l : Link} (hl : LinkedAs parse d p l)
    (hg : (∃ a b, l.url = a ++ "dev/federation/v2".toList ++ b) → federationUrl l.url = true) (r : Referent) :
    Stands (ingestAll parse loaded ds) i n r ↔ r = (schemaDirective l.url m).getD (own d m) := by
  obtain ⟨hi, ha⟩ := about_all (parse := parse) (loaded := loaded) h
  unfold Stands
  rw [resolve_matchName hi ha.sg, Option.some.injEq]
  have : readName (ingestAll parse loaded ds) ⟨d.virtual, d.links.foldl specStep (if d.virtual then .composite else .v1)⟩ i n =
      (schemaDirective l.url m).getD (own d m) := by
    unfold readName splitName
    rw [splitOnce_iff.mpr hn]
    simp only [Option.bind_some]
    rw [lookNs_some ha hl]
    simp only
    rw [← interp_eq hg, mineOr_eq ha]
    rfl
  rw [this]
  exact eq_comm

/-- With the prefix of no link, the prefix is left out. -/
theorem C80_stray_partial (h : ds[i]? = some d) (hc : Clear d) {n p m : Text} (hn : Parts n p m)
    (hp : ∀ l ∈ d.links, ¬ Prefix parse l p) (ht : ∀ x ∈ d.imports, ∀ o, ¬ Brings x.2 false m o) (r : Referent) :
    Stands (ingestAll parse loaded ds) i n r ↔ Plain d m r := by
  obtain ⟨hi, ha⟩ := about_all (parse := parse) (loaded := loaded) h
  unfold Stands
  rw [resolve_matchName hi ha.sg, Option.some.injEq, ← readPlain_iff ha hc ht r]
  unfold readName splitName
  rw [splitOnce_iff.mpr hn]
  simp only [Option.bind_some]
  rw [lookNs_none ha hp]

/-- A name always stands for one thing: nothing is looked up outside of what was read. -/
theorem C80_total (h : ds[i]? = some d) (n : Text) : ∃ r, Stands (ingestAll parse loaded ds) i n r := by
  obtain ⟨hi, ha⟩ := about_all (parse := parse) (loaded := loaded) h
  exact ⟨_, resolve_matchName hi ha.sg n⟩

/-- What becomes of a known directive. -/
theorem C80_known {st : St} {sg : Nat} {n : Text} {b : Builtin} (h : Stands st sg n (.known b)) : outcome st sg n = .builtin b := by
  unfold outcome
  simp only
  rw [resolve_known.mp h]

/-- What becomes of a directive of a linked schema: it is in the composed schema when the schema is that of an extension or
when it is asked for, and not both. -/
theorem C80_foreign (h : ds[i]? = some d) {n m url o : Text} (hs : Stands (ingestAll parse loaded ds) i n (.foreign url o))
    (hm : Rest n m) :
    (outcome (ingestAll parse loaded ds) i n = .extension url o ↔
      (∃ e ∈ (ingestAll parse loaded ds).exts, e.linkUrl = url) ∧ ¬ Asked (ingestAll parse loaded ds) i d m) ∧
    (outcome (ingestAll parse loaded ds) i n = .composed (some url) o ↔
      (¬ ∃ e ∈ (ingestAll parse loaded ds).exts, e.linkUrl = url) ∧ Asked (ingestAll parse loaded ds) i d m) ∧
    (outcome (ingestAll parse loaded ds) i n = .dropped ↔
      (¬ ∃ e ∈ (ingestAll parse loaded ds).exts, e.linkUrl = url) ∧ ¬ Asked (ingestAll parse loaded ds) i d m) ∧
    (outcome (ingestAll parse loaded ds) i n = .fatal ↔
      (∃ e ∈ (ingestAll parse loaded ds).exts, e.linkUrl = url) ∧ Asked (ingestAll parse loaded ds) i d m) := by
  obtain ⟨_, ha⟩ := about_all (parse := parse) (loaded := loaded) h
  generalize ingestAll parse loaded ds = st at hs ha ⊢
  rw [outcome_foreign hs, rest_iff.mp hm, ← ha.comp m, ← isComposed_iff]
  have hx : (∃ e ∈ st.exts, e.linkUrl = url) ↔ hasExt st url = true := by
    rw [hasExt_iff]
    constructor
    · rintro ⟨⟨u, n⟩, he, rfl⟩
      exact ⟨n, he⟩
    · rintro ⟨n, he⟩
      exact ⟨_, he, rfl⟩
  rw [hx]
  cases hasExt st url <;> cases isComposed st i m <;> simp

/-- What becomes of other directives: those the subgraph defines are left out, asked for or not; of the others those asked for
are in the composed schema. -/
theorem C80_others (h : ds[i]? = some d) {n m : Text} (hm : Rest n m) :
    (Stands (ingestAll parse loaded ds) i n .mine → outcome (ingestAll parse loaded ds) i n = .dropped) ∧
    (Stands (ingestAll parse loaded ds) i n .unknown → (Asked (ingestAll parse loaded ds) i d m →
        outcome (ingestAll parse loaded ds) i n = .composed none m) ∧
      (¬ Asked (ingestAll parse loaded ds) i d m → outcome (ingestAll parse loaded ds) i n = .unknown)) := by
  obtain ⟨_, ha⟩ := about_all (parse := parse) (loaded := loaded) h
  generalize ingestAll parse loaded ds = st at ha ⊢
  constructor
  · intro hs
    obtain ⟨k, hk⟩ := resolve_mine hs
    unfold outcome
    simp only
    rw [hk]
  · intro hs
    have hk := resolve_unknown hs
    unfold outcome
    simp only
    rw [hk, matchName_fst, rest_iff.mp hm, ← ha.comp m, ← isComposed_iff]
    cases isComposed st i m <;> simp

/-- The extensions are those loaded beforehand and those linked by their URLs. -/
theorem C80_extensions (url n : Text) : (⟨url, n⟩ : Ext) ∈ (ingestAll parse loaded ds).exts ↔
    (⟨url, n⟩ : Ext) ∈ loaded ∨ ∃ d ∈ ds, ∃ l ∈ d.links, url = l.url ∧ Registers parse l n :=
  mem_exts parse loaded ds _

/-- The name of the schema at a URL. -/
theorem C80_namespace (u : Url) (n : Text) : linkName u = some n ↔ UrlName u n := linkName_iff u n

/-- What is reported about the directives on the schemas, and nothing else is. -/
theorem C80_reports (sg : Nat) (e : Diag) : (sg, e) ∈ (ingestAll parse loaded ds).diags ↔
    ∃ d, ds[sg]? = some d ∧ Wrong parse (ingestAll parse loaded ds) sg d e := by
  unfold ingestAll
  rw [fold_diags parse ds _ (inv_start loaded)]
  constructor
  · rintro (h | ⟨k, d, hd, hk, h⟩)
    · cases h
    · have : sg = k := by simpa using hk
      exact ⟨d, this ▸ hd, h⟩
  · rintro ⟨d, hd, h⟩
    exact Or.inr ⟨sg, d, hd, by simp, h⟩

/-! ## Cases -/

namespace Demo

def fedUrl : Text := "https://specs.apollo.dev/federation/v2.3".toList
def acme : Text := "https://acme.dev/auth/v1".toList

/-- As `url::Url::parse`. -/
def urls (s : Text) : Option Url :=
  if s = fedUrl then some ⟨"https".toList, some "specs.apollo.dev".toList, some ["federation".toList, "v2.3".toList]⟩
  else if s = acme then some ⟨"https".toList, some "acme.dev".toList, some ["auth".toList, "v1".toList]⟩
  else if s = "https://acme.dev/federation/v2x".toList then
    some ⟨"https".toList, some "acme.dev".toList, some ["federation".toList, "v2x".toList]⟩
  else if s = "https://grafbase.com/extensions/v8auth".toList then
    some ⟨"https".toList, some "grafbase.com".toList, some ["extensions".toList, "v8auth".toList]⟩
  else none

def linkDirective (l : Link) : SchemaDir := { name := "link".toList, link := some l }

/-- A subgraph with the federation and another schema. -/
def shop : Doc :=
  { defs := ["mine".toList]
    directives := [linkDirective ⟨fedUrl, none, [.string "@key".toList, .qualified "@tag".toList (some "@label".toList)]⟩,
      linkDirective ⟨acme, none, [.string "@secret".toList]⟩,
      { name := "federation__composeDirective".toList, args := [("name".toList, some "@secret".toList)] }] }

def stands (d : Doc) (n : String) : Option Referent :=
  resolve (ingestAll urls [] [d]) 0 (matchName (ingestAll urls [] [d]) 0 n.toList).2

def becomes (d : Doc) (n : String) : Outcome := outcome (ingestAll urls [] [d]) 0 n.toList

example : stands shop "key" = some (.known .key) := by decide +kernel
example : stands shop "label" = some (.known .tag) := by decide +kernel
example : stands shop "shareable" = some .unknown := by decide +kernel
example : stands shop "federation__shareable" = some (.known .shareable) := by decide +kernel
example : stands shop "auth__other" = some (.foreign acme "other".toList) := by decide +kernel
example : stands shop "mine" = some .mine := by decide +kernel
example : becomes shop "secret" = .composed (some acme) "secret".toList := by decide +kernel
example : becomes shop "auth__other" = .dropped := by decide +kernel

theorem shop_clear : Clear shop := by
  refine ⟨?_, ?_, ?_⟩
  · intro l hl h
    have : shop.links = [⟨fedUrl, none, [.string "@key".toList, .qualified "@tag".toList (some "@label".toList)]⟩,
        ⟨acme, none, [.string "@secret".toList]⟩] := rfl
    rw [this] at hl
    simp only [List.mem_cons, List.not_mem_nil, or_false] at hl
    rcases hl with rfl | rfl
    · decide +kernel
    · exfalso
      obtain ⟨a, b, e⟩ := h
      have : contains "dev/federation/v2".toList acme = true := (contains_iff _ _).mpr ⟨a, b, e⟩
      exact absurd this (by decide +kernel)
  · intro _
    decide +kernel
  · have : shop.imports = [(⟨fedUrl, none, [.string "@key".toList, .qualified "@tag".toList (some "@label".toList)]⟩, .string "@key".toList),
        (⟨fedUrl, none, [.string "@key".toList, .qualified "@tag".toList (some "@label".toList)]⟩,
          .qualified "@tag".toList (some "@label".toList)),
        (⟨acme, none, [.string "@secret".toList]⟩, .string "@secret".toList)] := rfl
    rw [this]
    intro x hx
    simp only [List.mem_cons, List.not_mem_nil, or_false] at hx
    rcases hx with rfl | rfl | rfl
    · exact ⟨true, "key".toList, "key".toList, .directive, by decide +kernel, by decide +kernel⟩
    · exact ⟨true, "label".toList, "tag".toList, .renamed, by decide +kernel, by decide +kernel⟩
    · exact ⟨true, "secret".toList, "secret".toList, .directive, by decide +kernel, by decide +kernel⟩

/-- The case meets the hypotheses of `C80_plain_partial`. -/
example : Plain shop "label".toList (.known .tag) := by
  refine (C80_plain_partial (parse := urls) (loaded := []) (ds := [shop]) (i := 0) rfl shop_clear ?_ ?_ _).mp
    (show stands shop "label" = some (.known .tag) by decide +kernel)
  · intro a b e
    have hm : '_' ∈ "label".toList := by rw [e]; simp
    revert hm
    decide +kernel
  · intro x hx o hb
    have : shop.imports.map (·.2) = [.string "@key".toList, .qualified "@tag".toList (some "@label".toList),
        .string "@secret".toList] := rfl
    have hx' : x.2 ∈ shop.imports.map (·.2) := List.mem_map.mpr ⟨x, hx, rfl⟩
    rw [this] at hx'
    simp only [List.mem_cons, List.not_mem_nil, or_false] at hx'
    generalize x.2 = y at hx' hb
    rcases hx' with rfl | rfl | rfl
    · exact absurd hb (by intro h; cases h)
    · exact absurd hb (by intro h; cases h)
    · exact absurd hb (by intro h; cases h)

/-- The case meets the hypotheses of `C80_prefixed`. -/
example : Parts "auth__other".toList "auth".toList "other".toList ∧
    LinkedAs urls shop "auth".toList ⟨acme, none, [.string "@secret".toList]⟩ := by
  refine ⟨splitOnce_iff.mp (by decide +kernel), ?_⟩
  refine ⟨[⟨fedUrl, none, [.string "@key".toList, .qualified "@tag".toList (some "@label".toList)]⟩], [], rfl, ?_, by simp⟩
  exact Or.inr ⟨rfl, ⟨"https".toList, some "acme.dev".toList, some ["auth".toList, "v1".toList]⟩, by decide +kernel,
    (linkName_iff _ _).mp (by decide +kernel)⟩

/-- A subgraph without links. -/
def plain : Doc := {}

/-- A prefix nothing is linked under is left out: `@acme__key` is taken for `@key`. -/
theorem C80_stray_false : stands plain "acme__key" = some (.known .key) ∧ plain.links = [] := by
  exact ⟨by decide +kernel, rfl⟩

/-- A name with two underscores can be imported, but then is not found. -/
def renamed : Doc := { directives := [linkDirective ⟨acme, none, [.qualified "@auth".toList (some "@acme__auth".toList)]⟩] }

theorem C80_alias_false : stands renamed "acme__auth" = some .unknown ∧
    ImportedAs renamed "acme__auth".toList ⟨acme, none, [.qualified "@auth".toList (some "@acme__auth".toList)]⟩ "auth".toList := by
  refine ⟨by decide +kernel, [], _, [], rfl, .renamed, by simp⟩

/-- A directive which is imported is still there under the prefix of its schema. -/
theorem C80_still_prefixed : stands shop "auth__secret" = some (.foreign acme "secret".toList) ∧
    stands shop "secret" = some (.foreign acme "secret".toList) := by
  exact ⟨by decide +kernel, by decide +kernel⟩

/-- The composite schemas linked beside the federation: then the directives of the federation need no import. -/
def both : Doc := { directives := [linkDirective ⟨fedUrl, none, []⟩, linkDirective ⟨compositeUrl, none, []⟩] }
def single : Doc := { directives := [linkDirective ⟨fedUrl, none, []⟩] }

theorem C80_both_false : stands both "tag" = some (.known .tag) ∧ stands single "tag" = some .unknown ∧
    both.links = single.links ++ [⟨compositeUrl, none, []⟩] := by
  exact ⟨by decide +kernel, by decide +kernel, rfl⟩

/-- An import of something else than a directive hides the directive of that name. -/
def typeImport : Doc := { directives := [linkDirective ⟨acme, none, [.string "deprecated".toList]⟩] }

theorem C80_types_false : stands typeImport "deprecated" = some (.foreign acme "deprecated".toList) ∧
    ∀ l o, ¬ ImportedAs typeImport "deprecated".toList l o := by
  refine ⟨by decide +kernel, ?_⟩
  rintro l o ⟨b, i, a, e, h, _⟩
  have hm : (l, i) ∈ typeImport.imports := by rw [e]; simp
  have : typeImport.imports = [(⟨acme, none, [.string "deprecated".toList]⟩, .string "deprecated".toList)] := rfl
  rw [this, List.mem_singleton, Prod.mk.injEq] at hm
  rw [hm.2] at h
  generalize e2 : "deprecated".toList = y at h
  cases h

/-- A schema of someone else is taken for the federation. -/
def impostor : Doc := { directives := [linkDirective ⟨"https://acme.dev/federation/v2x".toList, none, [.string "@key".toList]⟩] }

theorem C80_impostor_false : stands impostor "key" = some (.known .key) ∧
    schemaDirective "https://acme.dev/federation/v2x".toList "key".toList =
      some (.foreign "https://acme.dev/federation/v2x".toList "key".toList) := by
  exact ⟨by decide +kernel, by decide +kernel⟩

/-- A directive the subgraph defines and asks for in the composed schema is left out. -/
def asks : Doc := { defs := ["mine".toList], directives := [{ name := "composeDirective".toList, args := [("name".toList, some "@mine".toList)] }] }

theorem C80_composed_local_false : becomes asks "mine" = .dropped ∧ (ingestAll urls [] [asks]).composed = [(0, "mine".toList)] ∧
    (ingestAll urls [] [asks]).diags = [] := by
  exact ⟨by decide +kernel, by decide +kernel, by decide +kernel⟩

/-- A directive of one schema is asked for, and that of another is in the composed schema too. -/
def other : Text := "https://other.dev/b".toList
def asksPrefixed : Doc :=
  { directives := [linkDirective ⟨acme, some "a".toList, []⟩, linkDirective ⟨other, some "b".toList, []⟩,
      { name := "composeDirective".toList, args := [("name".toList, some "@a__foo".toList)] }] }

theorem C80_composed_prefix_false : becomes asksPrefixed "a__foo" = .composed (some acme) "foo".toList ∧
    becomes asksPrefixed "b__foo" = .composed (some other) "foo".toList := by
  exact ⟨by decide +kernel, by decide +kernel⟩

/-- The extension has another name than the prefix of its directives. -/
def versioned : Doc := { directives := [linkDirective ⟨"https://grafbase.com/extensions/v8auth".toList, none, []⟩] }

theorem C80_extension_name_false :
    (ingestAll urls [] [versioned]).exts = [⟨"https://grafbase.com/extensions/v8auth".toList, "extensions".toList⟩] ∧
    stands versioned "v8auth__login" = some (.foreign "https://grafbase.com/extensions/v8auth".toList "login".toList) := by
  exact ⟨by decide +kernel, by decide +kernel⟩

/-- Two schemas under the same prefix: a warning, and the last one is meant. -/
def colliding : Doc := { directives := [linkDirective ⟨acme, some "a".toList, []⟩, linkDirective ⟨other, some "a".toList, []⟩] }

example : (ingestAll urls [] [colliding]).diags = [(0, .collision)] ∧
    stands colliding "a__foo" = some (.foreign other "foo".toList) := by
  exact ⟨by decide +kernel, by decide +kernel⟩

end Demo
end Verif.LinkNames
