import Verif.Bind.Witness

/-!
# C75: an operation is bound to the fields, types and values it names
-/

namespace Verif.Bind

open Verif.Common
open Verif.Coercion (Str InputField Ty VarDef)
open Verif.Literals (Lit Q)

/-- C75, what is bound. MISSING: the rules about `__typename` and directives that the code does not look at
(`C75_tidy_partial`, `Demo.C75_typename_false`, `Demo.C75_directives_false`), and C56's about values. The root is the
object of the type of the operation; the variables are those declared, and each is used; and the vectors hold one tree:
every field is a visible field of its type with its arguments, every fragment has a visible type that overlaps, and every
`@skip` and `@include` a condition. -/
theorem C75_bound_partial (S : Schema) (fuel : Nat) (doc : Doc) (op : Operation) (hs : Ok S)
    (h : bindOperation S fuel doc = .ok (.ok op)) :
    op.ty = doc.ty ∧ IsRoot S doc.ty op.root ∧ Declares S doc.decls op.vars.defs op.vars.defaults ∧
    op.sels.2 ≤ op.st.shared.length ∧ ∃ t, Reads op.st (slice op.st.shared op.sels) t ∧
      (∀ t', Reads op.st (slice op.st.shared op.sels) t' → t' = t) ∧
      Means S (values S op.vars.defs) doc.frags false (.object op.root) doc.sels t ∧
      ∀ i, i < op.vars.defs.length → i ∈ t.vars := by
  obtain ⟨h1, h2, h3, h4, _, h6, t, h7, h8, h9⟩ := bindOperation_ok h
  obtain ⟨d1, d2⟩ := bindDecls_declares hs.input h3 h4
  exact ⟨h1, h2, d1, h6, t, h7, fun t' ht' => (h7.det t' ht').symm, exact_values hs d2 h8, h9⟩

example : ∃ op, bindOperation Demo.schema 3 Demo.doc = .ok (.ok op) := ⟨_, rfl⟩
example : Ok Demo.schema := Demo.schema_ok

/-- C75, tidy documents: where nothing is written that the code does not look at, the selections are valid without
exception. -/
theorem C75_tidy_partial (S : Schema) (fuel : Nat) (doc : Doc) (op : Operation) (hs : Ok S)
    (h : bindOperation S fuel doc = .ok (.ok op)) (ht : Tidy doc.sels) (hf : ∀ n f, doc.frags.lookup n = some f → Tidy f.sels) :
    ∃ t, Reads op.st (slice op.st.shared op.sels) t ∧
      Means S (values S op.vars.defs) doc.frags true (.object op.root) doc.sels t := by
  obtain ⟨_, _, _, _, t, h5, _, h7, _⟩ := C75_bound_partial S fuel doc op hs h
  exact ⟨t, h5, h7.strict_of hf ht⟩

example : Tidy Demo.doc.sels := by
  simp [Demo.doc, Tidy, Demo.node, Demo.leaf, TidyDirs, typenameName, Demo.nMe, Demo.nFriend, Demo.nSearch, Demo.nName]
  rintro n v more rfl _ rfl
  exact ⟨rfl, rfl⟩
example : ∀ n f, Demo.doc.frags.lookup n = some f → Tidy f.sels := by
  intro n f h
  simp only [Demo.doc, Demo.fragments, List.lookup] at h
  split at h
  · cases h
    simp [Tidy, Demo.leaf, TidyDirs, typenameName, Demo.nName]
  · split at h
    · cases h
      simp [Tidy]
    · cases h

/-- C75, what is accepted. MISSING: operations that need more than 65535 selections or arguments, for which ids run out
(`Demo.C75_many_panic`), and variables of more than ten lists (`Demo.C75_lists_panic`). Valid declarations and selections
in which every variable is used are accepted, whatever the fuel, if it suffices for the nesting of fragments. -/
theorem C75_accepted_partial (S : Schema) (doc : Doc) (root : Nat) (hs : Ok S) (hroot : IsRoot S doc.ty root)
    (hd : ∀ d ∈ doc.decls, Declarable S d) (hn : (doc.decls.map (·.name)).Nodup)
    (hv : ∀ vars defaults, Declares S doc.decls vars defaults →
      (∃ t, Means S (values S vars) doc.frags false (.object root) doc.sels t ∧ t.size ≤ 65535 ∧ t.argCount < 65535) ∧
      ∀ t, Means S (values S vars) doc.frags false (.object root) doc.sels t → ∀ i, i < vars.length → i ∈ t.vars) :
    ∃ n0, ∀ n, n0 ≤ n → ∃ op, bindOperation S n doc = .ok (.ok op) := by
  obtain ⟨v, h1, h2⟩ := bindDecls_run hs.input doc.decls [] ⟨[], [], []⟩ hd hn (by simp)
  obtain ⟨d1, d2⟩ := bindDecls_declares hs.input h1 h2
  obtain ⟨⟨t, ht, a, b⟩, hall⟩ := hv _ _ d1
  obtain ⟨t', ht', e1, e2, _⟩ := values_exact hs d2 ht
  obtain ⟨n0, hrun⟩ := bindOperation_run hs hroot h1 h2 ht' (by omega) (by omega) (hall t' (exact_values hs d2 ht'))
  exact ⟨n0, fun n hn => (hrun n hn).imp fun op h => h.1⟩

example : ∀ d ∈ Demo.doc.decls, Declarable Demo.schema d := by
  intro d hd
  simp [Demo.doc] at hd
  subst hd
  exact ⟨by simp [GType.WF], by simp [GType.depth], ⟨.input 0, false⟩, 0, rfl, rfl, fun lit h => by cases h⟩
example : (Demo.doc.decls.map (·.name)).Nodup := by simp [Demo.doc]

/-- C75, without variables: a valid operation of at most 65535 selections is accepted. -/
theorem C75_accepted_plain_partial (S : Schema) (doc : Doc) (root : Nat) (t : Tree) (hs : Ok S) (hroot : IsRoot S doc.ty root)
    (hd : doc.decls = []) (ht : Means S (values S []) doc.frags false (.object root) doc.sels t) (hsize : t.size ≤ 65535)
    (hargs : t.argCount < 65535) :
    ∃ n0, ∀ n, n0 ≤ n → ∃ op, bindOperation S n doc = .ok (.ok op) := by
  have hb : bindDecls S [] doc.decls ⟨[], [], []⟩ = .ok (some ⟨[], [], []⟩) := by rw [hd]; rfl
  obtain ⟨_, d2⟩ := bindDecls_declares hs.input hb rfl
  obtain ⟨t', ht', e, e', _⟩ := values_exact hs d2 ht
  obtain ⟨n0, hrun⟩ := bindOperation_run hs hroot hb rfl ht' (by omega) (by omega)
    (fun i hi => by cases hi)
  exact ⟨n0, fun n hn => (hrun n hn).imp fun op h => h.1⟩

example : Means Demo.schema (values Demo.schema []) Demo.nested.frags false (.object 0) Demo.nested.sels
    (.field 2 Demo.nQuery [] [] (.field 3 Demo.nSchema [] [] .nil .nil) .nil) := by
  have noArgs : (values Demo.schema []).args [] [] [] := ⟨List.nodup_nil, ⟨by simp [Verif.Literals.keys], by simp [Verif.Coercion.accessible], by
    simp [Verif.Literals.ids, Verif.Coercion.accessible]⟩⟩
  have none : CondsOf (values Demo.schema []) false [] [] := ⟨fun _ => List.nodup_nil, [], .nil, rfl⟩
  exact .field (d := ⟨2, false, some (.object 0), []⟩) (by decide) (by simp) rfl rfl rfl (by simp [Demo.leaf]) noArgs none
    (.leaf (d := ⟨3, false, .none, []⟩) (by decide) (by simp) rfl rfl rfl noArgs none .nil) .nil

/-- C75, the limits. An operation is executed if it is bound, the number of different fields in it is at most the height, and,
if introspection is disabled, no field at the root of a query is one of introspection. MISSING: fields of introspection
below the root (`Demo.C75_introspection_false`), and in other operations. -/
theorem C75_limits_partial (S : Schema) (fuel : Nat) (doc : Doc) (op : Operation) (h : parse S fuel doc = .ok (some op)) :
    bindOperation S fuel doc = .ok (.ok op) ∧ ∃ t, Reads op.st (slice op.st.shared op.sels) t ∧
      (∀ max, S.maxHeight = some max → ∃ l : List Nat, l.Nodup ∧ (∀ x, x ∈ l ↔ x ∈ t.definitions) ∧ l.length ≤ max) ∧
      (doc.ty = .query → S.disableIntrospection = true → ∀ d ∈ t.roots, d ∉ S.introspection) := by
  unfold parse at h
  obtain ⟨r, h1, h⟩ := Res.bind_ok h
  cases r with
  | error e => cases h
  | ok op' =>
    obtain ⟨a, h2, h⟩ := Res.bind_ok h
    obtain ⟨b, h3, h⟩ := Res.map_ok h
    cases hab : a && b with
    | false => rw [hab] at h; cases h
    | true =>
      rw [hab] at h
      cases h
      rw [Bool.and_eq_true] at hab
      obtain ⟨rfl, rfl⟩ := hab
      obtain ⟨k1, _, _, _, k5, _, t, k7, _, _⟩ := bindOperation_ok h1
      refine ⟨h1, t, k7, fun max hmax => ?_, fun hq hi d hd => ?_⟩
      · unfold withinHeight at h2
        rw [hmax] at h2
        simp only at h2
        split at h2
        · cases h2
        · rename_i r hr
          obtain ⟨l, l1, l2, l3⟩ := height_count k7 k5 hr
          injection h2 with h2
          exact ⟨l, l1, l2, by rw [← l3]; exact of_decide_eq_true h2⟩
      · unfold introspectionAccepted at h3
        rw [if_pos ⟨by rw [k1]; exact hq, hi⟩] at h3
        split at h3
        · cases h3
        · rename_i fs hfs
          injection h3 with h3
          have hf := fieldsFrom_sound fuel _ _ _ (.cons k7 .nil) hfs
          have hd' : d ∈ fs.map (·.definition) := by
            rw [hf.defs]
            simpa [direct_roots] using hd
          obtain ⟨x, hx, rfl⟩ := List.mem_map.1 hd'
          rw [List.all_eq_true] at h3
          have := h3 x hx
          simpa using this

example : ∃ op, parse Demo.schema 40 Demo.doc = .ok (some op) := ⟨_, rfl⟩
example : Demo.schema.maxHeight = some 5 ∧ Demo.doc.ty = .query ∧ Demo.schema.disableIntrospection = true := ⟨rfl, rfl, rfl⟩

/-- C75, the limits refuse nothing else: an operation that is bound, within the height and without introspection at the root is
executed, if the fuel suffices for its size. -/
theorem C75_within_limits (S : Schema) (fuel : Nat) (doc : Doc) (op : Operation) (t : Tree) (h : bindOperation S fuel doc = .ok (.ok op))
    (ht : Reads op.st (slice op.st.shared op.sels) t) (hfuel : t.fuel + 3 ≤ fuel)
    (hmax : ∀ max, S.maxHeight = some max → ∃ l : List Nat, (∀ x ∈ t.definitions, x ∈ l) ∧ l.length ≤ max)
    (hi : doc.ty = .query → S.disableIntrospection = true → ∀ d ∈ t.roots, d ∉ S.introspection) :
    parse S fuel doc = .ok (some op) := by
  obtain ⟨k1, _, _, _, k5, _, _⟩ := bindOperation_ok h
  have hw : withinHeight S fuel op = .ok true := by
    unfold withinHeight
    split
    · rfl
    · rename_i max hm
      obtain ⟨r, hr⟩ := height_some fuel op.sels t [] ht hfuel
      obtain ⟨l, l1, l2, l3⟩ := height_count ht k5 hr
      obtain ⟨l', m1, m2⟩ := hmax max hm
      rw [hr]
      simp only
      have := Verif.ResponseKeys.length_le_of_nodup_subset l1 (fun x hx => m1 x ((l2 x).1 hx))
      rw [decide_eq_true (by omega)]
  have hint : introspectionAccepted S fuel op = .ok true := by
    unfold introspectionAccepted
    split
    · rename_i hq
      obtain ⟨fs, f1, f2⟩ := fieldsFrom_ok fuel _ _ (.cons ht .nil) (by
        have := steps_le_fuel t
        simp only [stackSteps]
        omega)
      rw [f1]
      simp only
      congr 1
      rw [List.all_eq_true]
      intro x hx
      have hd : x.definition ∈ t.roots := by
        have : x.definition ∈ fs.map (·.definition) := List.mem_map_of_mem hx
        rw [f2.defs] at this
        simpa [direct_roots] using this
      simpa using hi (by rw [← k1]; exact hq.1) hq.2 _ hd
    · rfl
  unfold parse
  rw [h]
  simp only [Res.bind, hw, hint, Res.map, Bool.and_self, if_true]

/-! ### Where C75 fails -/

namespace Demo

/-- `__typename` is a leaf without arguments, but `{ __typename(x: 1) { a } }` is accepted. -/
theorem C75_typename_false : (∃ op, parse schema 40 typenameWith = .ok (some op)) ∧
    ¬ ∃ t, Means schema (values schema []) typenameWith.frags true (.object 0) typenameWith.sels t := by
  refine ⟨⟨_, rfl⟩, ?_⟩
  rintro ⟨t, h⟩
  generalize hs : typenameWith.sels = s at h
  cases h with
  | typename _ h2 _ =>
    cases hs
    cases (h2 rfl).1
  | leaf h1 _ _ _ _ _ _ _ => cases hs
  | field h1 _ _ _ _ _ _ _ _ _ => cases hs; exact h1 rfl
  | nil => cases hs
  | spread => cases hs
  | inline => cases hs
  | inlineOn => cases hs

/-- Unknown directives, repeated ones, and any name for the argument of `@skip` are accepted. -/
theorem C75_directives_false : (∃ op, parse schema 40 directives = .ok (some op)) ∧
    ∀ V cs, ¬ CondsOf V true [⟨skipName, [(['f'], .bool true), (['b'], .int 1)]⟩, ⟨skipName, [(ifName, .bool false)]⟩, ⟨['u'], []⟩] cs := by
  refine ⟨⟨_, rfl⟩, ?_⟩
  rintro V cs ⟨h, _⟩
  have := h rfl
  simp at this

/-- A fragment that no operation uses is not looked at: this one is on a type that does not exist. -/
theorem C75_unused_fragment_false : (∃ op, parse schema 40 doc = .ok (some op)) ∧
    ∃ f, doc.frags.lookup fragG = some f ∧ schema.types f.cond = none := ⟨⟨_, rfl⟩, _, rfl, rfl⟩

/-- With introspection disabled `{ __schema }` is refused, but `{ q { __schema } }` is not, where `q` returns `Query`. -/
theorem C75_introspection_false : schema.disableIntrospection = true ∧ parse schema 40 direct = .ok none ∧
    ∃ op t, parse schema 40 nested = .ok (some op) ∧ Reads op.st (slice op.st.shared op.sels) t ∧ ∃ d ∈ t.definitions, d ∈ schema.introspection := by
  refine ⟨rfl, rfl, nestedOp, _, rfl, nestedOp_reads, 3, ?_, ?_⟩
  · simp [Tree.definitions]
  · simp [schema]

/-- A type that clients do not see is accepted for a variable. -/
theorem C75_hidden_variable_false : (∃ v, bindDecls schema [] [hiddenDecl] ⟨[], [], []⟩ = .ok (some v) ∧ v.errors = []) ∧
    ∃ td, schema.types hiddenDecl.tyName = some td ∧ td.inaccessible = true := ⟨⟨_, rfl, rfl⟩, _, rfl, rfl⟩

/-- `query($v: [[[[[[[[[[[Boolean]]]]]]]]]]]) { … }` panics, whatever is selected. -/
theorem C75_lists_panic (sels : Sels) (fuel : Nat) :
    bindOperation schema fuel ⟨.query, [⟨varV, tBoolean, lists 11, none⟩], sels, []⟩ = .panic := rfl

theorem many_panic (n : Nat) : ∀ enter c (st : St), (st.keys = [] ∨ st.keys = [typenameName]) → 65535 < st.typenames.length + n →
    st.typenames.length ≤ 65535 → bindWith schema [] [] enter (many n) c st = .panic := by
  induction n with
  | zero => intro _ _ st _ h1 h2; omega
  | succ n ih =>
    intro enter c st hk h1 h2
    rw [many, leaf, bindWith, if_pos rfl, bindTypename]
    have hd : bindDirectives schema [] [] st = (st, []) := rfl
    rw [hd]
    simp only [Option.getD]
    have hi : st.intern typenameName = .ok (0, { st with keys := [typenameName] }) := by
      unfold St.intern
      rcases hk with hk | hk
      · rw [hk]; rfl
      · rw [hk]
        have : ({ st with keys := [typenameName] } : St) = st := by rw [← hk]
        rw [this]
        rfl
    rw [hi]
    simp only [Res.bind, St.pushTypename, St.idLimit]
    by_cases hlt : st.typenames.length < 65535
    · simp only [hlt, if_true]
      rw [ih _ _ _ (.inr rfl) (by simp only [List.length_append, List.length_singleton]; omega)
        (by simp only [List.length_append, List.length_singleton]; omega)]
      rfl
    · simp only [hlt, if_false]

/-- 65536 times `__typename` panics: the ids are of 16 bits. -/
theorem C75_many_panic (n fuel : Nat) (hn : 65535 < n) : bindOperation schema fuel ⟨.query, [], many n, []⟩ = .panic := by
  have h : bindSels schema [] [] fuel (many n) (.object 0) St.init = .panic := by
    rw [bindSels_eq]
    exact many_panic n _ _ _ (.inl rfl) (by simp [St.init]; omega) (by simp [St.init])
  unfold bindOperation
  simp only [rootObject, bindDecls, Res.bind]
  have h' : bindSels schema [] [] fuel (many n) (.object schema.query) { St.init with errors := [] } = .panic := h
  rw [h']

end Demo

end Verif.Bind
