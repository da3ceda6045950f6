import Verif.OpText.SanitizeLemmas
import Verif.OpText.Doc
/-!
Properties C41 and C42: sanitised and normalised operations.
-/
namespace Verif.OpText

open Verif.OpChecks

/-! ### C41 -/

/-- C41: documents that differ only in numbers, strings and lists (in arguments of fields and directives at any depth, and
in the defaults of variables) have the same sanitised text. -/
theorem C41_no_literals (d e : List Def) (h : SameDoc d e) : sanitize d = sanitize e := by
  unfold sanitize
  rw [sanDefs_eq _ 0 d (Nat.zero_add _), sanDefs_eq _ 0 e (Nat.zero_add _), h.text]

/-- C41, the text: the sanitised text of every document, written with joins; it has the names, aliases, variables, types, enum
values, booleans and nulls of the document, and a placeholder for every other literal. -/
theorem C41_text (d : List Def) : sanitize d = Text.document d := by
  unfold sanitize
  rw [sanDefs_eq _ 0 d (Nat.zero_add _)]
  rfl

/-- `query q($v: Int = 5) { a: b(x: {k: "s", l: [1]}, y: 2) @d(z: 1.5) { c } }` -/
def caseOp (s : Str) (i j : Int) (q : Rat) (l : List Value) : List Def :=
  [.op ⟨.query, some ['q'], [⟨['v'], .named ['I', 'n', 't'], some (.int i)⟩], [],
    [.field (some ['a']) ['b'] [(['x'], .obj [(['k'], .str s), (['l'], .list l)]), (['y'], .int j)] [⟨['d'], [(['z'], .float q)]⟩]
      [.field none ['c'] [] [] []]]⟩]

example : SameDoc (caseOp ['s'] 5 2 1 [.int 1]) (caseOp ['p', 'w'] 6 3 2 []) :=
  .op _ _ (.cons _ _ _ _ .nil) .nil
    (.field _ _ (.obj _ (.str _ _ _ (.list _ _ _ .nil)) (.int _ _ _ .nil)) (.cons _ (.float _ _ _ .nil) .nil)
      (.field _ _ .nil .nil .nil .nil) .nil) .nil

example : String.ofList (sanitize (caseOp ['s'] 5 2 1 [.int 1])) =
    "query q($v: Int) { a: b(x: {k: \"\", l: []}, y: 0) @d(z: 0) { c } }" := by decide +kernel

/-! ### C42 -/

theorem retained_chosen (opName : Option Str) (doc : List Def) : retained opName doc = chosen opName doc := by
  rw [retained_eq]
  unfold chosen
  apply List.filter_congr
  intro d _
  cases d with
  | frag f => exact retains_frag _ _
  | op o =>
    cases opName with
    | none => rfl
    | some n =>
      simp only [retains, hasName, Option.isNone_some, Bool.false_or]
      by_cases h : o.kind = .shorthand
      · simp [h]
      · simp [h]

/-- C42, same text. MISSING: the claim is false for two fields of one name in a selection set (`C42_same_field_order`), for
fragments that are only spread in fragments defined after them (`C42_fragment_order`) and for the defaults of variables
(`C42_default_kept`). Without those, documents that differ in the order of selections, arguments, directives, variables and
fragments, in aliases and in the literals of arguments have the same normal form. -/
theorem C42_canonical_partial (opName : Option Str) (d e : List Def) (h : EquivDoc d e) (hd : DocDistinct d)
    (ho : InOrder (chosen opName d)) (ho' : InOrder (chosen opName e)) : normalize opName d = normalize opName e := by
  rw [← retained_chosen] at ho ho'
  rw [normalize_eq opName d ho, normalize_eq opName e ho']
  have hr := h.retained opName
  have hu : InUse (retained opName d) = InUse (retained opName e) := funext fun n => propext (hr.inUse n)
  rw [hr.sorted _ (hd.retained opName), hu]

/-- C42, idempotence. MISSING: the claim is false if the fragments are not in order, neither as written nor by name
(`C42_not_idempotent`). If they are, normalising the normal form gives it again. -/
theorem C42_idempotent_partial (opName : Option Str) (d out : List Def) (ho : InOrder (chosen opName d))
    (hn : InNameOrder (chosen opName d)) (h : normalize opName d = some out) : normalize opName out = some out := by
  rw [← retained_chosen] at ho hn
  rw [normalize_eq opName d ho] at h
  simp only at h
  split at h
  · cases h
  · rename_i hne
    injection h with h
    have hnorm := sorted_normal (retained opName d)
    have hsort := sortBy_key_sorted defCmp_key (((retained opName d).filter (Def.needed (InUse (retained opName d)))).map canonDef)
    rw [h] at hnorm hsort hne
    have hret : retained opName out = out := by
      rw [retained_eq]
      refine List.filter_eq_self.2 fun x hx => ?_
      obtain ⟨y, hy, _, rfl⟩ := (hnorm x).1 hx
      rw [retained_eq] at hy
      have hy := (List.mem_filter.1 hy).2
      cases y with
      | frag f => exact retains_frag _ _
      | op o =>
        show retains opName (.op (canonOp o)) = true
        rw [retains_op opName (canonOp o) o (canonOp_kind o) (canonOp_name o)]
        exact hy
    have hin := sorted_inOrder hnorm hn hsort
    rw [normalize_eq opName out (by rw [hret]; exact hin), hret]
    have e1 : out.filter (Def.needed (InUse out)) = out := by
      refine List.filter_eq_self.2 fun x hx => ?_
      obtain ⟨y, hy, hneed, rfl⟩ := (hnorm x).1 hx
      refine needed_iff.2 fun f e => ?_
      cases y with
      | op o => cases e
      | frag g =>
        injection e with e
        subst e
        exact (hnorm.graph _).2.2 (needed_iff.1 hneed g rfl)
    have e2 : out.map canonDef = out := by
      conv => rhs; rw [← List.map_id out]
      refine List.map_congr_left fun x hx => ?_
      obtain ⟨y, hy, hneed, rfl⟩ := (hnorm x).1 hx
      exact canonDef_idem y
    simp only [e1, e2, sortBy_key_of_sorted defCmp_key hsort]
    rw [if_neg hne]

/-- C42, what is kept: if the fragments are in order, the normal form has the chosen operations and exactly the fragments
in use, each under its name and with the same spreads. -/
theorem C42_fragments_partial (opName : Option Str) (d out : List Def) (ho : InOrder (chosen opName d))
    (h : normalize opName d = some out) :
    (∀ n, (∃ f, Def.frag f ∈ out ∧ f.name = n) ↔ InUse (chosen opName d) n ∧ ∃ f, Def.frag f ∈ d ∧ f.name = n) ∧
    (∀ n, InUse out n ↔ InUse (chosen opName d) n) := by
  have ho' := ho
  rw [← retained_chosen] at ho
  rw [normalize_eq opName d ho] at h
  simp only at h
  split at h
  · cases h
  · injection h with h
    have hnorm := sorted_normal (retained opName d)
    rw [h] at hnorm
    rw [← retained_chosen]
    refine ⟨fun n => ?_, fun n => (hnorm.graph n).2⟩
    constructor
    · rintro ⟨f, hf, rfl⟩
      obtain ⟨y, hy, hneed, e⟩ := (hnorm _).1 hf
      cases y with
      | op o => cases e
      | frag g =>
        injection e with e
        subst e
        rw [retained_eq] at hy
        exact ⟨needed_iff.1 hneed g rfl, g, (List.mem_filter.1 hy).1, rfl⟩
    · rintro ⟨hu, f, hf, rfl⟩
      refine ⟨canonFrag f, (hnorm _).2 ⟨.frag f, ?_, needed_iff.2 fun g e => by cases e; exact hu, rfl⟩, rfl⟩
      rw [retained_eq]
      exact List.mem_filter.2 ⟨hf, retains_frag _ _⟩

def f0 (n : Str) : Sel := .field none n [] [] []
def frag (n : Str) (ss : List Sel) : Def := .frag ⟨n, ['T'], [], ss⟩
def query (ss : List Sel) : Def := .op ⟨.query, none, [], [], ss⟩

/-- `{ x: b(n: 1) ...A a ...B } fragment A { ...B } fragment B { d c }` and the same in another order. -/
def caseDoc : List Def :=
  [query [.field (some ['x']) ['b'] [(['n'], .int 1)] [] [], .spread ['A'] [], f0 ['a']], frag ['A'] [.spread ['B'] []],
    frag ['B'] [f0 ['d'], f0 ['c']]]
def caseDoc' : List Def :=
  [frag ['A'] [.spread ['B'] []], query [.field none ['b'] [(['n'], .int 7)] [] [], f0 ['a'], .spread ['A'] []],
    frag ['B'] [f0 ['c'], f0 ['d']]]

example : EquivDoc caseDoc caseDoc' :=
  .trans (.op _ _ (.refl _) .nil (.field _ none _ (.int _ 1 7 .nil) .nil .nil (.swap _ _ _))
    (.frag _ _ .nil (EquivSels.refl _) (.frag _ _ .nil (.swap _ _ _) .nil))) (.swapOp _ _ _)

example : DocDistinct caseDoc := by
  refine ⟨by decide, ?_⟩
  intro d hd
  simp only [caseDoc, List.mem_cons, List.not_mem_nil, or_false] at hd
  rcases hd with rfl | rfl | rfl <;>
    simp [query, frag, f0, Def.Distinct, SelsDistinct, AllDistinct, Sel.Distinct, DirsDistinct, ArgsDistinct, Sel.tag]

theorem caseDoc_inUse : InUse caseDoc ['A'] ∧ InUse caseDoc ['B'] :=
  have ha : InUse caseDoc ['A'] := .op ⟨_, List.mem_cons_self, by decide⟩
  ⟨ha, .frag (List.mem_cons_of_mem _ List.mem_cons_self) ha (by decide)⟩

example : InNameOrder caseDoc := by
  intro f hf _
  simp only [caseDoc, query, frag, List.mem_cons, List.not_mem_nil, or_false, reduceCtorEq, false_or, Def.frag.injEq] at hf
  rcases hf with rfl | rfl
  · exact Or.inl ⟨_, List.mem_cons_self, by decide⟩
  · exact Or.inr ⟨⟨['A'], ['T'], [], [.spread ['B'] []]⟩, by simp [caseDoc, frag], by decide, caseDoc_inUse.1, by decide⟩

example : InOrder caseDoc := by
  intro pre f post hd _
  rcases pre with _ | ⟨p1, _ | ⟨p2, _ | ⟨p3, _ | ⟨p4, pre⟩⟩⟩⟩
  · simp [caseDoc, query] at hd
  · simp only [caseDoc, query, frag, List.cons_append, List.nil_append, List.cons.injEq, Def.frag.injEq] at hd
    obtain ⟨_, rfl, _⟩ := hd
    exact Or.inl ⟨_, List.mem_cons_self, by decide⟩
  · simp only [caseDoc, query, frag, List.cons_append, List.nil_append, List.cons.injEq, Def.frag.injEq] at hd
    obtain ⟨rfl, rfl, rfl, _⟩ := hd
    exact Or.inr ⟨_, List.mem_cons_of_mem _ List.mem_cons_self, caseDoc_inUse.1, by decide⟩
  · simp [caseDoc] at hd
  · simp [caseDoc] at hd

/-- C42 is false: two fields of one name stay in the order they are written in. -/
theorem C42_same_field_order :
    let a := query [.field (some ['a']) ['f'] [(['p'], .null)] [] [], .field (some ['b']) ['f'] [(['q'], .null)] [] []]
    let b := query [.field (some ['b']) ['f'] [(['q'], .null)] [] [], .field (some ['a']) ['f'] [(['p'], .null)] [] []]
    EquivDoc [a] [b] ∧ normalize none [a] ≠ normalize none [b] := by
  refine ⟨.op _ _ (.refl _) .nil (.swap _ _ _) .nil, fun h => ?_⟩
  have h : some [query [.field none ['f'] [(['p'], .null)] [] [], .field none ['f'] [(['q'], .null)] [] []]] =
    some [query [.field none ['f'] [(['q'], .null)] [] [], .field none ['f'] [(['p'], .null)] [] []]] := h
  simp [query] at h

/-- C42 is false: a fragment that is only spread in a later one is neither normalised nor searched for spreads, so that the
order of the definitions matters. -/
theorem C42_fragment_order :
    let a := frag ['A'] [.spread ['B'] []]
    let b := frag ['B'] [f0 ['z'], f0 ['y']]
    let q := query [.spread ['A'] []]
    EquivDoc [q, a, b] [q, b, a] ∧
      normalize none [q, a, b] = some [a, frag ['B'] [f0 ['y'], f0 ['z']], q] ∧
      normalize none [q, b, a] = some [a, b, q] := by
  refine ⟨.op _ _ (.refl _) .nil (EquivSels.refl _) (.swap _ _ _), rfl, rfl⟩

/-- C42 is false: literals in the defaults of variables are kept. -/
theorem C42_default_kept : ∃ d e, SameDoc d e ∧ normalize none d ≠ normalize none e := by
  refine ⟨[.op ⟨.query, none, [⟨['v'], .named ['T'], some (.str ['p'])⟩], [], [f0 ['a']]⟩],
    [.op ⟨.query, none, [⟨['v'], .named ['T'], some (.str ['q'])⟩], [], [f0 ['a']]⟩],
    .op _ _ (.cons _ _ _ _ .nil) .nil (.field _ _ .nil .nil .nil .nil) .nil, fun h => ?_⟩
  have h : some [Def.op ⟨.query, none, [⟨['v'], .named ['T'], some (.str ['p'])⟩], [], [f0 ['a']]⟩] =
    some [Def.op ⟨.query, none, [⟨['v'], .named ['T'], some (.str ['q'])⟩], [], [f0 ['a']]⟩] := h
  simp at h

/-- C42 is false: in `{ ...Z } fragment Z { ...A } fragment A { ...H } fragment H { a }` all fragments are in order and are kept. In
the normal form they are ordered by name, `A` comes before `Z`, and the second time `H` is dropped although it is in
use. -/
theorem C42_not_idempotent :
    let z := frag ['Z'] [.spread ['A'] []]
    let a := frag ['A'] [.spread ['H'] []]
    let h := frag ['H'] [f0 ['a']]
    let q := query [.spread ['Z'] []]
    normalize none [q, z, a, h] = some [a, h, z, q] ∧ normalize none [a, h, z, q] = some [a, z, q] ∧
      InUse [a, z, q] ['H'] := by
  refine ⟨rfl, rfl, ?_⟩
  refine .frag (g := ⟨['A'], ['T'], [], [.spread ['H'] []]⟩) List.mem_cons_self ?_ (by decide)
  refine .frag (g := ⟨['Z'], ['T'], [], [.spread ['A'] []]⟩) (List.mem_cons_of_mem _ List.mem_cons_self) ?_ (by decide)
  exact .op ⟨⟨.query, none, [], [], [.spread ['Z'] []]⟩, by simp [query], by decide⟩

end Verif.OpText
