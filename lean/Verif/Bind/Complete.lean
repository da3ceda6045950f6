import Verif.Bind.Lemmas

/-!
# Completeness of binding
-/

namespace Verif.Bind

open Verif.Coercion (Str InputField Ty VarDef)
open Verif.Literals (Lit Q bindArguments coerceQueryValue)

variable {S : Schema} {vars : List VarDef} {frags : Frags}

/-! ## One tree -/

/-- Values are bound in one way. -/
def Values.Functional (V : Values) : Prop :=
  (∀ defs given xs ys, V.args defs given xs → V.args defs given ys → xs = ys) ∧ ∀ v p q, V.cond v p → V.cond v q → p = q

theorem exact_functional : (exact S vars).Functional :=
  ⟨fun _ _ _ _ h g => Except.ok.inj (h.symm.trans g), fun _ _ _ h g => Except.ok.inj (h.symm.trans g)⟩

theorem Conds.det {V : Values} (hV : V.Functional) {strict : Bool} {dirs : List Dir} {cs : List Cond} (h : Conds V strict dirs cs) :
    ∀ cs', Conds V strict dirs cs' → cs = cs' := by
  induction h with
  | nil => intro cs' g; cases g; rfl
  | other h1 h2 _ _ ih =>
    intro cs' g
    cases g with
    | other _ _ _ g => exact ih _ g
    | cond g _ _ _ _ => exact (g.elim h1 h2).elim
  | cond h1 h2 _ h4 _ ih =>
    intro cs' g
    cases g with
    | other g1 g2 _ _ => exact (h1.elim g1 g2).elim
    | cond _ g2 _ g4 g =>
      rw [h2] at g2
      cases g2
      rw [hV.2 _ _ _ h4 g4, ih _ g]

theorem CondsOf.det {V : Values} (hV : V.Functional) {strict : Bool} {dirs : List Dir} {cs cs' : List Cond} (h : CondsOf V strict dirs cs)
    (g : CondsOf V strict dirs cs') : cs = cs' := by
  obtain ⟨_, a, h1, rfl⟩ := h
  obtain ⟨_, b, g1, rfl⟩ := g
  rw [h1.det hV _ g1]

theorem Visible.det {n : Str} {c c' : Comp} (h : Visible S n c) (g : Visible S n c') : c = c' := by
  rw [Visible] at h g
  rw [h] at g
  injection g with g
  injection g with g
  injection g

theorem Means.det {V : Values} (hV : V.Functional) {strict : Bool} {c : Comp} {sels : Sels} {t : Tree} (h : Means S V frags strict c sels t) :
    ∀ t', Means S V frags strict c sels t' → t = t' := by
  induction h with
  | nil => intro t' g; cases g; rfl
  | typename h1 _ _ ih =>
    intro t' g
    cases g with
    | typename g1 _ g3 => rw [h1.det hV g1, ih _ g3]
    | leaf g _ _ _ _ _ _ _ => exact absurd rfl g
    | field g _ _ _ _ _ _ _ _ _ => exact absurd rfl g
  | leaf h1 h2 h3 h4 h5 h6 h7 _ ih =>
    intro t' g
    cases g with
    | typename _ _ _ => exact absurd rfl h1
    | leaf _ _ g3 _ _ g6 g7 g8 =>
      rw [h3] at g3
      cases g3
      rw [hV.1 _ _ _ _ h6 g6, h7.det hV g7, ih _ g8]
    | field _ _ _ _ _ g _ _ _ _ => exact absurd rfl g
  | field h1 h2 h3 h4 h5 h6 h7 h8 _ _ ihs ih =>
    intro t' g
    cases g with
    | typename _ _ _ => exact absurd rfl h1
    | leaf _ _ _ _ _ _ _ _ => exact absurd rfl h6
    | field _ _ g3 _ g5 _ g7 g8 gs g =>
      rw [h3] at g3
      cases g3
      rw [h5] at g5
      cases g5
      rw [hV.1 _ _ _ _ h7 g7, h8.det hV g8, ihs _ gs, ih _ g]
  | spread h1 h2 h3 h4 _ _ ihs ih =>
    intro t' g
    cases g with
    | spread g1 g2 _ g4 gs g =>
      rw [h1] at g1
      cases g1
      have := h2.det g2
      subst this
      rw [h4.det hV g4, ihs _ gs, ih _ g]
  | inline h1 _ _ ihs ih =>
    intro t' g
    cases g with
    | inline g1 gs g => rw [h1.det hV g1, ihs _ gs, ih _ g]
  | inlineOn h1 h2 h3 _ _ ihs ih =>
    intro t' g
    cases g with
    | inlineOn g1 _ g3 gs g =>
      have := h1.det g1
      subst this
      rw [h3.det hV g3, ihs _ gs, ih _ g]

/-! ## Room -/

/-- There is room for `k` selections and `a` arguments. -/
structure Fits (st : St) (k a : Nat) : Prop where
  keys : st.keys.length + k ≤ 65535
  data : st.data.length + k ≤ 65535
  typenames : st.typenames.length + k ≤ 65535
  inlines : st.inlines.length + k ≤ 65535
  spreads : st.spreads.length + k ≤ 65535
  fragments : st.fragments.length + k ≤ 65535
  shared : st.shared.length + k ≤ 65535
  arguments : st.arguments.length + a < 65535

/-- At most that much has been added, and no error; `w` selections are still to be pushed. -/
structure Grown (st st' : St) (k w a : Nat) : Prop where
  keys : st'.keys.length ≤ st.keys.length + k
  data : st'.data.length ≤ st.data.length + k
  typenames : st'.typenames.length ≤ st.typenames.length + k
  inlines : st'.inlines.length ≤ st.inlines.length + k
  spreads : st'.spreads.length ≤ st.spreads.length + k
  fragments : st'.fragments.length ≤ st.fragments.length + k
  shared : st'.shared.length + w ≤ st.shared.length + k
  arguments : st'.arguments.length ≤ st.arguments.length + a
  errors : st.errors = [] → st'.errors = []

theorem Fits.after {st st' : St} {k w a l b : Nat} (h : Fits st (k + l) (a + b)) (g : Grown st st' k w a) : Fits st' l b := by
  obtain ⟨h1, h2, h3, h4, h5, h6, h7, h8⟩ := h
  obtain ⟨g1, g2, g3, g4, g5, g6, g7, g8, _⟩ := g
  constructor <;> omega

theorem Fits.le {st : St} {k a l b : Nat} (h : Fits st k a) (hk : l ≤ k) (ha : b ≤ a) : Fits st l b := by
  obtain ⟨h1, h2, h3, h4, h5, h6, h7, h8⟩ := h
  constructor <;> omega

theorem Grown.then {s1 s2 s3 : St} {k w a l x b : Nat} (h : Grown s1 s2 k w a) (g : Grown s2 s3 l x b) :
    Grown s1 s3 (k + l) (w + x) (a + b) := by
  obtain ⟨h1, h2, h3, h4, h5, h6, h7, h8, h9⟩ := h
  obtain ⟨g1, g2, g3, g4, g5, g6, g7, g8, g9⟩ := g
  constructor <;> first | omega | exact fun e => g9 (h9 e)

theorem Grown.refl (st : St) : Grown st st 0 0 0 := by
  constructor <;> first | omega | exact id

/-! ## Success of the parts -/

theorem intern_some (st : St) (s : Str) (h : st.keys.length < 65535) :
    ∃ i l, st.intern s = .ok (i, { st with keys := l }) ∧ l.length ≤ st.keys.length + 1 := by
  unfold St.intern
  split
  · rename_i j _
    exact ⟨j, st.keys, rfl, by omega⟩
  · rw [if_pos (by unfold St.idLimit; exact h)]
    exact ⟨_, _, rfl, by simp⟩

theorem Conds.run {dirs : List Dir} {cs : List Cond} (h : Conds (exact S vars) false dirs cs) :
    ∀ st, ∃ u, bindConds S vars dirs st = ({ st with used := u }, cs) := by
  induction h with
  | nil => exact fun st => ⟨st.used, rfl⟩
  | @other d _ _ h1 h2 _ _ ih =>
    intro st
    rw [bindConds, if_neg (fun h => h.elim h1 h2)]
    exact ih st
  | cond h1 h2 _ h4 _ ih =>
    intro st
    rw [bindConds, if_pos h1, h2]
    simp only
    rw [show coerceQueryValue S.input (some vars) (booleanTy S) _ = Except.ok _ from h4]
    simp only
    obtain ⟨u, hu⟩ := ih { st with used := st.used ++ varsIn _ }
    exact ⟨u, by rw [hu]⟩

theorem CondsOf.run {dirs : List Dir} {cs : List Cond} (h : CondsOf (exact S vars) false dirs cs) (st : St) :
    ∃ u, bindDirectives S vars dirs st = ({ st with used := u }, cs) := by
  obtain ⟨_, cs', h1, rfl⟩ := h
  obtain ⟨u, hu⟩ := h1.run st
  exact ⟨u, by rw [bindDirectives, hu]; rfl⟩

theorem typeCondition_run {parent c : Comp} {n : Str} (h : Visible S n c) (hi : S.intersects parent c = true) :
    typeCondition S parent n = .ok c := by
  rw [Visible] at h
  simp [typeCondition, h, Option.filter, hi]

theorem fieldDef_run {parent : Comp} {n : Str} {d : FieldDef} (hu : ∀ id, parent ≠ .union id) (h : S.fields parent n = some d)
    (hi : d.inaccessible = false) : fieldDef S parent n = .ok d := by
  unfold fieldDef
  split
  · exact absurd rfl (hu _)
  · simp [h, Option.filter, hi]

theorem pushSels_run (st : St) (ids : List SelId) (h : st.shared.length + ids.length ≤ 65535) :
    st.pushSels ids = .ok ((st.shared.length, st.shared.length + ids.length), { st with shared := st.shared ++ ids }) := by
  rw [St.pushSels, if_pos h]

theorem bindTypename_run {name : Str} {alias : Option Str} {dirs : List Dir} {cs : List Cond}
    (hc : CondsOf (exact S vars) false dirs cs) (st : St) (h : Fits st 1 0) :
    ∃ i st', bindTypename S vars name alias dirs st = .ok (i, st') ∧ Grown st st' 1 1 0 := by
  obtain ⟨u, hu⟩ := hc.run st
  obtain ⟨i, l, hi, hl⟩ := intern_some { st with used := u } (alias.getD name) (by have := h.keys; simp only; omega)
  unfold bindTypename
  rw [hu]
  simp only
  rw [hi]
  simp only [Res.bind, St.pushTypename, St.idLimit]
  have hlt : st.typenames.length < 65535 := by have := h.typenames; omega
  simp only [hlt, if_true]
  refine ⟨_, _, rfl, ?_⟩
  constructor <;> simp only [List.length_append, List.length_singleton] <;> first | omega | exact id | (simp only at hl; omega)

theorem finishField_run {d : FieldDef} {name : Str} {alias : Option Str} {args : List (Str × Lit)} {dirs : List Dir}
    {cs : List Cond} {xs : List (Nat × Q)} {sels : Nat × Nat} (ha : (exact S vars).args d.args args xs)
    (hc : CondsOf (exact S vars) false dirs cs) (st : St) (h : Fits st 1 xs.length) :
    ∃ i st', finishField S vars d name alias args dirs sels st = .ok (i, st') ∧ Grown st st' 1 1 xs.length := by
  unfold finishField bindArgs
  rw [show bindArguments S.input vars d.args args = .ok xs from ha]
  simp only [St.pushArgs, St.idLimit]
  have hlt : st.arguments.length + xs.length < 65535 := by have := h.arguments; omega
  simp only [hlt, if_true]
  simp only [Res.bind]
  obtain ⟨u, hu⟩ := hc.run { st with used := st.used ++ varsInFields xs, arguments := st.arguments ++ xs }
  rw [hu]
  simp only
  obtain ⟨i, l, hi, hl⟩ := intern_some { st with used := u, arguments := st.arguments ++ xs } (alias.getD name)
    (by have := h.keys; simp only; omega)
  simp only at hi
  rw [hi]
  simp only [St.pushData, St.idLimit]
  have hld : st.data.length < 65535 := by have := h.data; omega
  simp only [hld, if_true]
  refine ⟨_, _, rfl, ?_⟩
  constructor <;> simp only [List.length_append, List.length_singleton] <;> first | omega | exact id | (simp only at hl; omega)

/-- How selections of fragments are entered. -/
def enterOf (S : Schema) (vars : List VarDef) (frags : Frags) : Nat → Sels → Comp → St → Res (List SelId × St)
  | 0 => fun _ _ _ => .overflow
  | n + 1 => bindSels S vars frags n

theorem bindSels_eq (n : Nat) : bindSels S vars frags n = bindWith S vars frags (enterOf S vars frags n) := by
  cases n <;> rfl

theorem runInline {parent : Comp} {cond : Option Str} {c : Option Comp} {dirs : List Dir} {sub rest : Sels} {cs : List Cond} {s t : Tree}
    (hc : inlineCondition S parent cond = .ok c) (hd : CondsOf (exact S vars) false dirs cs)
    (hsub : Means S (exact S vars) frags false (c.getD parent) sub s)
    (ihs : ∃ n0, ∀ n, n0 ≤ n → ∀ st, Inv S (exact S vars) frags st → st.errors = [] → Fits st s.size s.argCount →
      ∃ ids st', bindWith S vars frags (enterOf S vars frags n) sub (c.getD parent) st = .ok (ids, st') ∧
        Grown st st' s.size ids.length s.argCount)
    (ih : ∃ n0, ∀ n, n0 ≤ n → ∀ st, Inv S (exact S vars) frags st → st.errors = [] → Fits st t.size t.argCount →
      ∃ ids st', bindWith S vars frags (enterOf S vars frags n) rest parent st = .ok (ids, st') ∧
        Grown st st' t.size ids.length t.argCount) :
    ∃ n0, ∀ n, n0 ≤ n → ∀ st, Inv S (exact S vars) frags st → st.errors = [] →
      Fits st (Tree.group c cs s t).size (Tree.group c cs s t).argCount →
      ∃ ids st', bindWith S vars frags (enterOf S vars frags n) (.inline cond dirs sub rest) parent st = .ok (ids, st') ∧
        Grown st st' (Tree.group c cs s t).size ids.length (Tree.group c cs s t).argCount := by
  obtain ⟨n0, ih⟩ := ih
  obtain ⟨m0, ihs⟩ := ihs
  refine ⟨max n0 m0, fun n hn st hinv he hf => ?_⟩
  rw [Tree.size, Tree.argCount] at hf
  obtain ⟨is, s0, r0, g0⟩ := ihs n (by omega) st hinv he (hf.le (by omega) (by omega))
  obtain ⟨e0, k0⟩ := bindSels_good n _ _ _ _ _ (by rw [bindSels_eq]; exact r0)
  obtain ⟨hinv0, _⟩ := k0 (g0.errors he) hinv
  have hroom : s0.shared.length + is.length ≤ 65535 := by
    have := g0.shared
    have := hf.shared
    omega
  have hps := pushSels_run s0 is hroom
  obtain ⟨ep, _, _, erp, _, nmp, _⟩ := pushSels_ok hps
  obtain ⟨u, hu⟩ := hd.run { s0 with shared := s0.shared ++ is }
  have hpi : ({ s0 with shared := s0.shared ++ is, used := u } : St).pushInline ⟨c, cs, (s0.shared.length, s0.shared.length + is.length)⟩ =
      .ok (s0.inlines.length, { s0 with
        shared := s0.shared ++ is, used := u,
        inlines := s0.inlines ++ [⟨c, cs, (s0.shared.length, s0.shared.length + is.length)⟩] }) := by
    rw [St.pushInline, if_pos (by have := hf.inlines; have := g0.inlines; simp only [St.idLimit]; omega)]
  have ed := bindDirectives_ext (S := S) (vars := vars) dirs { s0 with shared := s0.shared ++ is }
  have nd := bindDirectives_names (S := S) (vars := vars) dirs { s0 with shared := s0.shared ++ is }
  rw [hu] at ed nd
  obtain ⟨e2, _, _, _, nm2⟩ := pushInline_ok hpi
  have g2 : Grown st { s0 with
      shared := s0.shared ++ is, used := u,
      inlines := s0.inlines ++ [⟨c, cs, (s0.shared.length, s0.shared.length + is.length)⟩] } (1 + s.size) 1 s.argCount := by
    obtain ⟨g1, g2, g3, g4, g5, g6, g7, g8, g9⟩ := g0
    constructor <;> simp only [List.length_append, List.length_singleton] <;> first | omega | exact g9
  obtain ⟨ids, s3, r3, g3⟩ := ih n (by omega) _ (((hinv0.mono ep nmp).mono ed nd).mono e2 nm2) (g2.errors he)
    (Fits.after (k := 1 + s.size) (a := s.argCount) (hf.le (by omega) (by omega)) g2)
  refine ⟨.inline s0.inlines.length :: ids, s3, ?_, ?_⟩
  · rw [bindWith, hc]
    simp only
    rw [r0]
    simp only [Res.bind]
    rw [hps]
    simp only [Res.bind]
    rw [hu]
    simp only
    rw [hpi]
    simp only [Res.map, Res.bind]
    rw [r3]
  · have := g2.then g3
    rw [List.length_cons, Nat.add_comm _ 1, Tree.size, Tree.argCount]
    exact this

/-- Valid selections are bound. -/
theorem Means.run {parent : Comp} {sels : Sels} {t : Tree} (h : Means S (exact S vars) frags false parent sels t) :
    ∃ n0, ∀ n, n0 ≤ n → ∀ st, Inv S (exact S vars) frags st → st.errors = [] → Fits st t.size t.argCount →
      ∃ ids st', bindWith S vars frags (enterOf S vars frags n) sels parent st = .ok (ids, st') ∧
        Grown st st' t.size ids.length t.argCount := by
  have good : ∀ n sels c st ids st', bindWith S vars frags (enterOf S vars frags n) sels c st = .ok (ids, st') →
      Good S (exact S vars) frags sels c st ids st' := fun n sels c st ids st' h =>
    bindSels_good n sels c st ids st' (by rw [bindSels_eq]; exact h)
  induction h with
  | nil => exact ⟨0, fun n _ st _ _ _ => ⟨[], st, rfl, Grown.refl st⟩⟩
  | typename h1 _ _ ih =>
    obtain ⟨n0, ih⟩ := ih
    refine ⟨n0, fun n hn st hinv he hf => ?_⟩
    rw [Tree.size, Tree.argCount] at hf
    obtain ⟨i, s1, r1, g1⟩ := bindTypename_run (name := typenameName) h1 st (hf.le (by omega) (by omega))
    obtain ⟨e1, m1, _⟩ := bindTypename_ok r1
    obtain ⟨ids, s2, r2, g2⟩ := ih n hn s1 (hinv.mono e1 m1) (g1.errors he)
      (Fits.after (k := 1) (a := 0) (hf.le (by omega) (by omega)) g1)
    refine ⟨.typename i :: ids, s2, ?_, ?_⟩
    · rw [bindWith, if_pos rfl, r1]
      simp only [Res.bind, Res.map, r2]
    · have := g1.then g2
      rw [Nat.zero_add] at this
      rw [List.length_cons, Nat.add_comm _ 1]
      exact this
  | leaf h1 h2 h3 h4 h5 h6 h7 _ ih =>
    obtain ⟨n0, ih⟩ := ih
    refine ⟨n0, fun n hn st hinv he hf => ?_⟩
    rw [Tree.size, Tree.argCount, Tree.size, Tree.argCount] at hf
    rename_i parent name alias args dirs rest d xs cs t _
    obtain ⟨i, s1, r1, g1⟩ := finishField_run (name := name) (alias := alias) (sels := (0, 0)) h6 h7 st (hf.le (by omega) (by omega))
    obtain ⟨e1, m1, _⟩ := finishField_ok r1
    obtain ⟨ids, s2, r2, g2⟩ := ih n hn s1 (hinv.mono e1 m1) (g1.errors he)
      (Fits.after (k := 1) (a := xs.length) (hf.le (by omega) (by omega)) g1)
    refine ⟨.data i :: ids, s2, ?_, ?_⟩
    · rw [bindWith, if_neg h1, fieldDef_run h2 h3 h4]
      simp only [bindSub, h5, Sels.isNil, Bool.not_true, Bool.false_eq_true, if_false, Res.bind]
      rw [r1]
      simp only [Res.bind, Res.map, r2]
    · have := g1.then g2
      rw [List.length_cons, Nat.add_comm _ 1]
      simpa [Tree.size, Tree.argCount] using this
  | field h1 h2 h3 h4 h5 h6 h7 h8 hsub _ ihs ih =>
    obtain ⟨n0, ih⟩ := ih
    obtain ⟨m0, ihs⟩ := ihs
    refine ⟨max n0 m0, fun n hn st hinv he hf => ?_⟩
    rw [Tree.size, Tree.argCount] at hf
    rename_i parent name alias args dirs sub rest d c xs cs s t _
    obtain ⟨is, s0, r0, g0⟩ := ihs n (by omega) st hinv he (hf.le (by omega) (by omega))
    obtain ⟨e0, k0⟩ := good _ _ _ _ _ _ r0
    obtain ⟨hinv0, s', hs1, hs2, _⟩ := k0 (g0.errors he) hinv
    have hroom : s0.shared.length + is.length ≤ 65535 := by
      have := g0.shared
      have := hf.shared
      omega
    have hps := pushSels_run s0 is hroom
    obtain ⟨ep, _, _, erp, _, nmp, _⟩ := pushSels_ok hps
    have gp : Grown st { s0 with shared := s0.shared ++ is } s.size 0 s.argCount := by
      obtain ⟨g1, g2, g3, g4, g5, g6, g7, g8, g9⟩ := g0
      constructor <;> simp only [List.length_append] <;> first | omega | exact g9
    obtain ⟨i, s1, r1, g1⟩ := finishField_run (name := name) (alias := alias) (sels := (s0.shared.length, s0.shared.length + is.length))
      h7 h8 { s0 with shared := s0.shared ++ is }
      (Fits.after (k := s.size) (a := s.argCount) (hf.le (by omega) (by omega)) gp)
    obtain ⟨e1, m1, _⟩ := finishField_ok r1
    have gp1 := gp.then g1
    obtain ⟨ids, s2, r2, g2⟩ := ih n (by omega) s1 ((hinv0.mono ep nmp).mono e1 m1) (gp1.errors he)
      (Fits.after (k := s.size + 1) (a := s.argCount + xs.length) (hf.le (by omega) (by omega)) gp1)
    have hne : is ≠ [] := fun e => h6 (hs2.nil_iff.2 (hs1.nil_iff.1 e))
    refine ⟨.data i :: ids, s2, ?_, ?_⟩
    · rw [bindWith, if_neg h1, fieldDef_run h2 h3 h4]
      simp only [bindSub, h5]
      rw [r0]
      simp only [Res.bind]
      rw [hps]
      simp only [Res.map, Res.bind]
      rw [if_neg (by
        rintro ⟨h, _⟩
        simp at h
        exact hne h)]
      simp only
      rw [r1]
      simp only [r2]
    · have := gp1.then g2
      rw [List.length_cons, Nat.add_comm _ 1, Tree.size, Tree.argCount]
      rw [show 1 + s.size + t.size = s.size + 1 + t.size by omega,
        show xs.length + s.argCount + t.argCount = s.argCount + xs.length + t.argCount by omega]
      simpa using this
  | spread h1 h2 h3 h4 hsub _ ihs ih =>
    obtain ⟨n0, ih⟩ := ih
    obtain ⟨m0, ihs⟩ := ihs
    refine ⟨max n0 (m0 + 1), fun n hn st hinv he hf => ?_⟩
    rw [Tree.size, Tree.argCount] at hf
    rename_i parent name dirs rest f c cs s t _
    have henter : ∀ sels c st ids st', enterOf S vars frags n sels c st = .ok (ids, st') →
        Good S (exact S vars) frags sels c st ids st' := by
      intro sels c st ids st' h
      cases n with
      | zero => cases h
      | succ n => exact bindSels_good n _ _ _ _ _ h
    have hb : ∃ id s1, bindFragment S frags (enterOf S vars frags n) parent name st = .ok (some id, s1) ∧
        Grown st s1 (s.size + 1) 1 s.argCount ∧ s1.spreads.length ≤ st.spreads.length + s.size := by
      unfold bindFragment
      cases hl : st.names.lookup name with
      | some i =>
        obtain ⟨f', b, t', b1, b2, b3, _⟩ := hinv name i hl
        rw [h1] at b1
        cases b1
        have := h2.det b2
        subst this
        simp only [b3, h3, if_true]
        refine ⟨i, st, rfl, ?_, by omega⟩
        constructor <;> first | omega | exact id
      | none =>
        simp only [h1, typeCondition_run h2 h3]
        obtain ⟨m, rfl⟩ : ∃ m, n = m + 1 := ⟨n - 1, by omega⟩
        obtain ⟨is, s0, r0, g0⟩ := ihs m (by omega) st hinv he (hf.le (by omega) (by omega))
        rw [enterOf, bindSels_eq, r0]
        have hroom : s0.shared.length + is.length ≤ 65535 := by
          have := g0.shared
          have := hf.shared
          omega
        simp only [Res.bind]
        rw [pushSels_run s0 is hroom]
        simp only [Res.bind, St.pushFragment, St.idLimit]
        have hlt : s0.fragments.length < 65535 := by have := g0.fragments; have := hf.fragments; omega
        simp only [hlt, if_true]
        simp only [Res.map, Res.bind]
        refine ⟨_, _, rfl, ?_, g0.spreads⟩
        obtain ⟨g1, g2, g3, g4, g5, g6, g7, g8, g9⟩ := g0
        constructor <;> simp only [List.length_append, List.length_singleton] <;> first | omega | exact g9
    obtain ⟨id, s1, r1, g1, sp1⟩ := hb
    obtain ⟨_, k1⟩ := bindFragment_good henter r1
    obtain ⟨inv1, _⟩ := k1 (g1.errors he) hinv
    obtain ⟨u, hu⟩ := h4.run s1
    have hps : ({ s1 with used := u } : St).pushSpread ⟨id, cs⟩ =
        .ok (s1.spreads.length, { s1 with used := u, spreads := s1.spreads ++ [⟨id, cs⟩] }) := by
      rw [St.pushSpread, if_pos (by have := hf.spreads; simp only [St.idLimit]; omega)]
    have ed := bindDirectives_ext (S := S) (vars := vars) dirs s1
    have nd := bindDirectives_names (S := S) (vars := vars) dirs s1
    rw [hu] at ed nd
    obtain ⟨e2, _, _, _, nm2⟩ := pushSpread_ok hps
    have g2 : Grown st { s1 with used := u, spreads := s1.spreads ++ [⟨id, cs⟩] } (s.size + 1) 1 s.argCount := by
      obtain ⟨g1, g2, g3, g4, g5, g6, g7, g8, g9⟩ := g1
      constructor <;> simp only [List.length_append, List.length_singleton] <;> first | omega | exact g9
    obtain ⟨ids, s3, r3, g3⟩ := ih n (by omega) _ ((inv1.mono ed nd).mono e2 nm2) (g2.errors he)
      (Fits.after (k := s.size + 1) (a := s.argCount) (hf.le (by omega) (by omega)) g2)
    refine ⟨.spread s1.spreads.length :: ids, s3, ?_, ?_⟩
    · rw [bindWith, r1]
      simp only [Res.bind]
      rw [hu]
      simp only
      rw [hps]
      simp only [Res.map, Res.bind]
      rw [r3]
    · have := g2.then g3
      rw [List.length_cons, Nat.add_comm _ 1, Tree.size, Tree.argCount, Nat.add_comm 1 s.size]
      exact this
  | inline h1 hsub _ ihs ih =>
    exact runInline (cond := none) (c := none) rfl h1 hsub ihs ih
  | inlineOn h1 h2 h3 hsub _ ihs ih =>
    exact runInline (cond := some _) (c := some _) (by rw [inlineCondition, typeCondition_run h1 h2]; rfl) h3 hsub ihs ih

end Verif.Bind
