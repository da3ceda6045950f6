import Verif.Bind.Complete
import Verif.Bind.Decls
import Verif.Bind.After

/-!
# The values of C56, and tidy documents
-/

namespace Verif.Bind

open Verif.Common
open Verif.Coercion (Str InputField Ty VarDef SchemaOk)
open Verif.Literals (Lit Q bindArguments coerceQueryValue VarsOk)
open Verif.Wrapping (Reachable)

/-- What is known of the schema: the types of arguments are built by the builder, and names are distinct. -/
structure Ok (S : Schema) : Prop where
  input : SchemaOk S.input
  args : ∀ c n d, S.fields c n = some d → (∀ f ∈ d.args, ∃ t, Reachable f.ty.wrapping t) ∧ (d.args.map (·.name)).Nodup ∧
    (d.args.map (·.id)).Nodup

variable {S : Schema} {vars : List VarDef} {frags : Frags}

theorem Conds.mapV {V V' : Values} (hc : ∀ v q, V.cond v q → V'.cond v q) {strict : Bool} {dirs : List Dir} {cs : List Cond}
    (h : Conds V strict dirs cs) : Conds V' strict dirs cs := by
  induction h with
  | nil => exact .nil
  | other h1 h2 h3 _ ih => exact .other h1 h2 h3 ih
  | cond h1 h2 h3 h4 _ ih => exact .cond h1 h2 h3 (hc _ _ h4) ih

theorem CondsOf.mapV {V V' : Values} (hc : ∀ v q, V.cond v q → V'.cond v q) {strict : Bool} {dirs : List Dir} {cs : List Cond}
    (h : CondsOf V strict dirs cs) : CondsOf V' strict dirs cs := by
  obtain ⟨h1, cs', h2, h3⟩ := h
  exact ⟨h1, cs', h2.mapV hc, h3⟩

theorem Means.mapV {V V' : Values} (hc : ∀ v q, V.cond v q → V'.cond v q)
    (ha : ∀ c n d g xs, S.fields c n = some d → V.args d.args g xs → V'.args d.args g xs) {strict : Bool} {c : Comp} {sels : Sels} {t : Tree}
    (h : Means S V frags strict c sels t) : Means S V' frags strict c sels t := by
  induction h with
  | nil => exact .nil
  | typename h1 h2 _ ih => exact .typename (h1.mapV hc) h2 ih
  | leaf h1 h2 h3 h4 h5 h6 h7 _ ih => exact .leaf h1 h2 h3 h4 h5 (ha _ _ _ _ _ h3 h6) (h7.mapV hc) ih
  | field h1 h2 h3 h4 h5 h6 h7 h8 _ _ ihs ih => exact .field h1 h2 h3 h4 h5 h6 (ha _ _ _ _ _ h3 h7) (h8.mapV hc) ihs ih
  | spread h1 h2 h3 h4 _ _ ihs ih => exact .spread h1 h2 h3 (h4.mapV hc) ihs ih
  | inline h1 _ _ ihs ih => exact .inline (h1.mapV hc) ihs ih
  | inlineOn h1 h2 h3 _ _ ihs ih => exact .inlineOn h1 h2 (h3.mapV hc) ihs ih

theorem boolean_reachable : Reachable (booleanTy S).wrapping (.nonNull .named) := ⟨[.nonNull], rfl, rfl⟩

theorem exact_args (hs : Ok S) (hv : VarsOk vars) {c : Comp} {n : Str} {d : FieldDef} {g : List (Str × Lit)} {xs : List (Nat × Q)}
    (hd : S.fields c n = some d) (hx : (exact S vars).args d.args g xs) : (values S vars).args d.args g xs := by
  obtain ⟨h1, h2, h3⟩ := hs.args c n d hd
  exact Verif.Literals.C56_arguments_bound S.input vars d.args g xs hs.input hv h1 h2 h3 hx

theorem exact_values (hs : Ok S) (hv : VarsOk vars) {strict : Bool} {c : Comp} {sels : Sels} {t : Tree}
    (h : Means S (exact S vars) frags strict c sels t) : Means S (values S vars) frags strict c sels t :=
  h.mapV (fun v q hq => Verif.Literals.C56_bound S.input (some vars) (booleanTy S) _ v q hs.input
      (fun vs e => by cases e; exact hv) boolean_reachable hq)
    (fun c n d g xs hd hx => exact_args hs hv hd hx)

theorem Conds.exact_of (hs : Ok S) (hv : VarsOk vars) {strict : Bool} {dirs : List Dir} {cs : List Cond}
    (h : Conds (values S vars) strict dirs cs) : ∃ cs', Conds (exact S vars) strict dirs cs' := by
  induction h with
  | nil => exact ⟨_, .nil⟩
  | other h1 h2 h3 _ ih =>
    obtain ⟨cs', ih⟩ := ih
    exact ⟨_, .other h1 h2 h3 ih⟩
  | cond h1 h2 h3 h4 _ ih =>
    obtain ⟨cs', ih⟩ := ih
    obtain ⟨q, hq⟩ := (Verif.Literals.C56_accepted_iff S.input (some vars) (booleanTy S) _ _ hs.input
      (fun vs e => by cases e; exact hv) boolean_reachable).2 ⟨_, h4⟩
    exact ⟨_, .cond h1 h2 h3 hq ih⟩

theorem CondsOf.exact_of (hs : Ok S) (hv : VarsOk vars) {strict : Bool} {dirs : List Dir} {cs : List Cond}
    (h : CondsOf (values S vars) strict dirs cs) : ∃ cs', CondsOf (exact S vars) strict dirs cs' := by
  obtain ⟨h1, cs', h2, h3⟩ := h
  obtain ⟨cs'', h4⟩ := h2.exact_of hs hv
  exact ⟨_, h1, cs'', h4, rfl⟩

theorem args_exact_of (hs : Ok S) (hv : VarsOk vars) {c : Comp} {n : Str} {d : FieldDef} {g : List (Str × Lit)} {xs : List (Nat × Q)}
    (hd : S.fields c n = some d) (h : (values S vars).args d.args g xs) : ∃ ys, (exact S vars).args d.args g ys := by
  obtain ⟨h1, h2, h3⟩ := hs.args c n d hd
  exact (Verif.Literals.C56_arguments_accepted_iff S.input vars d.args g hs.input hv h1 h2 h3).2 ⟨h.1, xs, h.2⟩

theorem fieldsBound_ids {R R' : Nat → GType → Lit → Q → Prop} {fields : List InputField} {fs : List (Str × Lit)}
    {xs ys : List (Nat × Q)} (hx : Verif.Literals.FieldsBound R fields fs xs) (hy : Verif.Literals.FieldsBound R' fields fs ys) :
    ∀ i ∈ Verif.Literals.ids xs, i ∈ Verif.Literals.ids ys := by
  intro i hi
  obtain ⟨f, hf, rfl⟩ := List.mem_map.1 (hx.ordered.subset hi)
  have hgiven : (∃ j, (f.name, j) ∈ fs) ∨ ∃ dv, f.default = some dv := by
    rcases hx.bound f hf with ⟨j, _, _, h, _⟩ | ⟨_, dv, h, _⟩ | ⟨_, _, h, _⟩
    · exact .inl ⟨j, h⟩
    · exact .inr ⟨dv, h⟩
    · exact absurd hi h
  rcases hy.bound f hf with ⟨_, o, _, _, h, _⟩ | ⟨_, dv, _, h⟩ | ⟨h1, h2, _⟩
  · exact List.mem_map_of_mem (f := (·.1)) h
  · exact List.mem_map_of_mem (f := (·.1)) h
  · exfalso
    rcases hgiven with ⟨j, h⟩ | ⟨dv, h⟩
    · exact h1 (List.mem_map_of_mem (f := (·.1)) h)
    · rw [h2] at h; cases h

theorem args_length (hs : Ok S) {c : Comp} {n : Str} {d : FieldDef} {g : List (Str × Lit)} {xs ys : List (Nat × Q)}
    (hd : S.fields c n = some d) (hx : (values S vars).args d.args g xs) (hy : (values S vars).args d.args g ys) : ys.length = xs.length := by
  have hn : ∀ {zs}, (values S vars).args d.args g zs → (Verif.Literals.ids zs).Nodup := fun h =>
    h.2.ordered.nodup (List.Sublist.nodup (List.Sublist.map _ List.filter_sublist) (hs.args c n d hd).2.2)
  have h1 := Verif.ResponseKeys.length_le_of_nodup_subset (hn hx) (fieldsBound_ids hx.2 hy.2)
  have h2 := Verif.ResponseKeys.length_le_of_nodup_subset (hn hy) (fieldsBound_ids hy.2 hx.2)
  simp only [Verif.Literals.ids, List.length_map] at h1 h2
  omega

/-- What is valid has a tree with the values that the code finds. -/
theorem values_exact (hs : Ok S) (hv : VarsOk vars) {strict : Bool} {c : Comp} {sels : Sels} {t : Tree}
    (h : Means S (values S vars) frags strict c sels t) : ∃ t', Means S (exact S vars) frags strict c sels t' ∧ t'.size = t.size ∧
      t'.argCount = t.argCount ∧ t'.definitions = t.definitions ∧ t'.roots = t.roots := by
  induction h with
  | nil => exact ⟨_, .nil, rfl, rfl, rfl, rfl⟩
  | typename h1 h2 _ ih =>
    obtain ⟨t', i1, i2, i5, i3, i4⟩ := ih
    obtain ⟨cs', hc⟩ := h1.exact_of hs hv
    exact ⟨_, .typename hc h2 i1, by simp [Tree.size, i2], by simp [Tree.argCount, i5], by simp [Tree.definitions, i3], by simp [Tree.roots, i4]⟩
  | leaf h1 h2 h3 h4 h5 h6 h7 _ ih =>
    obtain ⟨t', i1, i2, i5, i3, i4⟩ := ih
    obtain ⟨cs', hc⟩ := h7.exact_of hs hv
    obtain ⟨ys, hy⟩ := args_exact_of hs hv h3 h6
    have hy' := exact_args hs hv h3 hy
    exact ⟨_, .leaf h1 h2 h3 h4 h5 hy hc i1, by simp [Tree.size, i2], by simp [Tree.argCount, i5, args_length hs h3 h6 hy'], by simp [Tree.definitions, i3], by simp [Tree.roots, i4]⟩
  | field h1 h2 h3 h4 h5 h6 h7 h8 _ _ ihs ih =>
    obtain ⟨t', i1, i2, i5, i3, i4⟩ := ih
    obtain ⟨s', j1, j2, j5, j3, j4⟩ := ihs
    obtain ⟨cs', hc⟩ := h8.exact_of hs hv
    obtain ⟨ys, hy⟩ := args_exact_of hs hv h3 h7
    have hy' := exact_args hs hv h3 hy
    exact ⟨_, .field h1 h2 h3 h4 h5 h6 hy hc j1 i1, by simp [Tree.size, i2, j2], by simp [Tree.argCount, i5, j5, args_length hs h3 h7 hy'], by simp [Tree.definitions, i3, j3],
      by simp [Tree.roots, i4]⟩
  | spread h1 h2 h3 h4 _ _ ihs ih =>
    obtain ⟨t', i1, i2, i5, i3, i4⟩ := ih
    obtain ⟨s', j1, j2, j5, j3, j4⟩ := ihs
    obtain ⟨cs', hc⟩ := h4.exact_of hs hv
    exact ⟨_, .spread h1 h2 h3 hc j1 i1, by simp [Tree.size, i2, j2], by simp [Tree.argCount, i5, j5], by simp [Tree.definitions, i3, j3], by simp [Tree.roots, i4, j4]⟩
  | inline h1 _ _ ihs ih =>
    obtain ⟨t', i1, i2, i5, i3, i4⟩ := ih
    obtain ⟨s', j1, j2, j5, j3, j4⟩ := ihs
    obtain ⟨cs', hc⟩ := h1.exact_of hs hv
    exact ⟨_, .inline hc j1 i1, by simp [Tree.size, i2, j2], by simp [Tree.argCount, i5, j5], by simp [Tree.definitions, i3, j3], by simp [Tree.roots, i4, j4]⟩
  | inlineOn h1 h2 h3 _ _ ihs ih =>
    obtain ⟨t', i1, i2, i5, i3, i4⟩ := ih
    obtain ⟨s', j1, j2, j5, j3, j4⟩ := ihs
    obtain ⟨cs', hc⟩ := h3.exact_of hs hv
    exact ⟨_, .inlineOn h1 h2 hc j1 i1, by simp [Tree.size, i2, j2], by simp [Tree.argCount, i5, j5], by simp [Tree.definitions, i3, j3], by simp [Tree.roots, i4, j4]⟩

/-! ## Strictness -/

theorem Conds.strict_of {V : Values} {dirs : List Dir} {cs : List Cond} (h : Conds V false dirs cs)
    (ht : ∀ d ∈ dirs, (d.name = skipName ∨ d.name = includeName) ∧ ∀ name v more, d.args = (name, v) :: more → name = ifName ∧ more = []) :
    Conds V true dirs cs := by
  induction h with
  | nil => exact .nil
  | other h1 h2 _ _ _ => exact ((ht _ List.mem_cons_self).1.elim h1 h2).elim
  | cond h1 h2 _ h4 _ ih =>
    exact .cond h1 h2 (fun _ => (ht _ List.mem_cons_self).2 _ _ _ h2) h4 (ih fun d hd => ht d (List.mem_cons_of_mem _ hd))

theorem CondsOf.strict_of {V : Values} {dirs : List Dir} {cs : List Cond} (h : CondsOf V false dirs cs) (ht : TidyDirs dirs) :
    CondsOf V true dirs cs := by
  obtain ⟨_, cs', h1, h2⟩ := h
  exact ⟨fun _ => ht.1, cs', h1.strict_of ht.2, h2⟩

theorem Means.strict_of {V : Values} (hf : ∀ n f, frags.lookup n = some f → Tidy f.sels) {c : Comp} {sels : Sels} {t : Tree}
    (h : Means S V frags false c sels t) : Tidy sels → Means S V frags true c sels t := by
  induction h with
  | nil => exact fun _ => .nil
  | typename h1 _ _ ih => exact fun ht => .typename (h1.strict_of ht.1) (fun _ => ht.2.1 rfl) (ih ht.2.2.2)
  | leaf h1 h2 h3 h4 h5 h6 h7 _ ih => exact fun ht => .leaf h1 h2 h3 h4 h5 h6 (h7.strict_of ht.1) (ih ht.2.2.2)
  | field h1 h2 h3 h4 h5 h6 h7 h8 _ _ ihs ih =>
    exact fun ht => .field h1 h2 h3 h4 h5 h6 h7 (h8.strict_of ht.1) (ihs ht.2.2.1) (ih ht.2.2.2)
  | spread h1 h2 h3 h4 _ _ ihs ih => exact fun ht => .spread h1 h2 h3 (h4.strict_of ht.1) (ihs (hf _ _ h1)) (ih ht.2)
  | inline h1 _ _ ihs ih => exact fun ht => .inline (h1.strict_of ht.1) (ihs ht.2.1) (ih ht.2.2)
  | inlineOn h1 h2 h3 _ _ ihs ih => exact fun ht => .inlineOn h1 h2 (h3.strict_of ht.1) (ihs ht.2.1) (ih ht.2.2)

theorem CondsOf.lax_of {V : Values} {strict : Bool} {dirs : List Dir} {cs : List Cond} (h : CondsOf V strict dirs cs) : CondsOf V false dirs cs := by
  obtain ⟨hn, cs', h1, h2⟩ := h
  refine ⟨(fun h => by cases h), cs', ?_, h2⟩
  clear h2 hn
  induction h1 with
  | nil => exact .nil
  | other h1 h2 _ _ ih => exact .other h1 h2 rfl ih
  | cond h1 h2 _ h4 _ ih => exact .cond h1 h2 (fun h => by cases h) h4 ih

theorem Means.lax_of {V : Values} {strict : Bool} {c : Comp} {sels : Sels} {t : Tree}
    (h : Means S V frags strict c sels t) : Means S V frags false c sels t := by
  induction h with
  | nil => exact .nil
  | typename h1 _ _ ih => exact .typename h1.lax_of (fun h => by cases h) ih
  | leaf h1 h2 h3 h4 h5 h6 h7 _ ih => exact .leaf h1 h2 h3 h4 h5 h6 h7.lax_of ih
  | field h1 h2 h3 h4 h5 h6 h7 h8 _ _ ihs ih => exact .field h1 h2 h3 h4 h5 h6 h7 h8.lax_of ihs ih
  | spread h1 h2 h3 h4 _ _ ihs ih => exact .spread h1 h2 h3 h4.lax_of ihs ih
  | inline h1 _ _ ihs ih => exact .inline h1.lax_of ihs ih
  | inlineOn h1 h2 h3 _ _ ihs ih => exact .inlineOn h1 h2 h3.lax_of ihs ih

/-! ## One tree is read -/

theorem Reads.det {st : St} {ids : List SelId} {t : Tree} (h : Reads st ids t) : ∀ t', Reads st ids t' → t = t' := by
  induction h with
  | nil => intro t' g; cases g; rfl
  | typename h1 h2 _ ih =>
    intro t' g
    cases g with
    | typename g1 g2 g3 =>
      rw [h1] at g1; cases g1
      rw [h2] at g2; cases g2
      rw [ih _ g3]
  | data h1 h2 _ _ _ _ ihs ih =>
    intro t' g
    cases g with
    | data g1 g2 _ _ g5 g6 =>
      rw [h1] at g1; cases g1
      rw [h2] at g2; cases g2
      rw [ihs _ g5, ih _ g6]
  | spread h1 h2 _ _ _ ihs ih =>
    intro t' g
    cases g with
    | spread g1 g2 _ g5 g6 =>
      rw [h1] at g1; cases g1
      rw [h2] at g2; cases g2
      rw [ihs _ g5, ih _ g6]
  | inline h1 _ _ _ ihs ih =>
    intro t' g
    cases g with
    | inline g1 _ g5 g6 =>
      rw [h1] at g1; cases g1
      rw [ihs _ g5, ih _ g6]

/-! ## The operation -/

theorem inv_init (V : Values) (es : List BindErr) : Inv S V frags { St.init with errors := es } := by
  intro n i h
  cases h

theorem rootObject_ok {ty : OpType} {root : Nat} (h : rootObject S ty = .ok root) : IsRoot S ty root := by
  cases ty with
  | query => cases h; rfl
  | mutation =>
    rw [rootObject] at h
    split at h
    · rename_i id hid
      cases h
      exact hid
    · cases h
  | subscription =>
    rw [rootObject] at h
    split at h
    · rename_i id hid
      cases h
      exact hid
    · cases h

theorem rootObject_run {ty : OpType} {root : Nat} (h : IsRoot S ty root) : rootObject S ty = .ok root := by
  cases ty with
  | query => rw [IsRoot] at h; subst h; rfl
  | mutation => simp only [IsRoot] at h; rw [rootObject, h]
  | subscription => simp only [IsRoot] at h; rw [rootObject, h]

theorem bindOperation_ok {fuel : Nat} {doc : Doc} {op : Operation} (h : bindOperation S fuel doc = .ok (.ok op)) :
    op.ty = doc.ty ∧ IsRoot S doc.ty op.root ∧ bindDecls S [] doc.decls ⟨[], [], []⟩ = .ok (some op.vars) ∧ op.vars.errors = [] ∧
    op.st.data.length ≤ 65535 ∧ op.sels.2 ≤ op.st.shared.length ∧
    ∃ t, Reads op.st (slice op.st.shared op.sels) t ∧ Means S (exact S op.vars.defs) doc.frags false (.object op.root) doc.sels t ∧
      ∀ i, i < op.vars.defs.length → i ∈ t.vars := by
  unfold bindOperation at h
  split at h
  · cases h
  · rename_i root hroot
    obtain ⟨v, h1, h⟩ := Res.bind_ok h
    split at h
    · cases h
    · rename_i v
      obtain ⟨⟨ids, s1⟩, h2, h⟩ := Res.bind_ok h
      obtain ⟨⟨r, s2⟩, h3, h⟩ := Res.map_ok h
      simp only at h3 h
      split at h
      · rename_i he
        have he : s2.errors = [] := by simpa using he
        split at h
        · rename_i hall
          cases h
          obtain ⟨g1, g2⟩ := bindSels_good _ _ _ _ _ _ h2
          obtain ⟨e2, r2, sl2, er2, us2, nm2, _⟩ := pushSels_ok h3
          obtain ⟨_, t, t1, t2, t3⟩ := g2 (e2.noErrors he) (inv_init _ _)
          refine ⟨rfl, rootObject_ok hroot, h1, (g1.trans e2).noErrors he, (g1.trans e2).small (by simp [St.init]), r2, t, ?_, t2, ?_⟩
          · simp only
            rw [sl2]
            exact t1.mono e2
          · intro i hi
            unfold allUsed at hall
            rw [List.all_eq_true] at hall
            have := hall i (List.mem_range.2 hi)
            rw [List.contains_iff_mem] at this
            rw [us2, t3 i] at this
            exact this.resolve_left (by simp [St.init])
        · cases h
      · cases h

theorem bindOperation_run (hs : Ok S) {doc : Doc} {root : Nat} (hroot : IsRoot S doc.ty root) {v : Vars}
    (hd : bindDecls S [] doc.decls ⟨[], [], []⟩ = .ok (some v)) (he : v.errors = []) {t : Tree}
    (ht : Means S (exact S v.defs) doc.frags false (.object root) doc.sels t) (hsize : t.size ≤ 65535) (hargs : t.argCount < 65535)
    (hused : ∀ i, i < v.defs.length → i ∈ t.vars) :
    ∃ n0, ∀ n, n0 ≤ n → ∃ op, bindOperation S n doc = .ok (.ok op) ∧ op.vars = v ∧ op.root = root ∧
      Reads op.st (slice op.st.shared op.sels) t := by
  obtain ⟨n0, hrun⟩ := ht.run
  refine ⟨n0, fun n hn => ?_⟩
  obtain ⟨ids, s1, r1, g1⟩ := hrun n hn { St.init with errors := v.errors } (inv_init _ _) he (by
    constructor <;> simp only [St.init, List.length_nil] <;> omega)
  obtain ⟨e1, k1⟩ := bindSels_good n _ _ _ _ _ (by rw [bindSels_eq]; exact r1)
  obtain ⟨_, t', t1, t2, t3⟩ := k1 (g1.errors he) (inv_init _ _)
  have := ht.det exact_functional _ t2
  subst this
  have hroom : s1.shared.length + ids.length ≤ 65535 := by
    have := g1.shared
    simp only [St.init, List.length_nil] at this
    omega
  have hps := pushSels_run s1 ids hroom
  obtain ⟨e2, r2, sl2, er2, us2, nm2, _⟩ := pushSels_ok hps
  refine ⟨⟨doc.ty, root, v, { s1 with shared := s1.shared ++ ids }, (s1.shared.length, s1.shared.length + ids.length)⟩, ?_, rfl, rfl, ?_⟩
  · unfold bindOperation
    rw [rootObject_run hroot]
    simp only
    rw [hd]
    simp only [Res.bind]
    rw [bindSels_eq, r1]
    simp only [hps, Res.map, Res.bind]
    have h1 : s1.errors = [] := g1.errors he
    have h2 : allUsed v { s1 with shared := s1.shared ++ ids } = true := by
      unfold allUsed
      rw [List.all_eq_true]
      intro i hi
      rw [List.contains_iff_mem]
      exact (t3 i).2 (.inr (hused i (List.mem_range.1 hi)))
    rw [if_pos (by rw [h1]; rfl), if_pos h2]
  · simp only at sl2 ⊢
    rw [sl2]
    exact t1.mono e2

end Verif.Bind
