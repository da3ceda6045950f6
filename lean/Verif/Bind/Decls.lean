import Verif.Bind.Lemmas
import Verif.Literals.Props

/-!
# The variables
-/

namespace Verif.Bind

open Verif.Common
open Verif.Coercion (Str InputField Ty VarDef variableType Typed SchemaOk)
open Verif.Literals (Lit Q bindArguments coerceQueryValue Bound VarsOk lax)
open Verif.Wrapping (Wrapping Reachable Rep rep_new rep_run_from reachable_rep run specRun Op)

theorem reachable_new : Reachable .new .named := ⟨[], rfl, rfl⟩

theorem reachable_step {w w' : Wrapping} {t : GType} (h : Reachable w t) (op : Op) (hw : Verif.Wrapping.step w op = some w') :
    ∃ t', Verif.Wrapping.specStep t op = some t' ∧ Reachable w' t' := by
  obtain ⟨ops, h1, h2⟩ := h
  have e1 : run (ops ++ [op]) = some w' := by
    unfold run at h1 ⊢
    simp [List.foldlM_append, h1, hw]
  have e2 : specRun (ops ++ [op]) = Verif.Wrapping.specStep t op := by
    unfold specRun at h2 ⊢
    simp [List.foldlM_append, h2]
  have := rep_run_from rep_new (ops ++ [op])
  rw [show Verif.Wrapping.readBack false [] = .named from rfl] at this
  unfold run at e1
  unfold specRun at e2
  rw [e2] at this
  cases ht : Verif.Wrapping.specStep t op with
  | none =>
    rw [ht] at this
    simp only at this
    rw [e1] at this
    cases this
  | some t' => exact ⟨t', rfl, ops ++ [op], e1, by unfold specRun; rw [e2, ht]⟩

/-- `convert_type` is the type as written. -/
theorem convert_reachable (t : GType) : ∀ w, convert t = some w → ∃ T, Reachable w T ∧ (t.WF → T = t) := by
  induction t with
  | named =>
    intro w h
    cases h
    exact ⟨.named, reachable_new, fun _ => rfl⟩
  | list t ih =>
    intro w h
    rw [convert, Option.bind_eq_some_iff] at h
    obtain ⟨u, h1, h2⟩ := h
    obtain ⟨T, h3, h4⟩ := ih u h1
    obtain ⟨t', h5, h6⟩ := reachable_step h3 .list h2
    refine ⟨t', h6, fun hwf => ?_⟩
    rw [h4 (by simpa [GType.WF] using hwf)] at h5
    simp only [Verif.Wrapping.specStep] at h5
    split at h5
    · cases h5; rfl
    · cases h5
  | nonNull t ih =>
    intro w h
    rw [convert, Option.map_eq_some_iff] at h
    obtain ⟨u, h1, h2⟩ := h
    obtain ⟨T, h3, h4⟩ := ih u h1
    obtain ⟨t', h5, h6⟩ := reachable_step h3 .nonNull (congrArg some h2)
    refine ⟨t', h6, fun hwf => ?_⟩
    have hT : T = t := h4 (by cases t <;> simp_all [GType.WF])
    subst hT
    simp only [Verif.Wrapping.specStep] at h5
    cases T with
    | nonNull x => simp [GType.WF] at hwf
    | named => cases h5; rfl
    | list x => cases h5; rfl

theorem variableType_reachable {ty ty' : Ty} {t : GType} {lit : Lit} (ht : Reachable ty.wrapping t)
    (h : variableType ty (!lit.isNull) = some ty') :
    ty'.definition = ty.definition ∧ ∃ T, Reachable ty'.wrapping T ∧ WithDefault t T lit := by
  unfold variableType at h
  cases hn : lit.isNull with
  | true =>
    rw [hn] at h
    cases h
    exact ⟨rfl, t, ht, by simp [WithDefault, hn]⟩
  | false =>
    rw [hn] at h
    simp only [Bool.not_false, if_true] at h
    rw [(Typed.of_reachable ht).isList] at h
    cases hl : t.isList with
    | false =>
      rw [hl] at h
      cases h
      exact ⟨rfl, .nonNull .named, ⟨[.nonNull], rfl, rfl⟩, by simp [WithDefault, hn, hl]⟩
    | true =>
      rw [hl, if_pos rfl, Option.map_eq_some_iff] at h
      obtain ⟨w, h1, rfl⟩ := h
      obtain ⟨t', h5, h6⟩ := reachable_step ht .listNonNull h1
      refine ⟨rfl, t', h6, ?_⟩
      simp only [Verif.Wrapping.specStep] at h5
      split at h5
      · cases h5
        simp [WithDefault, hn, hl]
      · cases h5

theorem inputType_ok {S : Schema} {n : Str} {id : Nat} (h : inputType S n = .ok id) :
    ∃ td, S.types n = some td ∧ td.kind = .input id := by
  unfold inputType at h
  split at h
  · cases h
  · rename_i d hd
    split at h
    · rename_i i hi
      cases h
      exact ⟨d, hd, hi⟩
    · cases h

variable {S : Schema}

/-- What is known of the variables that are bound. -/
structure VarsInv (S : Schema) (decls : List Decl) (v : Vars) : Prop where
  length : v.defs.length = decls.length
  each : ∀ (i : Nat) d x, decls[i]? = some d → v.defs[i]? = some x → DeclaredAs S v.defaults d x
  wrapped : ∀ x ∈ v.defs, ∃ T, Reachable x.ty.wrapping T

theorem DeclaredAs.mono {l l' : List Q} (h : l <+: l') {d : Decl} {v : VarDef} (hd : DeclaredAs S l d v) : DeclaredAs S l' d v := by
  obtain ⟨h1, h2, h3, h4⟩ := hd
  refine ⟨h1, h2, h3, fun lit hl => ?_⟩
  obtain ⟨T, id, q, a, b, c, d, e⟩ := h4 lit hl
  exact ⟨T, id, q, a, b, c, getElem?_prefix h d, e⟩

theorem VarsInv.push {decls : List Decl} {v : Vars} (h : VarsInv S decls v) {d : Decl} {ty : Ty} {dflt : Option Q}
    (hd : DeclaredAs S (v.defaults ++ dflt.toList) d ⟨d.name, ty, dflt.map fun _ => v.defaults.length, false⟩)
    (hw : ∃ T, Reachable ty.wrapping T) : VarsInv S (decls ++ [d]) (v.push d.name ty dflt) := by
  constructor
  · simp [Vars.push, h.length]
  · intro i d' x h1 h2
    simp only [Vars.push] at h2 ⊢
    by_cases hi : i < decls.length
    · rw [List.getElem?_append_left hi] at h1
      rw [List.getElem?_append_left (by rw [h.length]; exact hi)] at h2
      exact (h.each i d' x h1 h2).mono (List.prefix_append _ _)
    · have : i = decls.length := by
        have := (List.getElem?_eq_some_iff.1 h1).1
        simp at this
        omega
      subst this
      rw [List.getElem?_append_right (Nat.le_refl _)] at h1
      rw [← h.length, List.getElem?_append_right (Nat.le_refl _)] at h2
      simp at h1 h2
      subst h1
      subst h2
      exact hd
  · intro x hx
    simp only [Vars.push, List.mem_append, List.mem_singleton] at hx
    rcases hx with hx | rfl
    · exact h.wrapped x hx
    · exact hw

theorem bindDefault_ok (hs : SchemaOk S.input) {d : Decl} {id : Nat} {w : Wrapping} {decls : List Decl} {v v' : Vars}
    (h : VarsInv S decls v) (hid : inputType S d.tyName = .ok id) (hw : convert d.ty = some w)
    (hb : bindDefault S d ⟨id, w⟩ v = .ok v') (he : v'.errors = []) : v.errors = [] ∧ VarsInv S (decls ++ [d]) v' := by
  obtain ⟨T, hT, hTw⟩ := convert_reachable _ _ hw
  have htd := inputType_ok hid
  unfold bindDefault at hb
  split at hb
  · rename_i hdef
    cases hb
    refine ⟨he, h.push ⟨rfl, htd, fun _ => ⟨rfl, fun hwf => ?_⟩, fun lit hl => ?_⟩ ⟨T, hT⟩⟩
    · exact hTw hwf ▸ hT
    · rw [hdef] at hl; cases hl
  · rename_i lit hdef
    split at hb
    · cases hb
    · rename_i ty hty
      obtain ⟨e1, T', hT', hwd⟩ := variableType_reachable (ty := ⟨id, w⟩) hT hty
      split at hb
      · rename_i q hq
        cases hb
        refine ⟨he, h.push ⟨rfl, ?_, fun hn => ?_, fun lit' hl => ?_⟩ ⟨T', hT'⟩⟩
        · obtain ⟨td, t1, t2⟩ := htd
          exact ⟨td, t1, by rw [t2]; exact congrArg _ e1.symm⟩
        · rw [hdef] at hn; cases hn
        · rw [hdef] at hl
          cases hl
          exact ⟨T', _, q, hT', fun hwf => hTw hwf ▸ hwd, rfl, by simp,
            Verif.Literals.C56_bound S.input none ty T' lit q hs (fun vs e => by cases e) hT' hq⟩
      · cases hb
        simp [Vars.push, Vars.error] at he

theorem bindDefault_errors {d : Decl} {ty : Ty} {v v' : Vars} (hb : bindDefault S d ty v = .ok v') : v.errors <+: v'.errors := by
  unfold bindDefault at hb
  split at hb
  · cases hb; exact List.prefix_refl _
  · split at hb
    · cases hb
    · split at hb
      · cases hb; exact List.prefix_refl _
      · cases hb; exact List.prefix_append _ _

theorem bindDecls_errors (ds : List Decl) : ∀ seen v v', bindDecls S seen ds v = .ok (some v') → v.errors <+: v'.errors := by
  induction ds with
  | nil => intro seen v v' h; cases h; exact List.prefix_refl _
  | cons d ds ih =>
    intro seen v v' h
    rw [bindDecls] at h
    split at h
    · cases h
    · split at h
      · exact (List.prefix_append _ _).trans (ih _ _ _ h)
      · split at h
        · cases h
        · obtain ⟨a, h1, h2⟩ := Res.bind_ok h
          exact (bindDefault_errors h1).trans (ih _ _ _ h2)

theorem bindDecls_ok (hs : SchemaOk S.input) (ds : List Decl) : ∀ seen v v' decls, VarsInv S decls v →
    bindDecls S seen ds v = .ok (some v') → v'.errors = [] →
    v.errors = [] ∧ VarsInv S (decls ++ ds) v' ∧ (ds.map (·.name)).Nodup ∧ ∀ d ∈ ds, d.name ∉ seen := by
  induction ds with
  | nil =>
    intro seen v v' decls h hb he
    cases hb
    exact ⟨he, by simpa using h, by simp, by simp⟩
  | cons d ds ih =>
    intro seen v v' decls h hb he
    rw [bindDecls] at hb
    split at hb
    · cases hb
    · rename_i hseen
      have hseen : d.name ∉ seen := by simpa using hseen
      split at hb
      · exfalso
        have := bindDecls_errors _ _ _ _ hb
        rw [he] at this
        have := List.prefix_nil.1 this
        simp [Vars.error] at this
      · rename_i id hid
        split at hb
        · cases hb
        · rename_i w hw
          obtain ⟨a, h1, h2⟩ := Res.bind_ok hb
          have inv : a.errors = [] → v.errors = [] ∧ VarsInv S (decls ++ [d]) a := fun e => bindDefault_ok hs h hid hw h1 e
          have hae : a.errors = [] := by
            have := bindDecls_errors _ _ _ _ h2
            rw [he] at this
            exact List.prefix_nil.1 this
          obtain ⟨i1, i2⟩ := inv hae
          obtain ⟨_, k2, k3, k4⟩ := ih _ _ _ _ i2 h2 he
          refine ⟨i1, by simpa using k2, ?_, ?_⟩
          · rw [List.map_cons, List.nodup_cons]
            refine ⟨fun hm => ?_, k3⟩
            obtain ⟨d', hd', e⟩ := List.mem_map.1 hm
            exact k4 d' hd' (by rw [e]; exact List.mem_cons_self)
          · intro d' hd'
            rcases List.mem_cons.1 hd' with rfl | hd'
            · exact hseen
            · exact fun hm => k4 d' hd' (List.mem_cons_of_mem _ hm)

theorem bindDecls_declares (hs : SchemaOk S.input) {ds : List Decl} {v : Vars} (h : bindDecls S [] ds ⟨[], [], []⟩ = .ok (some v))
    (he : v.errors = []) : Declares S ds v.defs v.defaults ∧ VarsOk v.defs := by
  obtain ⟨_, inv, hn, _⟩ := bindDecls_ok hs ds [] ⟨[], [], []⟩ v [] ⟨rfl, by simp, by simp⟩ h he
  simp only [List.nil_append] at inv
  refine ⟨⟨hn, inv.length, inv.each⟩, ⟨?_, inv.wrapped⟩⟩
  have : v.defs.map (·.name) = ds.map (·.name) := by
    apply List.ext_getElem?
    intro i
    rw [List.getElem?_map, List.getElem?_map]
    by_cases hi : i < ds.length
    · have h1 : ds[i]? = some ds[i] := List.getElem?_eq_getElem hi
      have h2 : v.defs[i]? = some (v.defs[i]'(by rw [inv.length]; exact hi)) := List.getElem?_eq_getElem _
      rw [h1, h2]
      exact congrArg some (inv.each i _ _ h1 h2).1
    · rw [List.getElem?_eq_none (l := ds) (by omega), List.getElem?_eq_none (by rw [inv.length]; omega)]
      rfl
  rw [this]
  exact hn

/-! ## Valid declarations -/

theorem step_of_spec {w : Wrapping} {t t' : GType} (h : Reachable w t) (op : Op) (ht : Verif.Wrapping.specStep t op = some t') :
    ∃ w', Verif.Wrapping.step w op = some w' ∧ Reachable w' t' := by
  obtain ⟨ops, h1, h2⟩ := h
  have e1 : run (ops ++ [op]) = Verif.Wrapping.step w op := by
    unfold run at h1 ⊢
    simp [List.foldlM_append, h1]
  have e2 : specRun (ops ++ [op]) = some t' := by
    unfold specRun at h2 ⊢
    simp [List.foldlM_append, h2, ht]
  have := rep_run_from rep_new (ops ++ [op])
  rw [show Verif.Wrapping.readBack false [] = .named from rfl] at this
  unfold specRun at e2
  rw [e2] at this
  obtain ⟨w', _, _, h3, _⟩ := this
  unfold run at e1
  rw [h3] at e1
  exact ⟨w', e1.symm, ops ++ [op], by unfold run; exact h3, by unfold specRun; exact e2⟩

theorem convert_some (t : GType) : t.WF → t.depth ≤ 10 → ∃ w, convert t = some w ∧ Reachable w t := by
  induction t with
  | named => exact fun _ _ => ⟨_, rfl, reachable_new⟩
  | list t ih =>
    intro hwf hd
    simp only [GType.depth] at hd
    obtain ⟨w, h1, h2⟩ := ih (by simpa [GType.WF] using hwf) (by omega)
    obtain ⟨w', h3, h4⟩ := step_of_spec (t' := .list t) h2 .list (by
      simp only [Verif.Wrapping.specStep]
      rw [if_pos (by omega)])
    exact ⟨w', by rw [convert, h1]; exact h3, h4⟩
  | nonNull t ih =>
    intro hwf hd
    simp only [GType.depth] at hd
    obtain ⟨w, h1, h2⟩ := ih (by cases t <;> simp_all [GType.WF]) hd
    obtain ⟨w', h3, h4⟩ := step_of_spec (t' := .nonNull t) h2 .nonNull (by
      cases t with
      | named => rfl
      | list t => rfl
      | nonNull t => simp [GType.WF] at hwf)
    refine ⟨w', ?_, h4⟩
    rw [convert, h1]
    exact h3

/-- A declaration that the code can take. -/
def Declarable (S : Schema) (d : Decl) : Prop :=
  d.ty.WF ∧ d.ty.depth ≤ 10 ∧ ∃ td id, S.types d.tyName = some td ∧ td.kind = .input id ∧
    ∀ lit, d.default = some lit → (lit.isNull = false → d.ty.isList = true → d.ty.depth < 10) ∧
      ∀ T, WithDefault d.ty T lit → ∃ q, Bound S.input none lax true id T lit q

theorem bindDefault_run (hs : SchemaOk S.input) {d : Decl} (h : Declarable S d) (v : Vars) :
    ∃ id w v', inputType S d.tyName = .ok id ∧ convert d.ty = some w ∧ bindDefault S d ⟨id, w⟩ v = .ok v' ∧ v'.errors = v.errors := by
  obtain ⟨hwf, hd, td, id, ht, hk, hdef⟩ := h
  obtain ⟨w, h1, h2⟩ := convert_some _ hwf hd
  have hin : inputType S d.tyName = .ok id := by
    unfold inputType
    rw [ht]
    simp only
    rw [hk]
  cases hdf : d.default with
  | none => exact ⟨id, w, v.push d.name ⟨id, w⟩ none, hin, h1, by unfold bindDefault; rw [hdf], rfl⟩
  | some lit =>
    obtain ⟨d1, d2⟩ := hdef lit hdf
    obtain ⟨ty, hty⟩ : ∃ ty, variableType ⟨id, w⟩ (!lit.isNull) = some ty := by
      unfold variableType
      cases hn : lit.isNull with
      | true => exact ⟨_, rfl⟩
      | false =>
        simp only [Bool.not_false, if_true]
        rw [(Typed.of_reachable h2).isList]
        cases hl : d.ty.isList with
        | false => exact ⟨_, rfl⟩
        | true =>
          obtain ⟨w', h3, _⟩ := step_of_spec (t' := .nonNull (.list d.ty)) h2 .listNonNull (by
            simp only [Verif.Wrapping.specStep]
            rw [if_pos (d1 hn hl)])
          simp only [if_true]
          rw [show w.listNonNull = some w' from h3]
          exact ⟨_, rfl⟩
    obtain ⟨e, T, hT, hwd⟩ := variableType_reachable (ty := ⟨id, w⟩) h2 hty
    obtain ⟨q, hq⟩ := d2 T hwd
    obtain ⟨q', hq'⟩ := (Verif.Literals.C56_accepted_iff S.input none ty T lit hs (fun vs e => by cases e) hT).2
      ⟨q, by rw [e]; exact hq⟩
    refine ⟨id, w, v.push d.name ty (some q'), hin, h1, ?_, rfl⟩
    unfold bindDefault
    rw [hdf]
    simp only [hty, hq']

theorem bindDecls_run (hs : SchemaOk S.input) (ds : List Decl) : ∀ seen v, (∀ d ∈ ds, Declarable S d) → (ds.map (·.name)).Nodup →
    (∀ d ∈ ds, d.name ∉ seen) → ∃ v', bindDecls S seen ds v = .ok (some v') ∧ v'.errors = v.errors := by
  induction ds with
  | nil => exact fun seen v _ _ _ => ⟨v, rfl, rfl⟩
  | cons d ds ih =>
    intro seen v hd hn hseen
    rw [List.map_cons, List.nodup_cons] at hn
    obtain ⟨id, w, v1, h1, h2, h3, h4⟩ := bindDefault_run hs (hd d List.mem_cons_self) v
    obtain ⟨v', h5, h6⟩ := ih (d.name :: seen) v1 (fun d' h => hd d' (List.mem_cons_of_mem _ h)) hn.2 (by
      intro d' h' hm
      rcases List.mem_cons.1 hm with e | hm
      · exact hn.1 (by rw [← e]; exact List.mem_map_of_mem h')
      · exact hseen d' (List.mem_cons_of_mem _ h') hm)
    refine ⟨v', ?_, by rw [h6, h4]⟩
    rw [bindDecls, if_neg (by simpa using hseen d List.mem_cons_self), h1]
    simp only
    rw [h2]
    simp only
    rw [h3]
    exact h5

end Verif.Bind
