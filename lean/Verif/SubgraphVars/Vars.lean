import Verif.SubgraphVars.Lemmas
import Mathlib.Data.List.Nodup
/-! The variables of an operation: comparison, names and the invariant of `get_or_insert_var`. -/
namespace Verif.SubgraphVars
open Verif.Coercion (Json Str Ty)
open Verif.Literals (Q Names Env serQ isUndefined)
open Verif.SchemaPath (digits digitsVal digits_spec)

mutual
theorem JEq.symm : ∀ {a b : Json}, JEq a b → JEq b a
  | _, _, .refl j => .refl j
  | _, _, .arr h => .arr h.symm
  | _, _, .fields h => .fields h.symm
  | _, _, .keyed h1 h2 h3 h4 => .keyed h2 h1 (fun k => (h3 k).symm) fun k v w hv hw => (h4 k w v hw hv).symm
theorem ItemsEq.symm : ∀ {a b : List Json}, ItemsEq a b → ItemsEq b a
  | _, _, .nil => .nil
  | _, _, .cons h t => .cons h.symm t.symm
theorem FieldsEq.symm : ∀ {a b : List (Str × Json)}, FieldsEq a b → FieldsEq b a
  | _, _, .nil => .nil
  | _, _, .cons h t => .cons h.symm t.symm
end

theorem SameValue.refl : ∀ (o : Option Json), SameValue o o
  | none => .absent
  | some j => .given (.refl j)

theorem eqPlan_sound {ctx : Ctx} {nm : Names} {env : Env} (hnm : NamesMatch ctx nm) (hs : ∀ id, S.Keyed (ctx.values id)) {l r : PlanValue}
    (h : eqPlan ctx l r = some true) (hl : l.Keyed) (hr : r.Keyed) : SameValue (planJson ctx nm env l) (planJson ctx nm env r) := by
  cases l with
  | query l =>
    cases r with
    | query r =>
      rw [eqPlan] at h
      unfold planJson
      simp only
      rw [undefined_of_eqQ (env := env) h]
      split
      · exact .absent
      · exact .given (eqQ_sound hnm l r h hl hr)
    | schema r =>
      rw [eqPlan] at h
      unfold planJson
      simp only
      rw [not_undefined_of_eqQS (env := env) h]
      exact .given (eqQS_sound hnm l _ h hl (hs r))
    | injection r => simp [eqPlan] at h
  | schema l =>
    cases r with
    | query r =>
      rw [eqPlan] at h
      unfold planJson
      simp only
      rw [not_undefined_of_eqQS (env := env) h]
      exact .given (eqQS_sound hnm r _ h hr (hs l)).symm
    | schema r =>
      simp only [eqPlan, Option.some.injEq, decide_eq_true_eq] at h
      rw [h]
      exact .refl _
    | injection r => simp [eqPlan] at h
  | injection l =>
    cases r with
    | injection r => exact .absent
    | _ => simp [eqPlan] at h

theorem eqPlan_var {ctx : Ctx} {c : Nat} {l : PlanValue} (h : eqPlan ctx l (.query (.variable c)) = some true) : l = .query (.variable c) := by
  cases l with
  | query l =>
    rw [eqPlan] at h
    cases l with
    | «variable» i => simp [eqQ] at h; rw [h]
    | _ => simp [eqQ] at h
  | schema l =>
    rw [eqPlan] at h
    cases ctx.values l <;> simp [eqQS] at h
  | injection l => simp [eqPlan] at h

theorem eqPlan_from_var {ctx : Ctx} {c : Nat} {r : PlanValue} (h : eqPlan ctx (.query (.variable c)) r = some true) : r = .query (.variable c) := by
  cases r with
  | query l =>
    rw [eqPlan] at h
    cases l with
    | «variable» i => simp [eqQ] at h; rw [h]
    | _ => simp [eqQ] at h
  | schema l =>
    rw [eqPlan] at h
    cases hc : ctx.values l <;> simp [eqQS, hc] at h
  | injection l => simp [eqPlan] at h

theorem eqPlan_injection {ctx : Ctx} {c : Nat} {l : PlanValue} (h : eqPlan ctx l (.injection c) = some true) : l = .injection c := by
  cases l <;> simp [eqPlan] at h
  rw [h]

theorem eqPlan_from_injection {ctx : Ctx} {c : Nat} {l : PlanValue} (h : eqPlan ctx (.injection c) l = some true) : l = .injection c := by
  cases l <;> simp [eqPlan] at h
  rw [h]

theorem eqPlan_var_self (ctx : Ctx) (c : Nat) : eqPlan ctx (.query (.variable c)) (.query (.variable c)) = some true := by
  simp [eqPlan, eqQ]

/-! ## Position -/

theorem position_found {ctx : Ctx} {ty : Ty} {value : PlanValue} : ∀ {vars : List QueryVar} {n i : Nat},
    position ctx ty value n vars = some (some i) →
    n ≤ i ∧ ∃ v, vars[i - n]? = some v ∧ v.ty = ty ∧ eqPlan ctx v.value value = some true
  | [], n, i, h => by simp [position] at h
  | v :: rest, n, i, h => by
    rw [position] at h
    split at h
    · obtain ⟨h1, w, h2, h3⟩ := position_found h
      refine ⟨by omega, w, ?_, h3⟩
      rw [show i - n = (i - (n + 1)) + 1 by omega]
      exact h2
    · rename_i e
      cases hb : eqPlan ctx v.value value with
      | none => rw [hb] at h; cases h
      | some b =>
        rw [hb] at h
        cases b with
        | true =>
          simp at h
          subst h
          exact ⟨Nat.le_refl _, v, by simp, Classical.not_not.1 e, hb⟩
        | false =>
          obtain ⟨h1, w, h2, h3⟩ := position_found (by simpa using h)
          refine ⟨by omega, w, ?_, h3⟩
          rw [show i - n = (i - (n + 1)) + 1 by omega]
          exact h2

theorem position_none {ctx : Ctx} {ty : Ty} {value : PlanValue} : ∀ {vars : List QueryVar} {n : Nat},
    position ctx ty value n vars = some none → ∀ v ∈ vars, v.ty = ty → eqPlan ctx v.value value = some false
  | [], n, h, v, hv, _ => by cases hv
  | v :: rest, n, h, w, hw, ht => by
    rw [position] at h
    split at h
    · rename_i e
      rcases List.mem_cons.1 hw with rfl | hw
      · exact absurd ht e
      · exact position_none h w hw ht
    · cases hb : eqPlan ctx v.value value with
      | none => rw [hb] at h; cases h
      | some b =>
        rw [hb] at h
        cases b with
        | true => simp at h
        | false =>
          rcases List.mem_cons.1 hw with rfl | hw
          · exact hb
          · exact position_none (by simpa using h) w hw ht

/-! ## Names -/

theorem dropWhile_candidate : ∀ (k : Nat) (s : Str), (List.replicate k '_' ++ varPrefix ++ s).dropWhile (fun c => c == '_') = varPrefix ++ s
  | 0, s => rfl
  | k + 1, s => by
    have h := dropWhile_candidate k s
    rw [List.append_assoc] at *
    rw [List.replicate_succ, List.cons_append, List.dropWhile_cons, if_pos (by rfl)]
    exact h

theorem digits_inj {n m : Nat} (h : digits n = digits m) : n = m := by
  have h1 := (digits_spec n).1
  have h2 := (digits_spec m).1
  rw [h, h2] at h1
  exact (Option.some.inj h1).symm

theorem candidate_inj {k l n m : Nat} (h : candidate k n = candidate l m) : n = m := by
  unfold candidate at h
  have h1 := congrArg (List.dropWhile fun c => c == '_') h
  rw [dropWhile_candidate, dropWhile_candidate] at h1
  exact digits_inj (List.append_cancel_left h1)

theorem candidate_inj' {k l n : Nat} (h : candidate k n = candidate l n) : k = l := by
  have h1 := congrArg List.length h
  simp [candidate] at h1
  omega

theorem freshName_spec {client : List Str} {n : Nat} : ∀ {fuel k : Nat} {name : Str}, freshName client n fuel k = some name →
    ∃ l, k ≤ l ∧ name = candidate l n ∧ name ∉ client ∧ ∀ l', k ≤ l' → l' < l → candidate l' n ∈ client
  | 0, k, name, h => by cases h
  | fuel + 1, k, name, h => by
    rw [freshName] at h
    split at h
    · rename_i hc
      refine ⟨k, Nat.le_refl _, (Option.some.inj h).symm, fun hm => ?_, fun l' h1 h2 => absurd h2 (by omega)⟩
      have := of_decide_eq_true (List.all_eq_true.1 hc _ hm)
      exact this (Option.some.inj h).symm
    · rename_i hc
      obtain ⟨l, h1, h2, h3, h4⟩ := freshName_spec h
      refine ⟨l, by omega, h2, h3, fun l' h5 h6 => ?_⟩
      by_cases e : l' = k
      · subst e
        obtain ⟨c, hc, hd⟩ := (List.all_eq_false (p := fun c => decide (c ≠ candidate l' n))).1 (Bool.not_eq_true _ ▸ hc)
        simp at hd
        exact hd ▸ hc
      · exact h4 l' (by omega) h6

theorem freshName_none {client : List Str} {n : Nat} : ∀ {fuel k : Nat}, freshName client n fuel k = none →
    ∀ l, k ≤ l → l < k + fuel → candidate l n ∈ client
  | 0, k, _, l, h1, h2 => absurd h2 (by omega)
  | fuel + 1, k, h, l, h1, h2 => by
    rw [freshName] at h
    split at h
    · cases h
    · rename_i hc
      by_cases e : l = k
      · subst e
        obtain ⟨c, hc, hd⟩ := (List.all_eq_false (p := fun c => decide (c ≠ candidate l n))).1 (Bool.not_eq_true _ ▸ hc)
        simp at hd
        exact hd ▸ hc
      · exact freshName_none h l (by omega) (by omega)

theorem freshName_total (client : List Str) (n : Nat) : ∃ name, freshName client n (client.length + 1) 0 = some name := by
  cases h : freshName client n (client.length + 1) 0 with
  | some name => exact ⟨name, rfl⟩
  | none =>
    exfalso
    have hm := freshName_none h
    have hn : ((List.range (client.length + 1)).map fun l => candidate l n).Nodup := by
      refine List.nodup_range.map fun a b e => candidate_inj' e
    have := (List.subperm_of_subset hn (l₂ := client) (fun x hx => by
      obtain ⟨l, hl, rfl⟩ := List.mem_map.1 hx
      exact hm l (Nat.zero_le _) (by have := List.mem_range.1 hl; omega))).length_le
    simp at this
    omega

/-! ## The invariant -/

theorem reused_some {ctx : Ctx} {value : PlanValue} {p : Str × Ty} (h : reused ctx value = some p) : IsClientVar ctx value p.1 p.2 := by
  unfold reused at h
  split at h
  · exact ⟨_, rfl, h⟩
  · cases h

theorem reused_of {ctx : Ctx} {value : PlanValue} {name : Str} {ty : Ty} (h : IsClientVar ctx value name ty) :
    reused ctx value = some (name, ty) := by
  obtain ⟨i, rfl, hi⟩ := h
  exact hi

/-- Every variable is one of the client, or has a name made of its position which is not a name of the client. -/
structure Inv (ctx : Ctx) (vars : List QueryVar) : Prop where
  named : ∀ (i : Nat) (v : QueryVar), vars[i]? = some v → IsClientVar ctx v.value v.name v.ty ∨
    (reused ctx v.value = none ∧ ∃ k, v.name = candidate k i ∧ v.name ∉ ctx.clientVars.map (·.1))
  once : ∀ (i j c : Nat) (v w : QueryVar), vars[i]? = some v → vars[j]? = some w → v.value = .query (.variable c) →
    w.value = .query (.variable c) → reused ctx v.value ≠ none → i = j

theorem Inv.nil (ctx : Ctx) : Inv ctx [] := ⟨fun i v h => by simp at h, fun i j c v w h => by simp at h⟩

/-- What is known after `get_or_insert_var` for an argument. -/
def Served (ctx : Ctx) (vars : List QueryVar) (ty : Ty) (value : PlanValue) (i : Nat) : Prop :=
  ∃ v, vars[i]? = some v ∧ Declared ctx ty value v.ty ∧ (v.value = value ∨ eqPlan ctx v.value value = some true) ∧
    ∀ n t, IsClientVar ctx value n t → v.name = n

theorem declared (ctx : Ctx) (ty : Ty) (value : PlanValue) : Declared ctx ty value (((reused ctx value).map (·.2)).getD ty) := by
  cases h : reused ctx value with
  | some p => exact Or.inl ⟨p.1, reused_some h⟩
  | none => exact Or.inr ⟨fun n t hc => (by rw [reused_of hc] at h; cases h), rfl⟩

theorem getOrInsert_inv {ctx : Ctx} {vars vars' : List QueryVar} {ty : Ty} {value : PlanValue} {i : Nat} (hi : Inv ctx vars)
    (h : getOrInsert ctx vars ty value = some (i, vars')) :
    Inv ctx vars' ∧ Served ctx vars' ty value i ∧ (vars' = vars ∨ ∃ v, vars' = vars ++ [v] ∧ i = vars.length ∧ v.value = value) := by
  unfold getOrInsert at h
  simp only at h
  cases hp : position ctx (((reused ctx value).map (·.2)).getD ty) value 0 vars with
  | none => rw [hp] at h; cases h
  | some o =>
    rw [hp] at h
    cases o with
    | some j =>
      simp only [Option.some.injEq, Prod.mk.injEq] at h
      obtain ⟨rfl, rfl⟩ := h
      obtain ⟨_, v, hv, ht, he⟩ := position_found hp
      rw [Nat.sub_zero] at hv
      refine ⟨hi, ⟨v, hv, ht ▸ declared ctx ty value, Or.inr he, ?_⟩, Or.inl rfl⟩
      rintro n t ⟨c, rfl, hc⟩
      have e := eqPlan_var he
      rcases hi.named j v hv with ⟨d, hd, hd2⟩ | ⟨hr, _⟩
      · rw [hd] at e
        cases e
        rw [hc] at hd2
        cases hd2
        rfl
      · rw [e] at hr
        exact absurd (hr.symm.trans hc) (by simp)
    | none =>
      simp only at h
      cases hn : newName ctx vars.length value with
      | none => rw [hn] at h; cases h
      | some name =>
        rw [hn] at h
        simp only [Option.map_some, Option.some.injEq, Prod.mk.injEq] at h
        obtain ⟨rfl, rfl⟩ := h
        have hnone := position_none hp
        have hname : IsClientVar ctx value name (((reused ctx value).map (·.2)).getD ty) ∨
            (reused ctx value = none ∧ ∃ k, name = candidate k vars.length ∧ name ∉ ctx.clientVars.map (·.1)) := by
          unfold newName at hn
          cases hr : reused ctx value with
          | some p =>
            rw [hr] at hn
            cases hn
            exact Or.inl (reused_some hr)
          | none =>
            rw [hr] at hn
            obtain ⟨l, _, h2, h3, _⟩ := freshName_spec hn
            exact Or.inr ⟨rfl, l, h2, h3⟩
        have hget : ∀ (j : Nat) (w : QueryVar), (vars ++ [(⟨name, ((reused ctx value).map (·.2)).getD ty, value⟩ : QueryVar)])[j]? = some w →
            vars[j]? = some w ∨ (j = vars.length ∧ w = ⟨name, ((reused ctx value).map (·.2)).getD ty, value⟩) := by
          intro j w hw
          rcases Nat.lt_trichotomy j vars.length with hj | hj | hj
          · exact Or.inl (by rw [List.getElem?_append_left hj] at hw; exact hw)
          · subst hj
            exact Or.inr ⟨rfl, by simpa using hw.symm⟩
          · rw [List.getElem?_append_right (by omega)] at hw
            rw [List.getElem?_eq_none (by simp; omega)] at hw
            cases hw
        have hfresh : ∀ (j : Nat) (w : QueryVar) (c : Nat), vars[j]? = some w → w.value = .query (.variable c) → value = .query (.variable c) →
            reused ctx value ≠ none → False := by
          intro j w c hw e1 e2 hr
          have hwm := List.mem_of_getElem? hw
          have ht : w.ty = ((reused ctx value).map (·.2)).getD ty := by
            rcases hi.named j w hw with hc | ⟨hr', _⟩
            · rw [e1] at hc
              rw [e2, reused_of hc]
              rfl
            · rw [e1, ← e2] at hr'
              exact absurd hr' hr
          have := hnone w hwm ht
          rw [e1, e2, eqPlan_var_self] at this
          cases this
        refine ⟨⟨fun j w hw => ?_, fun j1 j2 c v w hv hw e1 e2 hr => ?_⟩, ?_, Or.inr ⟨_, rfl, rfl, rfl⟩⟩
        · rcases hget j w hw with hw | ⟨rfl, rfl⟩
          · exact hi.named j w hw
          · exact hname
        · rcases hget j1 v hv with hv | ⟨rfl, rfl⟩ <;> rcases hget j2 w hw with hw | ⟨rfl, rfl⟩
          · exact hi.once j1 j2 c v w hv hw e1 e2 hr
          · exact absurd (hfresh j1 v c hv e1 e2 (by rw [e1] at hr; rw [show value = _ from e2]; exact hr)) (fun h => h)
          · exact absurd (hfresh j2 w c hw e2 e1 hr) (fun h => h)
          · rfl
        · refine ⟨_, List.getElem?_concat_length, declared ctx ty value, Or.inl rfl, ?_⟩
          intro n t hc
          rcases hname with hc' | ⟨hr, _⟩
          · have := (reused_of hc').symm.trans (reused_of hc)
            simp at this
            exact this.1
          · rw [reused_of hc] at hr
            cases hr

theorem Served.mono {ctx : Ctx} {vars more : List QueryVar} {ty : Ty} {value : PlanValue} {i : Nat} (h : Served ctx vars ty value i) :
    Served ctx (vars ++ more) ty value i := by
  obtain ⟨v, hv, h⟩ := h
  refine ⟨v, ?_, h⟩
  rw [List.getElem?_append_left (List.getElem?_eq_some_iff.1 hv).1]
  exact hv

theorem insertAll_inv {ctx : Ctx} : ∀ {reqs : List (Ty × PlanValue)} {vars vars' : List QueryVar} {idxs : List Nat}, Inv ctx vars →
    insertAll ctx vars reqs = some (idxs, vars') →
    Inv ctx vars' ∧ (∃ more, vars' = vars ++ more ∧ ∀ v ∈ more, ∃ ty, (ty, v.value) ∈ reqs) ∧ idxs.length = reqs.length ∧
    (∀ (j : Nat) (ty : Ty) (value : PlanValue), reqs[j]? = some (ty, value) → ∃ i, idxs[j]? = some i ∧ Served ctx vars' ty value i) ∧
    ∀ i, vars.length ≤ i → i < vars'.length → i ∈ idxs
  | [], vars, vars', idxs, hi, h => by
    simp only [insertAll, Option.some.injEq, Prod.mk.injEq] at h
    obtain ⟨rfl, rfl⟩ := h
    exact ⟨hi, ⟨[], by simp, by simp⟩, rfl, fun j ty value h => by simp at h, fun i h1 h2 => absurd h2 (by omega)⟩
  | (ty, value) :: rest, vars, vars', idxs, hi, h => by
    rw [insertAll] at h
    cases hg : getOrInsert ctx vars ty value with
    | none => rw [hg] at h; cases h
    | some r =>
      obtain ⟨i, vars1⟩ := r
      rw [hg] at h
      simp only [Option.bind_some] at h
      cases hr : insertAll ctx vars1 rest with
      | none => rw [hr] at h; cases h
      | some r' =>
        obtain ⟨idxs1, vars2⟩ := r'
        rw [hr] at h
        simp only [Option.map_some, Option.some.injEq, Prod.mk.injEq] at h
        obtain ⟨rfl, rfl⟩ := h
        obtain ⟨hi1, hs, hv⟩ := getOrInsert_inv hi hg
        obtain ⟨hi2, ⟨more, rfl, hmore⟩, hl, hserved, hused⟩ := insertAll_inv hi1 hr
        refine ⟨hi2, ?_, by simp [hl], fun j ty' value' hj => ?_, fun j h1 h2 => ?_⟩
        · have hmore' : ∀ v ∈ more, ∃ ty', (ty', v.value) ∈ (ty, value) :: rest := fun v hv =>
            let ⟨t, ht⟩ := hmore v hv
            ⟨t, List.mem_cons_of_mem _ ht⟩
          rcases hv with rfl | ⟨v, rfl, _, hval⟩
          · exact ⟨more, rfl, hmore'⟩
          · refine ⟨v :: more, by simp, fun w hw => ?_⟩
            rcases List.mem_cons.1 hw with rfl | hw
            · exact ⟨ty, by rw [hval]; exact List.mem_cons_self⟩
            · exact hmore' w hw
        · cases j with
          | zero =>
            simp only [List.getElem?_cons_zero, Option.some.injEq, Prod.mk.injEq] at hj
            obtain ⟨rfl, rfl⟩ := hj
            exact ⟨i, by simp, hs.mono⟩
          | succ j => exact hserved j ty' value' (by simpa using hj)
        · rcases hv with rfl | ⟨v, rfl, rfl, _⟩
          · exact List.mem_cons_of_mem _ (hused j h1 h2)
          · by_cases e : j = vars.length
            · subst e; exact List.mem_cons_self
            · exact List.mem_cons_of_mem _ (hused j (by simp; omega) h2)

theorem Inv.names_ne {ctx : Ctx} {vars : List QueryVar} (hi : Inv ctx vars) (hc : (ctx.clientVars.map (·.1)).Nodup) {i j : Nat} {v w : QueryVar}
    (hv : vars[i]? = some v) (hw : vars[j]? = some w) (he : v.name = w.name) : i = j := by
  rcases hi.named i v hv with ⟨c, h1, h2⟩ | ⟨hr, k, h1, h2⟩ <;> rcases hi.named j w hw with ⟨d, h3, h4⟩ | ⟨hr', l, h3, h4⟩
  · have hcd : c = d := by
      have hcl := (List.getElem?_eq_some_iff.1 h2)
      have hdl := (List.getElem?_eq_some_iff.1 h4)
      obtain ⟨a, ha⟩ := hcl
      obtain ⟨b, hb⟩ := hdl
      have := (List.nodup_iff_injective_getElem.1 hc) (a₁ := ⟨c, by simpa using a⟩) (a₂ := ⟨d, by simpa using b⟩) (by simp [ha, hb, he])
      simpa using this
    subst hcd
    exact hi.once i j c v w hv hw h1 h3 (by rw [reused_of ⟨c, h1, h2⟩]; simp)
  · exact absurd (List.mem_map.2 ⟨_, List.mem_of_getElem? h2, rfl⟩) (by rw [← he] at h4; exact h4)
  · exact absurd (List.mem_map.2 ⟨_, List.mem_of_getElem? h4, rfl⟩) (by rw [he] at h2; exact h2)
  · rw [h1, h3] at he
    exact candidate_inj he

theorem Inv.nodup {ctx : Ctx} {vars : List QueryVar} (hi : Inv ctx vars) (hc : (ctx.clientVars.map (·.1)).Nodup) :
    (vars.map (·.name)).Nodup := by
  rw [List.nodup_iff_injective_getElem]
  intro a b h
  have ha := List.getElem?_eq_getElem (l := vars) (i := a.1) (by simpa using a.2)
  have hb := List.getElem?_eq_getElem (l := vars) (i := b.1) (by simpa using b.2)
  exact Fin.ext (hi.names_ne hc ha hb (by simpa using h))

/-! ## No panic -/

mutual
theorem eqS_total : ∀ (l r : S), S.Bound l → ∃ b, eqS l r = some b
  | .null, r, _ => by cases r <;> simp [eqS]
  | .str _, r, _ => by cases r <;> simp [eqS]
  | .enumValue _, r, _ => by cases r <;> simp [eqS]
  | .int _, r, _ => by cases r <;> simp [eqS]
  | .i64 _, r, _ => by cases r <;> simp [eqS]
  | .u64 _, r, _ => by cases r <;> simp [eqS]
  | .float _, r, _ => by cases r <;> simp [eqS]
  | .bool _, r, _ => by cases r <;> simp [eqS]
  | .unboundEnum _, _, h => by simp [S.Bound] at h
  | .object l, r, h => by
    cases r with
    | object r =>
      rw [eqS]
      split
      · exact ⟨_, rfl⟩
      · exact eqSFields_total l r (by simpa [S.Bound] using h)
    | _ => simp [eqS]
  | .list l, r, h => by
    cases r with
    | list r =>
      rw [eqS]
      exact eqSItems_total l r (by simpa [S.Bound] using h)
    | _ => simp [eqS]
  | .map l, r, h => by
    cases r with
    | map r =>
      rw [eqS]
      exact eqSMap_total l r (by simpa [S.Bound] using h)
    | _ => simp [eqS]
theorem eqSFields_total : ∀ (l r : List (Nat × S)), sboundFields l → ∃ b, eqSFields l r = some b
  | [], r, _ => by simp [eqSFields]
  | _ :: _, [], _ => by simp [eqSFields]
  | (i, x) :: xs, (j, y) :: ys, h => by
    rw [sboundFields] at h
    rw [eqSFields]
    split
    · exact ⟨_, rfl⟩
    · obtain ⟨b, hb⟩ := eqS_total x y h.1
      rw [hb, Option.bind_some]
      split
      · exact eqSFields_total xs ys h.2
      · exact ⟨_, rfl⟩
theorem eqSItems_total : ∀ (l r : List S), sboundItems l → ∃ b, eqSItems l r = some b
  | [], [], _ => by simp [eqSItems]
  | [], _ :: _, _ => by simp [eqSItems]
  | _ :: _, [], _ => by simp [eqSItems]
  | x :: xs, y :: ys, h => by
    rw [sboundItems] at h
    rw [eqSItems]
    obtain ⟨b, hb⟩ := eqS_total x y h.1
    rw [hb, Option.bind_some]
    split
    · exact eqSItems_total xs ys h.2
    · exact ⟨_, rfl⟩
theorem eqSMap_total : ∀ (l r : List (Str × S)), sboundMap l → ∃ b, eqSMap l r = some b
  | [], [], _ => by simp [eqSMap]
  | [], _ :: _, _ => by simp [eqSMap]
  | _ :: _, [], _ => by simp [eqSMap]
  | (i, x) :: xs, (j, y) :: ys, h => by
    rw [sboundMap] at h
    rw [eqSMap]
    split
    · exact ⟨_, rfl⟩
    · obtain ⟨b, hb⟩ := eqS_total x y h.1
      rw [hb, Option.bind_some]
      split
      · exact eqSMap_total xs ys h.2
      · exact ⟨_, rfl⟩
end

section
variable {values : Nat → S}

mutual
theorem eqQS_total (hb : ∀ id, S.Bound (values id)) : ∀ (l : Q) (r : S), ∃ b, eqQS values l r = some b
  | .null, r => by cases r <;> simp [eqQS]
  | .str _, r => by cases r <;> simp [eqQS]
  | .enumValue _, r => by cases r <;> simp [eqQS]
  | .int _, r => by cases r <;> simp [eqQS]
  | .i64 _, r => by cases r <;> simp [eqQS]
  | .float _, r => by cases r <;> simp [eqQS]
  | .bool _, r => by cases r <;> simp [eqQS]
  | .variable _, r => by cases r <;> simp [eqQS]
  | .default id, r => by
    rw [eqQS]
    exact eqS_total _ _ (hb id)
  | .object _ l, r => by
    cases r with
    | object r =>
      rw [eqQS]
      split
      · exact ⟨_, rfl⟩
      · exact eqQSFields_total hb l r
    | _ => simp [eqQS]
  | .list l, r => by
    cases r with
    | list r =>
      rw [eqQS]
      split
      · exact ⟨_, rfl⟩
      · exact eqQSItems_total hb l r
    | _ => simp [eqQS]
  | .map l, r => by
    cases r with
    | map r =>
      rw [eqQS]
      split
      · exact ⟨_, rfl⟩
      · exact eqQSMap_total hb l r
    | _ => simp [eqQS]
theorem eqQSFields_total (hb : ∀ id, S.Bound (values id)) : ∀ (l : List (Nat × Q)) (r : List (Nat × S)), ∃ b, eqQSFields values l r = some b
  | [], r => by simp [eqQSFields]
  | _ :: _, [] => by simp [eqQSFields]
  | (i, x) :: xs, (j, y) :: ys => by
    rw [eqQSFields]
    split
    · exact ⟨_, rfl⟩
    · obtain ⟨b, hb'⟩ := eqQS_total hb x y
      rw [hb', Option.bind_some]
      split
      · exact eqQSFields_total hb xs ys
      · exact ⟨_, rfl⟩
theorem eqQSItems_total (hb : ∀ id, S.Bound (values id)) : ∀ (l : List Q) (r : List S), ∃ b, eqQSItems values l r = some b
  | [], r => by simp [eqQSItems]
  | _ :: _, [] => by simp [eqQSItems]
  | x :: xs, y :: ys => by
    rw [eqQSItems]
    obtain ⟨b, hb'⟩ := eqQS_total hb x y
    rw [hb', Option.bind_some]
    split
    · exact eqQSItems_total hb xs ys
    · exact ⟨_, rfl⟩
theorem eqQSMap_total (hb : ∀ id, S.Bound (values id)) : ∀ (l : List (Str × Q)) (r : List (Str × S)), ∃ b, eqQSMap values l r = some b
  | [], r => by simp [eqQSMap]
  | (i, x) :: xs, r => by
    rw [eqQSMap]
    cases r.find? (fun p => decide (p.1 = i)) with
    | none => exact ⟨_, rfl⟩
    | some p =>
      obtain ⟨b, hb'⟩ := eqQS_total hb x p.2
      simp only [hb', Option.bind_some]
      split
      · exact eqQSMap_total hb xs r
      · exact ⟨_, rfl⟩
end

mutual
theorem eqQ_total (hb : ∀ id, S.Bound (values id)) : ∀ (l r : Q), ∃ b, eqQ values l r = some b
  | .null, r => by cases r <;> simp [eqQ]
  | .str _, r => by cases r <;> simp [eqQ]
  | .enumValue _, r => by cases r <;> simp [eqQ]
  | .int _, r => by cases r <;> simp [eqQ]
  | .i64 _, r => by cases r <;> simp [eqQ]
  | .float _, r => by cases r <;> simp [eqQ]
  | .bool _, r => by cases r <;> simp [eqQ]
  | .variable _, r => by cases r <;> simp [eqQ]
  | .default id, r => by
    cases r with
    | default r =>
      rw [eqQ]
      exact eqS_total _ _ (hb id)
    | _ => simp [eqQ]
  | .object _ l, r => by
    cases r with
    | object _ r =>
      rw [eqQ]
      split
      · exact ⟨_, rfl⟩
      · exact eqQFields_total hb l r
    | _ => simp [eqQ]
  | .list l, r => by
    cases r with
    | list r =>
      rw [eqQ]
      split
      · exact ⟨_, rfl⟩
      · exact eqQItems_total hb l r
    | _ => simp [eqQ]
  | .map l, r => by
    cases r with
    | map r =>
      rw [eqQ]
      split
      · exact ⟨_, rfl⟩
      · exact eqQMap_total hb l r
    | _ => simp [eqQ]
theorem eqQFields_total (hb : ∀ id, S.Bound (values id)) : ∀ (l r : List (Nat × Q)), ∃ b, eqQFields values l r = some b
  | [], r => by simp [eqQFields]
  | _ :: _, [] => by simp [eqQFields]
  | (i, x) :: xs, (j, y) :: ys => by
    rw [eqQFields]
    split
    · exact ⟨_, rfl⟩
    · obtain ⟨b, hb'⟩ := eqQ_total hb x y
      rw [hb', Option.bind_some]
      split
      · exact eqQFields_total hb xs ys
      · exact ⟨_, rfl⟩
theorem eqQItems_total (hb : ∀ id, S.Bound (values id)) : ∀ (l r : List Q), ∃ b, eqQItems values l r = some b
  | [], r => by simp [eqQItems]
  | _ :: _, [] => by simp [eqQItems]
  | x :: xs, y :: ys => by
    rw [eqQItems]
    obtain ⟨b, hb'⟩ := eqQ_total hb x y
    rw [hb', Option.bind_some]
    split
    · exact eqQItems_total hb xs ys
    · exact ⟨_, rfl⟩
theorem eqQMap_total (hb : ∀ id, S.Bound (values id)) : ∀ (l r : List (Str × Q)), ∃ b, eqQMap values l r = some b
  | [], r => by simp [eqQMap]
  | (i, x) :: xs, r => by
    rw [eqQMap]
    cases r.find? (fun p => decide (p.1 = i)) with
    | none => exact ⟨_, rfl⟩
    | some p =>
      obtain ⟨b, hb'⟩ := eqQ_total hb x p.2
      simp only [hb', Option.bind_some]
      split
      · exact eqQMap_total hb xs r
      · exact ⟨_, rfl⟩
end
end

theorem position_total {ctx : Ctx} (hb : ∀ id, S.Bound (ctx.values id)) {ty : Ty} {value : PlanValue} : ∀ (vars : List QueryVar) (n : Nat),
    ∃ o, position ctx ty value n vars = some o
  | [], n => ⟨_, rfl⟩
  | v :: rest, n => by
    rw [position]
    split
    · exact position_total hb rest (n + 1)
    · obtain ⟨b, h⟩ : ∃ b, eqPlan ctx v.value value = some b := by
        cases v.value <;> cases value <;> simp only [eqPlan] <;> first | exact eqQ_total hb _ _ | exact eqQS_total hb _ _ | exact ⟨_, rfl⟩
      rw [h, Option.bind_some]
      split
      · exact ⟨_, rfl⟩
      · exact position_total hb rest (n + 1)

theorem insertAll_total {ctx : Ctx} (hb : ∀ id, S.Bound (ctx.values id)) : ∀ (reqs : List (Ty × PlanValue)) (vars : List QueryVar),
    ∃ r, insertAll ctx vars reqs = some r
  | [], vars => ⟨_, rfl⟩
  | (ty, value) :: rest, vars => by
    rw [insertAll]
    obtain ⟨r, hr⟩ : ∃ r, getOrInsert ctx vars ty value = some r := by
      unfold getOrInsert
      simp only
      obtain ⟨o, ho⟩ := position_total hb (ty := ((reused ctx value).map (·.2)).getD ty) (value := value) vars 0
      rw [ho]
      cases o with
      | some i => exact ⟨_, rfl⟩
      | none =>
        simp only
        have : ∃ name, newName ctx vars.length value = some name := by
          unfold newName
          cases reused ctx value with
          | some p => exact ⟨_, rfl⟩
          | none =>
            have := freshName_total (ctx.clientVars.map (·.1)) vars.length
            rw [List.length_map] at this
            exact this
        obtain ⟨name, hname⟩ := this
        rw [hname]
        exact ⟨_, rfl⟩
    obtain ⟨r', hr'⟩ := insertAll_total hb rest r.2
    rw [hr, Option.bind_some, hr']
    exact ⟨_, rfl⟩

/-! ## Sending -/

theorem sendVars_none {ctx : Ctx} {nm : Names} {env : Env} : ∀ {vars : List QueryVar},
    sendVars ctx nm env vars = none ↔ ∃ v ∈ vars, ∃ id, v.value = .injection id
  | [] => by simp [sendVars]
  | v :: rest => by
    rw [sendVars]
    cases hv : v.value with
    | injection id => simp [hv]
    | _ => simp [sendVars_none, hv]

theorem mem_sendVars {ctx : Ctx} {nm : Names} {env : Env} : ∀ {vars : List QueryVar} {out : List (Str × Json)},
    sendVars ctx nm env vars = some out → (keys out).Sublist (vars.map (·.name)) ∧
    ∀ k j, (k, j) ∈ out ↔ ∃ v ∈ vars, v.name = k ∧ planJson ctx nm env v.value = some j
  | [], out, h => by
    cases h
    exact ⟨List.Sublist.refl _, by simp⟩
  | v :: rest, out, h => by
    have key : ∃ out', sendVars ctx nm env rest = some out' ∧
        out = match planJson ctx nm env v.value with
          | some j => (v.name, j) :: out'
          | none => out' := by
      rw [sendVars] at h
      cases hr : sendVars ctx nm env rest with
      | none => cases hv : v.value <;> rw [hv, hr] at h <;> cases h
      | some out' =>
        refine ⟨out', rfl, ?_⟩
        cases hv : v.value with
        | injection id => rw [hv] at h; cases h
        | query q => rw [hv, hr] at h; exact (Option.some.inj h).symm
        | schema q => rw [hv, hr] at h; exact (Option.some.inj h).symm
    obtain ⟨out', hr, rfl⟩ := key
    obtain ⟨ih1, ih2⟩ := mem_sendVars hr
    cases hp : planJson ctx nm env v.value with
    | none =>
      refine ⟨ih1.trans (List.sublist_cons_self _ _), fun k j => ?_⟩
      simp only [ih2, List.mem_cons]
      constructor
      · rintro ⟨w, h1, h2⟩; exact ⟨w, Or.inr h1, h2⟩
      · rintro ⟨w, rfl | h1, h2, h3⟩
        · rw [hp] at h3; cases h3
        · exact ⟨w, h1, h2, h3⟩
    | some jv =>
      refine ⟨List.Sublist.cons_cons _ ih1, fun k j => ?_⟩
      simp only [ih2, List.mem_cons]
      constructor
      · rintro (h1 | ⟨w, h1, h2⟩)
        · cases h1; exact ⟨v, Or.inl rfl, rfl, hp⟩
        · exact ⟨w, Or.inr h1, h2⟩
      · rintro ⟨w, rfl | h1, h2, h3⟩
        · rw [hp] at h3; cases h3; exact Or.inl (by rw [h2])
        · exact Or.inr ⟨w, h1, h2, h3⟩

end Verif.SubgraphVars
