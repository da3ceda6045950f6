import Verif.SubgraphVars.Vars
/-! C58: the variables of an operation sent to a subgraph. -/
namespace Verif.SubgraphVars
open Verif.Coercion (Json Str Ty Num)
open Verif.Literals (Q Names Env serQ isUndefined)
open Verif.SchemaPath (digits)

theorem served_injection {ctx : Ctx} {v : QueryVar} {value : PlanValue} (h : v.value = value ∨ eqPlan ctx v.value value = some true) (id : Nat) :
    v.value = .injection id ↔ value = .injection id := by
  rcases h with h | h
  · rw [h]
  · constructor
    · intro e; rw [e] at h; exact eqPlan_from_injection h
    · intro e; rw [e] at h; exact eqPlan_injection h

/-- Names are distinct, every argument has a variable of the right type, a variable of the client keeps its name and no other
argument gets the name of a client variable, and there are no unused variables. -/
theorem C58_variables (ctx : Ctx) (hclient : (ctx.clientVars.map (·.1)).Nodup) (reqs : List (Ty × PlanValue)) (idxs : List Nat)
    (vars : List QueryVar) (h : insertAll ctx [] reqs = some (idxs, vars)) :
    (vars.map (·.name)).Nodup ∧ idxs.length = reqs.length ∧
    (∀ (j : Nat) (ty : Ty) (value : PlanValue), reqs[j]? = some (ty, value) → ∃ i v, idxs[j]? = some i ∧ vars[i]? = some v ∧
      Declared ctx ty value v.ty ∧ (∀ n t, IsClientVar ctx value n t → v.name = n) ∧
      ((∀ n t, ¬ IsClientVar ctx value n t) → v.name ∉ ctx.clientVars.map (·.1)) ∧
      ∀ id, v.value = .injection id ↔ value = .injection id) ∧
    ∀ i, i < vars.length → i ∈ idxs := by
  obtain ⟨hi, _, hl, hs, hu⟩ := insertAll_inv (Inv.nil ctx) h
  refine ⟨hi.nodup hclient, hl, fun j ty value hj => ?_, fun i h2 => hu i (Nat.zero_le _) h2⟩
  obtain ⟨i, h1, v, h2, h3, h4, h5⟩ := hs j ty value hj
  refine ⟨i, v, h1, h2, h3, h5, fun hn => ?_, served_injection h4⟩
  rcases hi.named i v h2 with hc | ⟨_, k, _, hk⟩
  · obtain ⟨c, hc1, hc2⟩ := hc
    rcases h4 with h4 | h4
    · exact absurd ⟨c, h4 ▸ hc1, hc2⟩ (hn v.name v.ty)
    · rw [hc1] at h4
      exact absurd ⟨c, eqPlan_from_var h4, hc2⟩ (hn v.name v.ty)
  · exact hk

/-- The values sent: a request names no variable twice, and under the name of the variable of an argument is the value of the argument.
Partial: only if JSON objects within the values give no key twice, and only if no argument is a key of an entity, for which sending
panics. -/
theorem C58_values_partial (ctx : Ctx) (hclient : (ctx.clientVars.map (·.1)).Nodup) (hkeyed : ∀ id, S.Keyed (ctx.values id))
    (reqs : List (Ty × PlanValue)) (hreqs : ∀ r ∈ reqs, PlanValue.Keyed r.2) (hinj : ∀ r ∈ reqs, ∀ id, r.2 ≠ .injection id)
    (idxs : List Nat) (vars : List QueryVar) (h : insertAll ctx [] reqs = some (idxs, vars)) (nm : Names) (env : Env)
    (hnm : NamesMatch ctx nm) :
    ∃ out, sendVars ctx nm env vars = some out ∧ (keys out).Nodup ∧
    ∀ (j : Nat) (ty : Ty) (value : PlanValue), reqs[j]? = some (ty, value) → ∃ i v, idxs[j]? = some i ∧ vars[i]? = some v ∧
      (planJson ctx nm env value = none → v.name ∉ keys out) ∧
      ∀ w, planJson ctx nm env value = some w → ∃ w', (v.name, w') ∈ out ∧ JEq w' w := by
  obtain ⟨hi, ⟨more, hv, hmore⟩, hl, hs, hu⟩ := insertAll_inv (Inv.nil ctx) h
  rw [List.nil_append] at hv
  subst hv
  have hnodup := hi.nodup hclient
  cases ho : sendVars ctx nm env vars with
  | none =>
    obtain ⟨v, hv, id, he⟩ := sendVars_none.1 ho
    obtain ⟨ty, ht⟩ := hmore v hv
    exact absurd he (hinj _ ht id)
  | some out =>
    obtain ⟨hsub, hmem⟩ := mem_sendVars ho
    refine ⟨out, rfl, hsub.nodup hnodup, fun j ty value hj => ?_⟩
    obtain ⟨i, h1, v, h2, h3, h4, h5⟩ := hs j ty value hj
    have hsame : SameValue (planJson ctx nm env v.value) (planJson ctx nm env value) := by
      rcases h4 with h4 | h4
      · rw [h4]; exact .refl _
      · obtain ⟨ty', ht'⟩ := hmore v (List.mem_of_getElem? h2)
        exact eqPlan_sound hnm hkeyed h4 (hreqs _ ht') (hreqs _ (List.mem_of_getElem? hj))
    refine ⟨i, v, h1, h2, fun hp hk => ?_, fun w hw => ?_⟩
    · obtain ⟨x, hx⟩ := mem_keys.1 hk
      obtain ⟨u, hu1, hu2, hu3⟩ := (hmem _ _).1 hx
      obtain ⟨iu, hiu⟩ := List.mem_iff_getElem?.1 hu1
      have := hi.names_ne hclient hiu h2 hu2
      subst this
      rw [hiu] at h2
      cases h2
      rw [hp, hu3] at hsame
      cases hsame
    · rw [hw] at hsame
      cases hc : planJson ctx nm env v.value with
      | none => rw [hc] at hsame; cases hsame
      | some x =>
        rw [hc] at hsame
        cases hsame with
        | given hj' => exact ⟨x, (hmem _ _).2 ⟨v, List.mem_of_getElem? h2, rfl, hc⟩, hj'⟩

/-- Sending panics exactly if an argument is injected from an entity. -/
theorem C58_injection_panics (ctx : Ctx) (reqs : List (Ty × PlanValue)) (idxs : List Nat) (vars : List QueryVar)
    (h : insertAll ctx [] reqs = some (idxs, vars)) (nm : Names) (env : Env) :
    sendVars ctx nm env vars = none ↔ ∃ r ∈ reqs, ∃ id, r.2 = .injection id := by
  obtain ⟨hi, ⟨more, hv, hmore⟩, hl, hs, hu⟩ := insertAll_inv (Inv.nil ctx) h
  rw [List.nil_append] at hv
  subst hv
  rw [sendVars_none]
  constructor
  · rintro ⟨v, hv, id, he⟩
    obtain ⟨ty, ht⟩ := hmore v hv
    exact ⟨_, ht, id, he⟩
  · rintro ⟨⟨ty, value⟩, hr, id, rfl⟩
    obtain ⟨j, hj⟩ := List.mem_iff_getElem?.1 hr
    obtain ⟨i, _, v, h2, _, h4, _⟩ := hs j ty _ hj
    exact ⟨v, List.mem_of_getElem? h2, id, (served_injection h4 id).2 rfl⟩

/-- Names are always found. Partial: the comparison does not panic only if no default value of the schema holds an enum value without
definition. -/
theorem C58_no_panic_partial (ctx : Ctx) (hbound : ∀ id, S.Bound (ctx.values id)) (reqs : List (Ty × PlanValue)) :
    ∃ idxs vars, insertAll ctx [] reqs = some (idxs, vars) := by
  obtain ⟨r, h⟩ := insertAll_total hbound reqs []
  exact ⟨r.1, r.2, h⟩

/-- The variable of the representations has a name of its own exactly if no variable of the client used is named `var` followed by the
number of variables. -/
theorem C58_entities_partial (ctx : Ctx) (hclient : (ctx.clientVars.map (·.1)).Nodup) (reqs : List (Ty × PlanValue)) (idxs : List Nat)
    (vars : List QueryVar) (h : insertAll ctx [] reqs = some (idxs, vars)) :
    (vars.map (·.name) ++ [entitiesName vars]).Nodup ↔
      ¬ ∃ r ∈ reqs, ∃ t, IsClientVar ctx r.2 (['v', 'a', 'r'] ++ digits vars.length) t := by
  obtain ⟨hi, ⟨more, hv, hmore⟩, hl, hs, hu⟩ := insertAll_inv (Inv.nil ctx) h
  rw [List.nil_append] at hv
  subst hv
  rw [List.nodup_append]
  constructor
  · rintro ⟨_, _, hne⟩ ⟨⟨ty, value⟩, hr, t, hc⟩
    obtain ⟨j, hj⟩ := List.mem_iff_getElem?.1 hr
    obtain ⟨i, _, v, h2, _, _, h5⟩ := hs j ty value hj
    exact hne v.name (List.mem_map.2 ⟨v, List.mem_of_getElem? h2, rfl⟩) _ (List.mem_singleton.2 rfl) (h5 _ _ hc)
  · intro hn
    refine ⟨hi.nodup hclient, by simp, fun a ha b hb e => ?_⟩
    rw [List.mem_singleton] at hb
    obtain ⟨v, hv, rfl⟩ := List.mem_map.1 ha
    obtain ⟨i, hi'⟩ := List.mem_iff_getElem?.1 hv
    rcases hi.named i v hi' with hc | ⟨_, k, hk, _⟩
    · obtain ⟨ty, ht⟩ := hmore v hv
      refine hn ⟨_, ht, v.ty, ?_⟩
      rw [e, hb] at hc
      exact hc
    · rw [e, hb] at hk
      have : vars.length = i := candidate_inj (k := 0) hk
      have := (List.getElem?_eq_some_iff.1 hi').1
      omega

/-! ## Cases -/

theorem digits_small {n : Nat} (h : n < 10) : digits n = [Verif.SchemaPath.digitChar n] := by
  rw [digits, if_pos h]

theorem d0 : Verif.SchemaPath.digitChar 0 = '0' := by decide
theorem d2 : Verif.SchemaPath.digitChar 2 = '2' := by decide


def tInt : Ty := ⟨0, Verif.Wrapping.Wrapping.new⟩
def tAny : Ty := ⟨1, Verif.Wrapping.Wrapping.new⟩

def caseCtx : Ctx where
  clientVars := [(['v', 'a', 'r', '0'], tInt), (['x'], tInt)]
  values := fun id => if id = 0 then .int 5 else .unboundEnum ['A']

def caseNames : Names where
  enumValue := fun _ => []
  field := fun _ => []
  default := fun id => serS ⟨fun _ => [], fun _ => none, fun _ => [], fun _ => .null⟩ (caseCtx.values id)
  fieldDefault := fun _ => none

def varInfo (r : Option (List Nat × List QueryVar)) : Option (List Nat × List String) :=
  r.map fun r => (r.1, r.2.map fun v => String.ofList v.name)

/-- `$var0` is a variable of the client, so the first generated name is `_var0`; equal values share a variable. -/
example : varInfo (insertAll caseCtx [] [(tInt, .query (.int 5)), (tInt, .query (.variable 0)), (tInt, .schema 0), (tInt, .query (.int 6)),
    (tInt, .query (.variable 0))]) = some ([0, 1, 0, 2, 1], ["_var0", "var0", "var2"]) := by
  simp [varInfo, insertAll, getOrInsert, newName, reused, position, eqPlan, eqQ, eqQS, freshName, candidate, varPrefix, digits_small, caseCtx, tInt, d0, d2]

example : (caseCtx.clientVars.map (·.1)).Nodup := by decide
example : NamesMatch caseCtx caseNames := by
  intro id
  by_cases h : id = 0
  · subst h; rfl
  · simp [caseNames, caseCtx, h, serS]
example : ∀ id, S.Keyed (caseCtx.values id) := by
  intro id
  by_cases h : id = 0 <;> simp [caseCtx, h, S.Keyed]

/-- The negation for entity operations: with `query($var1: Int!) { … f(a: $var1) }` the operation sent is
`query($var1: [_Any!]!, $var1: Int!)`. -/
theorem C58_entities_collide : ∃ (ctx : Ctx) (reqs : List (Ty × PlanValue)) (idxs : List Nat) (vars : List QueryVar),
    (ctx.clientVars.map (·.1)).Nodup ∧ insertAll ctx [] reqs = some (idxs, vars) ∧ vars.map (·.name) = [entitiesName vars] := by
  refine ⟨⟨[(['v', 'a', 'r', '1'], tInt)], fun _ => .null⟩, [(tInt, .query (.variable 0))], [0],
    [⟨['v', 'a', 'r', '1'], tInt, .query (.variable 0)⟩], by decide, rfl, ?_⟩
  simp [entitiesName, varPrefix, digits_small]
  decide

/-- The negation for values: with `{ f(a: {a: 1, a: 1}) g(a: {a: 1, b: 2}) }` on custom scalars both arguments get the first value. -/
theorem C58_values_wrong : ∃ (ctx : Ctx) (reqs : List (Ty × PlanValue)) (vars : List QueryVar) (env : Env) (nm : Names)
    (fields sent : List (Str × Json)) (value : PlanValue), insertAll ctx [] reqs = some ([0, 0], vars) ∧
    reqs[1]? = some (tAny, value) ∧ planJson ctx nm env value = some (.obj fields) ∧ NamesMatch ctx nm ∧
    sendVars ctx nm env vars = some [(['v', 'a', 'r', '0'], .obj sent)] ∧ ['b'] ∈ keys fields ∧ ['b'] ∉ keys sent := by
  refine ⟨⟨[], fun _ => .null⟩, [(tAny, .query (.map [(['a'], .int 1), (['a'], .int 1)])), (tAny, .query (.map [(['a'], .int 1), (['b'], .int 2)]))],
    [⟨['v', 'a', 'r', '0'], tAny, .query (.map [(['a'], .int 1), (['a'], .int 1)])⟩], fun _ => none,
    ⟨fun _ => [], fun _ => none, fun _ => [], fun _ => .null⟩, [(['a'], Verif.Literals.jsonInt 1), (['b'], Verif.Literals.jsonInt 2)],
    [(['a'], Verif.Literals.jsonInt 1), (['a'], Verif.Literals.jsonInt 1)], _, ?_, rfl, ?_, ?_, ?_, by decide, by decide⟩
  · simp [insertAll, getOrInsert, newName, reused, position, eqPlan, eqQ, eqQMap, freshName, candidate, varPrefix, digits_small]
    decide
  · simp [planJson, isUndefined, serQ, Verif.Literals.serMap]
  · intro id; simp [serS]
  · simp [sendVars, planJson, isUndefined, serQ, Verif.Literals.serMap]

/-- The negation for panics: two arguments whose values are defaults written as enum values without definition. -/
theorem C58_panics : ∃ (ctx : Ctx) (reqs : List (Ty × PlanValue)), insertAll ctx [] reqs = none := by
  refine ⟨caseCtx, [(tAny, .query (.default 1)), (tAny, .query (.default 2))], ?_⟩
  simp [insertAll, getOrInsert, newName, reused, position, eqPlan, eqQ, eqS, caseCtx, freshName]

end Verif.SubgraphVars
