import Verif.Literals.Witness
/-!
# Properties C56 and C09

C56: the arguments of a field are accepted exactly if they coerce to the types of the arguments, and the resolver gets the
values written in the operation, with variables replaced by their values and defaults filled in.
-/
namespace Verif.Literals

open Verif.Common Verif.Wrapping Verif.Coercion

/-! ### Acceptance -/

/-- C56, which literals are accepted at a type: exactly those of the specification, up to the rules of `lax` and the last two
of `ScalarBound`. -/
theorem C56_accepted_iff (s : Schema) (vars : Option (List VarDef)) (ty : Ty) (t : GType) (v : Lit) (hs : SchemaOk s)
    (hv : ∀ vs, vars = some vs → VarsOk vs) (ht : Reachable ty.wrapping t) :
    (∃ q, coerceQueryValue s vars ty v = .ok q) ↔ ∃ q, Bound s vars lax true ty.definition t v q := by
  constructor
  · rintro ⟨q, h⟩
    exact ⟨q, (sound hs hv _).1 ty t v q (Typed.of_reachable ht) h⟩
  · rintro ⟨q, h⟩
    exact (complete hs hv _).1 ty t v q (Typed.of_reachable ht) (Nat.le_refl _) h

/-- C56, what an accepted literal is bound to. -/
theorem C56_bound (s : Schema) (vars : Option (List VarDef)) (ty : Ty) (t : GType) (v : Lit) (q : Q) (hs : SchemaOk s)
    (hv : ∀ vs, vars = some vs → VarsOk vs) (ht : Reachable ty.wrapping t) (h : coerceQueryValue s vars ty v = .ok q) :
    Bound s vars lax true ty.definition t v q :=
  (sound hs hv _).1 ty t v q (Typed.of_reachable ht) h

/-- C56, no panic: at input types the `unreachable!`s are not reached, and the model's fuel suffices. -/
theorem C56_no_panic (s : Schema) (vars : Option (List VarDef)) (ty : Ty) (t : GType) (v : Lit) (hs : SchemaOk s)
    (ht : Reachable ty.wrapping t) (hd : s ty.definition ≠ .output) :
    coerceQueryValue s vars ty v ≠ .error .unreachable ∧ coerceQueryValue s vars ty v ≠ .error .fuel :=
  ⟨(safe hs (Or.inl rfl) _).1 ty t v (Typed.of_reachable ht) hd (Nat.le_refl _),
    (safe hs (Or.inr rfl) _).1 ty t v (Typed.of_reachable ht) hd (Nat.le_refl _)⟩

/-- C56, what accepted arguments are bound to: no argument is given twice, every given one is declared, every declared one is
given and bound at its type, or has a default, or is nullable and absent. -/
theorem C56_arguments_bound (s : Schema) (vars : List VarDef) (defs : List InputField) (given : List (Str × Lit)) (args : List (Nat × Q))
    (hs : SchemaOk s) (hv : VarsOk vars) (hw : ∀ f ∈ defs, ∃ t, Reachable f.ty.wrapping t) (hn : (defs.map (·.name)).Nodup)
    (hi : (defs.map (·.id)).Nodup) (h : bindArguments s vars defs given = .ok args) :
    (keys given).Nodup ∧ FieldsBound (Bound s (some vars) lax true) defs given args := by
  unfold bindArguments at h
  cases hl : fieldLoop (coerceQueryValue s (some vars)) defs given with
  | error e => rw [hl] at h; cases h
  | ok r =>
    obtain ⟨xs, left⟩ := r
    rw [hl] at h
    simp only [bind, Except.bind] at h
    cases left with
    | cons p ps => cases h
    | nil =>
      cases h
      exact fieldsBound_of_loop (fun ty t v o ht h => (sound hs (fun vs e => by cases e; exact hv) _).1 ty t v o ht h) hw hn hi hl

/-- C56, which arguments are accepted. -/
theorem C56_arguments_accepted_iff (s : Schema) (vars : List VarDef) (defs : List InputField) (given : List (Str × Lit))
    (hs : SchemaOk s) (hv : VarsOk vars) (hw : ∀ f ∈ defs, ∃ t, Reachable f.ty.wrapping t) (hn : (defs.map (·.name)).Nodup)
    (hi : (defs.map (·.id)).Nodup) : (∃ args, bindArguments s vars defs given = .ok args) ↔
      (keys given).Nodup ∧ ∃ args, FieldsBound (Bound s (some vars) lax true) defs given args := by
  constructor
  · rintro ⟨args, h⟩
    obtain ⟨h1, h2⟩ := C56_arguments_bound s vars defs given args hs hv hw hn hi h
    exact ⟨h1, args, h2⟩
  · rintro ⟨h1, args, h2⟩
    obtain ⟨ys, hy⟩ := loop_of_fieldsBound (co := coerceQueryValue s (some vars)) hn h1 h2
      (fun f _ t v o ht hb _ => (complete hs (fun vs e => by cases e; exact hv) _).1 f.ty t v o ht (Nat.le_refl _) hb)
    refine ⟨ys, ?_⟩
    unfold bindArguments
    rw [hy]
    rfl

/-! ### Values -/

/-- What is assumed of an operation and a request: the operation is bound, and the variables of the request are accepted. -/
structure Accepted (s : Schema) (nm : Names) (decls : List Decl) (varDefaults : Nat → Q) (vars : List VarDef) (defs : List InputField)
    (given : List (Str × Lit)) (args : List (Nat × Q)) (raw : List (Str × Json)) (vals : List VarValue) : Prop where
  schema : SchemaOk s
  names : NamesOk s nm defs
  wrapped : ∀ f ∈ defs, ∃ t, Reachable f.ty.wrapping t
  distinct : (defs.map (·.name)).Nodup
  ids : (defs.map (·.id)).Nodup
  varsOk : VarsOk vars
  declares : Declares s decls varDefaults vars
  bound : bindArguments s vars defs given = .ok args
  request : bindVariables s vars raw = some vals
  oneOf : ∀ i ∈ oneOfVarsFields false args, ∀ v, vars[i]? = some v → v.oneOfUsage = true

/-- The example of `Verif.Literals.Witness`. -/
theorem accepted_case : Accepted caseSchema caseNames caseDecls caseVarDefaults caseVars caseArgs caseGiven caseBound []
    [.default 0, .undefined] :=
  ⟨caseSchema_ok, caseNames_ok, caseArgs_wrapped, by decide, by decide, caseVars_ok, caseDeclares, rfl, rfl, by intro i hi; cases hi⟩

theorem serArguments_value {nm : Names} {c : Ctx} {defs : List InputField} {given : List (Str × Lit)} {args : List (Nat × Q)}
    (hs : SchemaOk c.s) (hnm : NamesOk c.s nm defs) (hi : (defs.map (·.id)).Nodup) (hv : ∀ vs, c.vars = some vs → VarsOk vs)
    (hdf : c.dflt = nm.default) (he : Defined c.vars c.env) (h : FieldsBound (Bound c.s c.vars c.r true) defs given args)
    (ho : OneOfOk c.r c.env (oneOfVarsFields false args)) :
    FieldsValue c (Value c true) given defs (serArguments nm c.env args) := by
  unfold serArguments
  refine serFields_value (R := Bound c.s c.vars c.r true) hi h.ordered h.bound hnm.args hdf ?_
  intro d t j o id hb hm
  refine ⟨hb.undefined_iff hv, fun ha => ?_, fun _ => hb.value hs hv hnm hdf he fun k hk => ho k (oneOfVars_field (by simp) hm hk)⟩
  have hu := (hb.undefined_iff hv).2 ha
  obtain ⟨vs, i, v, a, b, e, hn⟩ := ha
  obtain ⟨i', rfl, hus⟩ := hb.variable_out.2 _ e
  refine Usable.nullable he hus ?_
  unfold isUndefined at hu
  simpa using hu

theorem Accepted.oneOfOk {s : Schema} {nm : Names} {decls : List Decl} {varDefaults : Nat → Q} {vars : List VarDef} {defs : List InputField}
    {given : List (Str × Lit)} {args : List (Nat × Q)} {raw : List (Str × Json)} {vals : List VarValue}
    (h : Accepted s nm decls varDefaults vars defs given args raw vals) :
    OneOfOk lax (envOf nm varDefaults vals) (oneOfVarsFields false args) := by
  have hb := (C56_arguments_bound s vars defs given args h.schema h.varsOk h.wrapped h.distinct h.ids h.bound).2
  intro i hi
  refine ⟨?_, fun _ => trivial⟩
  obtain ⟨⟨k, o⟩, hm, hi'⟩ := oneOfVarsFields_mem hi
  rcases hb.mem h.ids hm with ⟨d, t, j, hb'⟩ | ⟨dv, rfl⟩
  · obtain ⟨vs, v, e, hv⟩ := hb'.oneOfVars_declared h.schema i hi'
    cases e
    exact env_oneOf h.varsOk h.request hv (h.oneOf i hi v hv)
  · cases hi'

theorem defined_of_request {s : Schema} {nm : Names} {varDefaults : Nat → Q} {vars : List VarDef} {raw : List (Str × Json)} {vals : List VarValue}
    (hs : SchemaOk s) (hv : VarsOk vars) (h : bindVariables s vars raw = some vals) : Defined (some vars) (envOf nm varDefaults vals) := by
  obtain ⟨_, h2⟩ := C07_request_values s vars typeOf raw vals hs hv.names (typeOf_spec hv) h
  intro vs i v T e hi hn ht
  cases e
  have hT := (Typed.of_reachable ht).unique (Typed.of_reachable (typeOf_spec hv _ (List.mem_of_getElem? hi)))
  subst hT
  unfold envOf at hn
  rcases h2 i v hi with ⟨x, o, _, h3, h4⟩ | ⟨_, id, h3, h4⟩ | ⟨_, _, h4, _⟩
  · rw [h3] at hn; cases hn
  · rw [h4] at hn; cases hn
  · exact h4

/-- C56, what a resolver is given: for every operation and request that are accepted, the arguments are those written in the
operation, in the order of the schema, variables replaced by their values; an argument or input field that is not given, or
given by a variable without value, has its default or is left out. -/
theorem C56_values (s : Schema) (nm : Names) (decls : List Decl) (varDefaults : Nat → Q) (vars : List VarDef) (defs : List InputField)
    (given : List (Str × Lit)) (args : List (Nat × Q)) (raw : List (Str × Json)) (vals : List VarValue)
    (h : Accepted s nm decls varDefaults vars defs given args raw vals) :
    FieldsValue ⟨s, some vars, lax, envOf nm varDefaults vals, nm.default⟩ (Value ⟨s, some vars, lax, envOf nm varDefaults vals, nm.default⟩ true)
      given defs (serArguments nm (envOf nm varDefaults vals) args) :=
  serArguments_value (c := ⟨s, some vars, lax, envOf nm varDefaults vals, nm.default⟩) h.schema h.names h.ids
    (fun vs e => by cases e; exact h.varsOk) rfl (defined_of_request h.schema h.varsOk h.request)
    (C56_arguments_bound s vars defs given args h.schema h.varsOk h.wrapped h.distinct h.ids h.bound).2 h.oneOfOk

/-- C56, the values of the variables: in an accepted request every variable has the given JSON value coerced to its type, or its
default literal, or none. -/
theorem C56_variable_values (s : Schema) (nm : Names) (defs : List InputField) (decls : List Decl) (varDefaults : Nat → Q)
    (vars : List VarDef) (raw : List (Str × Json)) (vals : List VarValue) (hs : SchemaOk s) (hnm : NamesOk s nm defs) (hv : VarsOk vars)
    (hdecl : Declares s decls varDefaults vars) (h : bindVariables s vars raw = some vals) (i : Nat) (v : VarDef) (decl : Decl)
    (hi : vars[i]? = some v) (hi' : decls[i]? = some decl) :
    (∃ T x w, Reachable v.ty.wrapping T ∧ (decl.name, x) ∈ raw ∧ envOf nm varDefaults vals i = some w ∧
      Given s nm.default true v.ty.definition T x w) ∨
    (decl.name ∉ Coercion.keys raw ∧ ∃ T j w, Reachable v.ty.wrapping T ∧ decl.default = some j ∧ envOf nm varDefaults vals i = some w ∧
      Value ⟨s, none, lax, fun _ => none, nm.default⟩ true v.ty.definition T j w) ∨
    (decl.name ∉ Coercion.keys raw ∧ decl.default = none ∧ envOf nm varDefaults vals i = none) := by
  obtain ⟨_, h2⟩ := C07_request_values s vars typeOf raw vals hs hv.names (typeOf_spec hv) h
  have hT := typeOf_spec hv v (List.mem_of_getElem? hi)
  obtain ⟨hname, hb⟩ := hdecl.2 i decl v hi' hi
  rw [← hname]
  unfold envOf
  rcases h2 i v hi with ⟨x, o, h3, h4, h5⟩ | ⟨h3, id, h4, h5⟩ | ⟨h3, h4, _, h5⟩
  · exact Or.inl ⟨typeOf v, x, serOut nm o, hT, h3, by rw [h4]; rfl, coerced_given hs hnm h5⟩
  · rw [h4] at hb
    obtain ⟨j, hj, hval⟩ := default_value hs hnm hb hT
    exact Or.inr (Or.inl ⟨h3, typeOf v, j, _, hT, hj, by rw [h5]; rfl, hval⟩)
  · refine Or.inr (Or.inr ⟨h3, ?_, by rw [h5]; rfl⟩)
    rw [h4] at hb
    unfold bindDecl at hb
    cases hd : decl.default with
    | none => rfl
    | some j =>
      rw [hd] at hb
      simp only at hb
      cases hvt : variableType decl.ty (!j.isNull) with
      | none => rw [hvt] at hb; cases hb
      | some ty =>
        rw [hvt] at hb
        obtain ⟨q, _, e⟩ := map_ok hb
        cases e

/-- Given `$v = 5` and a bare item for the list `$u`. -/
example : bindVariables caseSchema caseVars [(['v'], .num (.pos 5)), (['u'], .str eCm.name)] =
    some [.provided (.int 5), .provided (.list [.enumValue eCm.id])] := rfl
example : envOf caseNames caseVarDefaults [.provided (.int 5), .provided (.list [.enumValue eCm.id])] 1 = some (.arr [.str eCm.name]) := rfl

/-- C56, conformance under given rules: arguments bound under the rules `r`, variables and defaults that are values of their
types under these rules, are values of their types; every required argument is there, none twice and none that is not
declared. -/
theorem C56_conforms_rules (c : Ctx) (nm : Names) (defs : List InputField) (given : List (Str × Lit)) (args : List (Nat × Q))
    (hs : SchemaOk c.s) (hnm : NamesOk c.s nm defs) (hw : ∀ f ∈ defs, ∃ t, Reachable f.ty.wrapping t) (hn : (defs.map (·.name)).Nodup)
    (hi : (defs.map (·.id)).Nodup) (hv : ∀ vs, c.vars = some vs → VarsOk vs) (hdf : c.dflt = nm.default)
    (hd : DefaultsOk c.s c.r nm.default defs) (he : EnvOk c.s c.r c.vars c.env)
    (h : FieldsBound (Bound c.s c.vars c.r true) defs given args) (ho : OneOfOk c.r c.env (oneOfVarsFields false args)) :
    (Coercion.keys (serArguments nm c.env args)).Nodup ∧
    (∀ p ∈ serArguments nm c.env args, ∃ f ∈ accessible defs, ∃ t, f.name = p.1 ∧ Reachable f.ty.wrapping t ∧
      IsValue c.s c.r f.ty.definition t p.2) ∧
    (∀ f ∈ accessible defs, f.default = none → ∀ t, Reachable f.ty.wrapping t → t.required = true →
      f.name ∈ Coercion.keys (serArguments nm c.env args)) := by
  have hval := serArguments_value hs hnm hi hv hdf he.defined h ho
  obtain ⟨h1, h2⟩ := hval.entries
  refine ⟨hval.keys_sublist.nodup (accessible_names_nodup hn), fun p hp => ?_, h2⟩
  rw [← hdf] at hd
  obtain ⟨f, hf, e, h3⟩ := h1 p hp
  rcases h3 with ⟨j, t, _, ht, hv'⟩ | ⟨dv, h4, h5⟩
  · exact ⟨f, hf, t, e, ht, hv'.isValue (args := defs) hs (fun h => Or.inr h) (fun h => h) hd he⟩
  · obtain ⟨t, ht⟩ := hw f (mem_accessible.1 hf).1
    refine ⟨f, hf, t, e, ht, ?_⟩
    rw [h5]
    exact (hd.args f (mem_accessible.1 hf).1 dv h4 t ht).of_tight

/-- C56, conformance. MISSING: a variable over an item may stand for a list at any depth (`C56_bare_variable`), and the field
of a `@oneOf` input object may be null; `IsValue s lax` allows both. -/
theorem C56_conforms_partial (s : Schema) (nm : Names) (decls : List Decl) (varDefaults : Nat → Q) (vars : List VarDef) (defs : List InputField)
    (given : List (Str × Lit)) (args : List (Nat × Q)) (raw : List (Str × Json)) (vals : List VarValue)
    (h : Accepted s nm decls varDefaults vars defs given args raw vals) (hd : DefaultsOk s lax nm.default defs) :
    (Coercion.keys (serArguments nm (envOf nm varDefaults vals) args)).Nodup ∧
    (∀ p ∈ serArguments nm (envOf nm varDefaults vals) args, ∃ f ∈ accessible defs, ∃ t, f.name = p.1 ∧ Reachable f.ty.wrapping t ∧
      IsValue s lax f.ty.definition t p.2) ∧
    (∀ f ∈ accessible defs, f.default = none → ∀ t, Reachable f.ty.wrapping t → t.required = true →
      f.name ∈ Coercion.keys (serArguments nm (envOf nm varDefaults vals) args)) :=
  C56_conforms_rules ⟨s, some vars, lax, envOf nm varDefaults vals, nm.default⟩ nm defs given args h.schema h.names h.wrapped h.distinct h.ids
    (fun vs e => by cases e; exact h.varsOk) rfl hd (env_ok h.schema h.names hd h.declares h.varsOk h.request)
    (C56_arguments_bound s vars defs given args h.schema h.varsOk h.wrapped h.distinct h.ids h.bound).2 h.oneOfOk

example : serArguments caseNames (envOf caseNames caseVarDefaults [.default 0, .undefined]) caseBound ≠ [] := by
  intro h; cases h
example : DefaultsOk caseSchema lax caseNames.default caseArgs := caseDefaults_ok lax

/-- C56, integers given for `Float` keep their value up to `2^53`. -/
theorem C56_float_of_small_integer (i : Int) (h : i.natAbs < 2 ^ 53) : intToF64 i = (i : Rat) := by
  have hn := C08_float_of_small_integer i.natAbs h
  unfold Num.asF64 Num.value at hn
  simp only at hn
  unfold intToF64
  split
  · rw [hn]
    congr 1
    omega
  · rw [hn, ← Rat.intCast_neg]
    congr 1
    omega

/-! ### Where C56 fails -/

/-- C56 is false for items: `grid: [$v]` with `$v: Int!` is accepted for `[[Int]]`, and `[3]` is sent, which is no value of that
type. -/
theorem C56_bare_variable :
    bindArguments caseSchema caseVars caseArgs [(aGrid.name, .list [.var ['v']])] = .ok [(11, .list [.variable 0])] ∧
    serArguments caseNames (envOf caseNames caseVarDefaults [.default 0, .undefined]) [(11, .list [.variable 0])] =
      [(aGrid.name, .arr [.num (.pos 3)])] ∧
    ¬ IsValue caseSchema strict 0 (.list (.list .named)) (.arr [.num (.pos 3)]) := by
  refine ⟨rfl, rfl, fun h => ?_⟩
  generalize ht : GType.list (.list .named) = t at h
  generalize ho : Json.arr [.num (.pos 3)] = o at h
  cases h with
  | list h =>
    cases ht
    cases ho
    have := h _ List.mem_cons_self
    generalize hx : Json.num (.pos 3) = x at this
    generalize hu : GType.list .named = u at this
    cases this with
    | bare h => exact h
    | list => cases hx
    | nonNull => cases hu
    | null => cases hx
    | _ => cases hu
  | bare h => exact h
  | null => cases ho
  | _ => cases ht

/-- C56 is false for `@oneOf`: `{ by: null }` is accepted and sent. -/
theorem C56_oneOf_null : coerceQueryValue caseSchema (some caseVars) ⟨3, wRequired⟩ (.obj [(fBy.name, .null)]) =
    .ok (.object true [(3, .null)]) ∧ ¬ IsValue caseSchema strict 3 .named (.obj [(fBy.name, .null)]) := by
  refine ⟨rfl, fun h => ?_⟩
  generalize ht : GType.named = t at h
  generalize hd : 3 = d at h
  cases h with
  | bare h => exact h
  | object R _ hk _ _ _ h =>
    subst hd
    cases hk
    obtain ⟨p, e, h⟩ := h rfl
    cases e
    exact h rfl
  | custom h => subst hd; cases h
  | int _ _ _ h => cases h
  | nonNull => cases ht

/-- C56 is false for `Int`: `-3e9` is accepted and another number is sent; `1.0` is accepted as well. -/
theorem C56_int_clamped :
    coerceQueryValue caseSchema (some caseVars) ⟨0, wRequired⟩ (.float (-3000000000)) = .ok (.int (-2147483648)) ∧
    coerceQueryValue caseSchema (some caseVars) ⟨0, wRequired⟩ (.float 1) = .ok (.int 1) ∧
    coerceQueryValue caseSchema (some caseVars) ⟨0, wRequired⟩ (.int (-3000000000)) = .error .scalarValue := ⟨rfl, rfl, rfl⟩

/-- C56 is false for list variables with a default: `$x: [Int] = [1]` is rejected, `$x: [Int] = [[1]]` is accepted. -/
theorem C56_list_default :
    bindDecl caseSchema ⟨['x'], ⟨0, wList⟩, some (.list [.int 1])⟩ = .error .missingList ∧
    ∃ ty, bindDecl caseSchema ⟨['x'], ⟨0, wList⟩, some (.list [.list [.int 1]])⟩ = .ok (ty, some (.list [.list [.int 1]])) :=
  ⟨rfl, ⟨0, ⟨0b0001000000000010#16⟩⟩, rfl⟩

/-! ### C09 -/

/-- C09: if a variable is accepted at a position, then in every accepted request the value it has, given or by default, is
admissible at the position (an item is admissible for a list, as an argument would be coerced); and if it has no value then the
position is nullable. -/
theorem C09_values_admissible (s : Schema) (nm : Names) (defs : List InputField) (decls : List Decl) (varDefaults : Nat → Q) (vars : List VarDef)
    (raw : List (Str × Json)) (vals : List VarValue) (hs : SchemaOk s) (hnm : NamesOk s nm defs) (hdf : DefaultsOk s lax nm.default defs)
    (hv : VarsOk vars) (hdecl : Declares s decls varDefaults vars) (hr : bindVariables s vars raw = some vals)
    (name : Str) (pos : Ty) (t : GType) (ht : Reachable pos.wrapping t) (q : Q) (h : variableRef (some vars) name pos = .ok q) :
    ∃ i v, q = .variable i ∧ vars[i]? = some v ∧ v.name = name ∧
      (∀ w, envOf nm varDefaults vals i = some w → IsValue s lax.tight pos.definition t w ∨
        (t.isList = true ∧ w ≠ .null ∧ IsValue s lax.tight pos.definition .named w)) ∧
      (envOf nm varDefaults vals i = none → t.required = false) := by
  obtain ⟨i, rfl, hu⟩ := (variableRef_iff (fun vs e => by cases e; exact hv) (Typed.of_reachable ht) q).1 h
  have he := env_ok hs hnm hdf hdecl hv hr
  have hn := (Usable.isValue he hu).2
  obtain ⟨vs, v, T, h1, h2, h3, h4, h5, h6⟩ := hu
  cases h1
  refine ⟨i, v, rfl, h2, h3, fun w hw => ?_, hn⟩
  have hval := he.values vars i v w T rfl h2 hw h5
  rw [h4] at hval
  obtain ⟨x, a, b, c, _⟩ := hval.outline (fun h => h)
  rcases h6 x a with h | ⟨_, hl, n, hx⟩
  · exact Or.inl (b t h)
  · obtain ⟨e1, e2⟩ := c n hx
    exact Or.inr ⟨hl, e1, e2⟩

example : variableRef (some caseVars) ['v'] ⟨0, wRequired⟩ = .ok (.variable 0) := rfl
example : envOf caseNames caseVarDefaults [.default 0, .undefined] 0 = some (.num (.pos 3)) := rfl
/-- Without its default, `$v: Int` would be rejected at `Int!`. -/
example : variableRef (some [⟨['v'], ⟨0, wNamed⟩, none, false⟩]) ['v'] ⟨0, wRequired⟩ = .error .variableType := rfl

/-- C09, defaults: the default value a variable is bound with is a value of the type it is given, which is non-null if the
default is. -/
theorem C09_default (s : Schema) (nm : Names) (defs : List InputField) (decl : Decl) (ty : Ty) (T : GType) (q : Q) (hs : SchemaOk s)
    (hnm : NamesOk s nm defs) (hdf : DefaultsOk s lax nm.default defs) (h : bindDecl s decl = .ok (ty, some q)) (ht : Reachable ty.wrapping T) :
    IsValue s lax.tight ty.definition T (serQ nm (fun _ => none) q) :=
  default_isValue hs hnm hdf h ht

end Verif.Literals
