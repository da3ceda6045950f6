import Verif.FieldSets.Lemmas

/-!
# C82: the selections of `@key`, `@requires` and `@provides` are checked against the subgraph

The intended reading: a composition goes on only with selections which are valid on their type, and says what is wrong with
every other one. Here it is shown what exactly is reported and when the check panics, and that nothing is reported for a valid
selection with literals of their own types. The rest of the reading is false: see the witnesses.
-/
namespace Verif.FieldSets

/-- What is reported are exactly the mistakes in the selections which are looked at. -/
theorem C82_reported (s : Schema) (d : Definition) (xs : List Selection) (l : List Diag) (h : validateAll s d xs = some l) (w : Diag) :
    w ∈ l ↔ ∃ e y, Seen s d xs e y ∧ Wrong s e y w := (validateAll_right s d xs).2 l h w

/-- The check panics exactly when it comes to selections on a type which the subgraph does not define. -/
theorem C82_panics (s : Schema) (d : Definition) (xs : List Selection) :
    validateAll s d xs = none ↔ ∃ e y, Seen s d xs e y ∧ Lost s e y := (validateAll_right s d xs).1

/-- The literals which are taken for an argument. -/
theorem C82_arguments (s : Schema) (t : Ty) (v : Value) : matchesType s t v = true ↔ Taken s t v := matches_iff s t v

/-- Nothing is reported for valid selections. (Missing: literals which need a coercion, which are reported.) -/
theorem C82_valid_partial (s : Schema) (d : Definition) (xs : List Selection) (h : ∀ x ∈ xs, Valid s d x) :
    validateAll s d xs = some [] := by
  have fine : ∀ e y, Seen s d xs e y → (∀ w, ¬ Wrong s e y w) ∧ ¬ Lost s e y := by
    intro e y hs
    obtain ⟨x, hx, hs⟩ := seen_split hs
    exact valid_fine (h x hx) e y hs
  have R := validateAll_right s d xs
  cases hv : validateAll s d xs with
  | none =>
    obtain ⟨e, y, h1, h2⟩ := R.1.mp hv
    exact absurd h2 (fine e y h1).2
  | some l =>
    congr 1
    refine List.eq_nil_iff_forall_not_mem.mpr (fun w hw => ?_)
    obtain ⟨e, y, h1, h2⟩ := (R.2 l hv w).mp hw
    exact (fine e y h1).1 w h2

/-- When nothing is reported, each field looked at is one of its type, with its required arguments. -/
theorem C82_accepted_fields (s : Schema) (d : Definition) (xs : List Selection) (h : validateAll s d xs = some []) {e : Definition}
    {n : Name} {args : List (Name × Value)} {sub : List Selection} {b : Bool} (hs : Seen s d xs e (.field n args sub b)) :
    (n = "__typename" ∧ args = [] ∧ sub = []) ∨
    (∃ f, Named (·.name) e.fields n f ∧ ArgsTaken s f args ∧
      (∀ a ∈ f.args, NonNull a.type → a.hasDefault = false → ∃ x ∈ args, x.1 = a.name) ∧
      (sub ≠ [] → ∃ c t, Core f.type c ∧ Named (·.name) s c t)) := by
  have hno : ∀ w, ¬ Wrong s e (.field n args sub b) w := fun w hw => by
    have := (C82_reported s d xs [] h w).mpr ⟨e, _, hs, hw⟩
    cases this
  have hlost : ¬ Lost s e (.field n args sub b) := fun hl => by
    have := (C82_panics s d xs).mpr ⟨e, _, hs, hl⟩
    rw [h] at this
    cases this
  by_cases hn : n = "__typename"
  · subst hn
    left
    by_cases ha : args = []
    · subst ha
      by_cases hsub : sub = []
      · exact ⟨rfl, rfl, hsub⟩
      · exact absurd (.typenameSub hsub) (hno _)
    · exact absurd (.typenameArgs ha) (hno _)
  · right
    by_cases hf : Absent (·.name) e.fields n
    · exact absurd (.noField hn hf) (hno _)
    · obtain ⟨f, hf⟩ := present.mp hf
      have ht : ArgsTaken s f args := by
        rw [← wrongArg_none s e.name f args]
        cases hw : wrongArg s e.name f args with
        | none => rfl
        | some w => exact absurd ((wrong_field hn hf w).mpr (Or.inr ((wrongArg_some _ _ _ _ _).mp hw))) (hno w)
      refine ⟨f, hf, ht, ?_, ?_⟩
      · intro a h1 h2 h3
        refine Classical.byContradiction (fun hx => hno _ (.missing hn hf h1 h2 h3 (fun x hm he => hx ⟨x, hm, he⟩)))
      · intro hsub
        refine ⟨f.type.name, Classical.byContradiction (fun hx => ?_)⟩
        · refine hlost ⟨n, args, sub, b, f, f.type.name, rfl, hn, hf, ht, hsub, (core_iff _ _).mpr rfl, ?_⟩
          refine Classical.byContradiction (fun hab => hx ?_)
          obtain ⟨t, ht⟩ := present.mp hab
          exact ⟨t, (core_iff _ _).mpr rfl, ht⟩

/-- `@provides`: directives anywhere in the selections are reported too, and so is a field of a type which is not defined. -/
theorem C82_provides (s : Schema) (f : Field) (xs : List Selection) (c : Name) (hc : Core f.type c) :
    (validateProvidedAll s f xs = none ↔ ∃ t e y, Named (·.name) s c t ∧ Seen s t xs e y ∧ Lost s e y) ∧
    ∀ l, validateProvidedAll s f xs = some l → ∀ w, w ∈ l ↔
      (xs ≠ [] ∧ Absent (·.name) s c ∧ w = .noSelection f.name) ∨
      (∃ t, Named (·.name) s c t ∧ ((w = .directives ∧ ∃ y, Within xs y ∧ HasDirectives y) ∨
        ∃ e y, Seen s t xs e y ∧ Wrong s e y w)) := by
  rw [core_iff] at hc
  subst hc
  cases ht : s.find f.type.name with
  | none =>
    have hab := sfind_none.mp ht
    have key : ∀ xs, validateProvidedAll s f xs = some (xs.map (fun _ => Diag.noSelection f.name)) := by
      intro xs
      induction xs with
      | nil => rfl
      | cons x xs ih => simp [validateProvidedAll, validateProvided, ht, ih, andThen]
    rw [key]
    constructor
    · simp only [reduceCtorEq, false_iff]
      rintro ⟨t, e, y, h, _⟩
      exact named_not_absent h hab
    · intro l hl w
      cases hl
      rw [List.mem_map]
      constructor
      · rintro ⟨x, hx, rfl⟩
        exact Or.inl ⟨List.ne_nil_of_mem hx, hab, rfl⟩
      · rintro (⟨hne, _, rfl⟩ | ⟨t, h, _⟩)
        · obtain ⟨x, hx⟩ := List.exists_mem_of_ne_nil xs hne
          exact ⟨x, hx, rfl⟩
        · exact absurd hab (named_not_absent h)
  | some t =>
    have hn := sfind.mp ht
    have key : ∀ xs, (validateProvidedAll s f xs = none ↔ validateAll s t xs = none) ∧
        ∀ l, validateProvidedAll s f xs = some l → ∃ l', validateAll s t xs = some l' ∧ ∀ w, w ∈ l ↔ w ∈ providedAll xs ∨ w ∈ l' := by
      intro xs
      induction xs with
      | nil =>
        constructor
        · simp [validateProvidedAll, validateAll]
        · intro l hl
          cases hl
          exact ⟨[], rfl, by simp [providedAll]⟩
      | cons x xs ih =>
        have e1 : validateProvided s f x = andThen (some (provided x)) (validate s t x) := by
          rw [validateProvided, ht]
        rw [validateProvidedAll, validateAll, e1]
        cases hv : validate s t x with
        | none => exact ⟨by simp [andThen], by intro l hl; cases hl⟩
        | some a =>
          cases hp : validateProvidedAll s f xs with
          | none =>
            rw [ih.1.mp hp]
            exact ⟨by simp [andThen], by intro l hl; cases hl⟩
          | some b =>
            obtain ⟨l', h1, h2⟩ := ih.2 b hp
            rw [h1]
            constructor
            · simp [andThen]
            · intro l hl
              simp only [andThen, Option.map_some, Option.some.injEq] at hl
              subst hl
              refine ⟨a ++ l', rfl, fun w => ?_⟩
              rw [providedAll, List.mem_append, List.mem_append, List.mem_append, List.mem_append, h2 w]
              constructor
              · rintro ((h | h) | (h | h))
                · exact Or.inl (Or.inl h)
                · exact Or.inr (Or.inl h)
                · exact Or.inl (Or.inr h)
                · exact Or.inr (Or.inr h)
              · rintro ((h | h) | (h | h))
                · exact Or.inl (Or.inl h)
                · exact Or.inr (Or.inl h)
                · exact Or.inl (Or.inr h)
                · exact Or.inr (Or.inr h)
    constructor
    · rw [(key xs).1, C82_panics]
      constructor
      · rintro ⟨e, y, h1, h2⟩
        exact ⟨t, e, y, hn, h1, h2⟩
      · rintro ⟨t', e, y, h, h1, h2⟩
        rw [named_unique h hn] at h1
        exact ⟨e, y, h1, h2⟩
    · intro l hl w
      obtain ⟨l', h1, h2⟩ := (key xs).2 l hl
      rw [h2 w, providedAll_iff, C82_reported s t xs l' h1 w]
      constructor
      · intro h
        exact Or.inr ⟨t, hn, h⟩
      · rintro (⟨_, hab, _⟩ | ⟨t', h, k⟩)
        · exact absurd hab (named_not_absent hn)
        · rw [named_unique h hn] at k
          exact k

/-- The directives of a field: those of `@requires` on its type, those of `@provides` on the type of the field. -/
theorem C82_field (s : Schema) (d : Definition) (f : Field) (requires provides : List Selection) (l : List Diag) :
    validateField s d f requires provides = some l ↔
      ∃ a b, validateAll s d requires = some a ∧ validateProvidedAll s f provides = some b ∧ l = a ++ b := andThen_some _ _ _

/-- The keys: each on its own type. -/
theorem C82_keys (s : Schema) (ks : List (Definition × List Selection)) :
    (validateKeys s ks = none ↔ ∃ k ∈ ks, validateAll s k.1 k.2 = none) ∧
    ∀ l, validateKeys s ks = some l → ∀ w, w ∈ l ↔ ∃ k ∈ ks, ∃ r, validateAll s k.1 k.2 = some r ∧ w ∈ r := by
  induction ks with
  | nil =>
    constructor
    · simp [validateKeys]
    · intro l hl w
      cases hl
      simp
  | cons k ks ih =>
    rw [validateKeys]
    cases hv : validateAll s k.1 k.2 with
    | none => exact ⟨by simp [andThen, hv], by intro l hl; cases hl⟩
    | some a =>
      cases hp : validateKeys s ks with
      | none =>
        obtain ⟨k', h1, h2⟩ := ih.1.mp hp
        exact ⟨⟨fun _ => ⟨k', List.mem_cons_of_mem _ h1, h2⟩, fun _ => rfl⟩, by intro l hl; cases hl⟩
      | some b =>
        constructor
        · simp only [andThen, Option.map_some, reduceCtorEq, false_iff]
          rintro ⟨k', h1, h2⟩
          rcases List.mem_cons.mp h1 with rfl | h1
          · rw [hv] at h2
            cases h2
          · have := ih.1.mpr ⟨k', h1, h2⟩
            rw [hp] at this
            cases this
        · intro l hl w
          simp only [andThen, Option.map_some, Option.some.injEq] at hl
          subst hl
          rw [List.mem_append, ih.2 b hp w]
          constructor
          · rintro (h | ⟨k', h1, h2⟩)
            · exact ⟨k, List.mem_cons_self, a, hv, h⟩
            · exact ⟨k', List.mem_cons_of_mem _ h1, h2⟩
          · rintro ⟨k', h1, r, h2, h3⟩
            rcases List.mem_cons.mp h1 with rfl | h1
            · rw [hv] at h2
              cases h2
              exact Or.inl h3
            · exact Or.inr ⟨k', h1, r, h2, h3⟩

namespace Demo

/-- `type User { id: ID!  price(max: Float, of: [Int], like: Like, by: ID): Int  owner: User }`, an input object with a required
field, and `type Other { a: Int }`. -/
def user : Definition :=
  { name := "User",
    fields := [{ name := "id", type := .named "ID" true },
      { name := "price", type := .named "Int" false,
        args := [{ name := "max", type := .named "Float" false }, { name := "of", type := .list (.named "Int" false) false },
          { name := "like", type := .named "Like" false }, { name := "by", type := .named "ID" false }] },
      { name := "owner", type := .named "User" false },
      { name := "at", type := .named "Int" false, args := [{ name := "day", type := .named "Int" true }] }] }
def like : Definition := { name := "Like", kind := .inputObject, fields := [{ name := "a", type := .named "Int" true }] }
def other : Definition := { name := "Other", fields := [{ name := "a", type := .named "Int" false }] }
def schema : Schema := [user, like, other]

def leaf (n : Name) : Selection := .field n [] [] false

/-- A valid selection, as the theorem asks for: `{ owner { at(day: 1) __typename } }`. -/
theorem valid : Valid schema user (.field "owner" [] [.field "at" [("day", .int 1)] [] false, leaf "__typename"] false) := by
  have hat : Named (·.name) user.fields "at"
      { name := "at", type := .named "Int" false, args := [{ name := "day", type := .named "Int" true }] } := ffind.mp rfl
  have hown : Named (·.name) user.fields "owner" { name := "owner", type := .named "User" false } := ffind.mp rfl
  refine .nested (by decide) hown (by simp) (by simp) .named (sfind.mp rfl : Named (·.name) schema "User" user) (Or.inl rfl) (by simp)
    ?_
  intro x hx
  rcases List.mem_cons.mp hx with rfl | hx
  · refine .leaf (by decide) hat ?_ ?_ .named (Or.inl (by decide))
    · intro x hx
      rw [List.mem_singleton.mp hx]
      exact ⟨{ name := "day", type := .named "Int" true }, afind.mp rfl, .int⟩
    · intro a ha _ _
      rw [List.mem_singleton.mp ha]
      exact ⟨_, List.mem_singleton.mpr rfl, rfl⟩
  · rw [List.mem_singleton.mp hx]
    exact .typename

/-- Mistakes are found below a selection: an unknown field, and a required argument. -/
theorem found : validateAll schema user [.field "owner" [] [leaf "x", leaf "at"] false] =
    some [.noField "User" "x", .missing "User" "at" "day"] := rfl

/-- The check panics for `@key(fields: "id { x }")`. -/
theorem C82_total_false : ¬ ∀ s d xs, validateAll s d xs ≠ none := fun h => h schema user [.field "id" [] [leaf "x"] false] rfl

/-- Selections which are not valid go on: an object without a selection, -/
theorem C82_object_leaf_false : validateAll schema user [leaf "owner"] = some [] ∧ ¬ Valid schema user (leaf "owner") := by
  refine ⟨rfl, ?_⟩
  intro h
  unfold leaf at h
  generalize hz : Selection.field "owner" [] [] false = z at h
  cases h with
  | typename => injection hz with h1; exact absurd h1 (by decide)
  | leaf _ hf _ _ hc hb =>
    injection hz with h1
    subst h1
    have e := ffind.mpr hf
    have : ({ name := "owner", type := .named "User" false } : Field) = _ := Option.some.inj e
    rw [← this, core_iff] at hc
    have hc' : "User" = _ := hc
    subst hc'
    rcases hb with hb | ⟨t, ht, hk⟩
    · exact absurd hb (by decide)
    · have : user = t := Option.some.inj (sfind.mpr ht)
      subst this
      rcases hk with hk | hk <;> cases hk
  | nested _ _ _ _ _ _ _ hne =>
    injection hz with _ _ h1
    exact hne h1.symm
  | fragment => cases hz

/-- a fragment on an unrelated type, -/
theorem C82_fragment_false : validateAll schema user [.fragment "Other" [leaf "a"] false] = some [] := rfl

/-- a list within a list, -/
theorem C82_nested_list_false :
    validateAll schema user [.field "price" [("of", .list [.list [.int 1]])] [] false] = some [] ∧
    ¬ Exact schema (.list (.named "Int" false) false) (.list [.list [.int 1]]) := by
  refine ⟨rfl, ?_⟩
  intro h
  cases h with
  | list h =>
    have := h _ (List.mem_singleton.mpr rfl)
    generalize "Int" = n at this
    cases this

/-- an input object without its required field, -/
theorem C82_required_field_false : validateAll schema user [.field "price" [("like", .object [])] [] false] = some [] := rfl

/-- and the same argument twice. -/
theorem C82_argument_twice_false :
    validateAll schema user [.field "at" [("day", .int 1), ("day", .int 2)] [] false] = some [] := rfl

/-- Valid literals are refused: `null`, an integer for `Float`, and anything for `ID` or a scalar of one's own. -/
theorem C82_coercion_false :
    validateAll schema user [.field "price" [("max", .null)] [] false] = some [.badArg "User" "price" "max"] ∧
    validateAll schema user [.field "price" [("max", .int 1)] [] false] = some [.badArg "User" "price" "max"] ∧
    validateAll schema user [.field "price" [("by", .string "x")] [] false] = some [.badArg "User" "price" "by"] :=
  ⟨rfl, rfl, rfl⟩

/-- No literal at all is taken for `ID`, nor for any scalar. -/
theorem C82_scalars (s : Schema) (t : Ty) (v : Value) (n : Name) (hn : Core t n) (hl : t.isList = false)
    (hb : n ∉ ["String", "Int", "Float", "Boolean"]) (hs : ∀ d, Named (·.name) s n d → d.values = [] ∧ d.kind = .scalar)
    (hv : ∀ fs, v ≠ .object fs) : matchesType s t v = false := by
  rw [← Bool.not_eq_true, matches_iff]
  intro h
  rw [core_iff] at hn
  subst hn
  cases h with
  | string hc => rw [core_iff] at hc; exact hb (by rw [hc]; decide)
  | int hc => rw [core_iff] at hc; exact hb (by rw [hc]; decide)
  | float hc => rw [core_iff] at hc; exact hb (by rw [hc]; decide)
  | boolean hc => rw [core_iff] at hc; exact hb (by rw [hc]; decide)
  | enum hc hd hm =>
    rw [core_iff] at hc
    subst hc
    rw [(hs _ hd).1] at hm
    cases hm
  | object => exact hv _ rfl
  | list => cases hl

example : matchesType [{ name := "Date", kind := .scalar }] (.named "Date" false) (.string "2020") = false := by
  refine C82_scalars _ _ _ "Date" .named rfl (by decide) ?_ (by intro fs h; cases h)
  intro d hd
  have : ({ name := "Date", kind := .scalar } : Definition) = d := Option.some.inj (sfind.mpr hd)
  subst this
  exact ⟨rfl, rfl⟩

/-- Directives deep in `@provides` are reported. -/
example : validateProvidedAll schema { name := "owner", type := .named "User" false }
    [.field "owner" [] [.field "id" [] [] true] false] = some [.directives] := rfl

end Demo

end Verif.FieldSets
