import Verif.AutoDetect.FlatLemmas
import Verif.AutoDetect.Witness

/-!
# C74: detected arguments identify the entity and are of their types
-/

namespace Verif.AutoDetect

open Verif.Views
open Verif.Injection

variable {S : Schema} {leaf : Def → Json → Prop} {subgraph : Nat} {batch : Bool} {key : List (Item Unit)} {args : List Nat}

/-- **Other lookups.** Detecting the arguments of a lookup keeps the injections that were there. -/
theorem C74_old (arena arena' : List (Nat × Arg)) (range : Option (Nat × Nat))
    (h : detect S batch key args arena = .ok (range, arena')) : arena <+: arena' := by
  obtain ⟨ext, rfl⟩ := detect_old h
  exact List.prefix_append _ _

/-- **The range.** The range that is returned is one of the vector, unless the key has several fields and
an argument is of a `@oneOf` type. -/
theorem C74_range_partial (hk : ∀ t ∈ args, isOneOf S t = true → key.length = 1) (arena arena' : List (Nat × Arg))
    (range : Nat × Nat) (h : detect S batch key args arena = .ok (some range, arena')) :
    ∃ l, records arena' range = .ok l := by
  rw [records, if_pos (detect_within hk h)]
  exact ⟨_, rfl⟩

/-- **The key.** The arguments that are detected take exactly the fields of the key: each of them, so that the
entity is identified, and nothing else. -/
theorem C74_key_partial (hone : ∀ id, S.oneOf id = true → ∀ i ∈ S.inputFields id, (S.input i).default = none)
    (arena arena' : List (Nat × Arg)) (range : Nat × Nat) (h : detect S batch key args arena = .ok (some range, arena'))
    (l : List (Nat × Arg)) (hl : records arena' range = .ok l) (p : List Nat) : p ∈ argsRead l ↔ p ∈ leaves key :=
  found_reads hone (detect_found h hl) p

/-- **The arguments.** For any objects of the entity and any required fields that have those of the key, every
argument is of its type, none is given twice and none that is required is missing. -/
theorem C74_arguments_partial (hS : S.Ok leaf) (hP : Plain S subgraph) (d : Def) (hd : d.isComposite = true)
    (hkey : KeyOk S d key) (hnodup : args.Nodup) (hlen : args.length ≤ 64) (hok : OneOfKey S key args)
    (arena arena' : List (Nat × Arg)) (range : Nat × Nat) (h : detect S batch key args arena = .ok (some range, arena'))
    (l : List (Nat × Arg)) (hl : records arena' range = .ok l) (reqs : List (Item Data)) (hs : Strict reqs)
    (hcov : ∀ p, HasPath p key → HasPath p reqs) (parents : Val) (hp : Parents S leaf d reqs batch parents)
    (es : List (String × Json)) (hes : arguments S reqs parents l = .ok es) : ArgumentsOk S leaf subgraph args es :=
  found_callable hS hP hd hkey hnodup hlen hok (detect_found h hl) reqs parents hs hcov hp es hes

/-- **Which field for which argument.** When neither the key nor the arguments have objects, no field is given
for two arguments, and an argument with the name of a field that suits it is given that field. -/
theorem C74_once_partial (hf : Flat S key) (hleaf : ∀ t ∈ args, (S.input t).ty.definition.isLeaf = true)
    (hnames : ∀ i ∈ args, ∀ j ∈ args, (S.input i).name = (S.input j).name → i = j)
    (arena arena' : List (Nat × Arg)) (range : Nat × Nat) (h : detect S false key args arena = .ok (some range, arena'))
    (l : List (Nat × Arg)) (hl : records arena' range = .ok l) :
    (∀ a ∈ l, ∀ b ∈ l, ∀ p, p ∈ argReads a.2 → p ∈ argReads b.2 → a.1 = b.1) ∧
    (∀ a ∈ l, ∀ i ∈ key, S.fieldName i.id = (S.input a.1).name → Suits (S.input a.1).ty (S.fieldTy i.id) →
      argReads a.2 = [[i.id]]) := by
  have hno : ∀ t id, t ∈ args → (S.input t).ty.definition = .input id → False := by
    intro t id ht hid
    have := hleaf t ht
    rw [hid] at this
    cases this
  have hfound := detect_found h hl
  cases hfound with
  | object t id _ ht _ hid => exact (hno t id ht hid).elim
  | single t id _ _ _ ht _ hid => exact (hno t id ht hid).elim
  | field t id _ _ _ ht _ hid => exact (hno t id ht hid).elim
  | direct kvs _ hm =>
    obtain ⟨h1, h2⟩ := flat_once hf hnames hm
    have hshape : ∀ kv ∈ kvs, ∀ p, p ∈ reads kv.2 → ∃ f, kv.2 = .select f .identity ∧ p = [f] := by
      obtain ⟨_, found, hm, _⟩ := mapKey_ok hm
      obtain ⟨_, _, m3, _⟩ := mapAll_ok hm
      intro kv hkv p hp
      rcases m3 kv hkv with ⟨_, j, hj, _⟩ | ⟨pos, hpos⟩
      · rw [hj] at hp; simp [reads] at hp
      · rcases flat_inj hf hpos with ⟨_, j, hj⟩ | ⟨_, item, _, _, hinj, _⟩
        · rw [hj] at hp; simp [reads] at hp
        · rw [hinj] at hp
          exact ⟨item.id, hinj, by simpa [reads] using hp⟩
    refine ⟨?_, ?_⟩
    · intro a ha b hb p hpa hpb
      obtain ⟨x, hx, rfl⟩ := List.mem_map.1 ha
      obtain ⟨y, hy, rfl⟩ := List.mem_map.1 hb
      obtain ⟨f, hf1, rfl⟩ := hshape x hx p hpa
      obtain ⟨g, hg1, hg2⟩ := hshape y hy _ hpb
      cases hg2
      exact h1 x hx y hy f hf1 hg1
    · intro a ha i hi hname hsuits
      obtain ⟨x, hx, rfl⟩ := List.mem_map.1 ha
      show reads x.2 = _
      rw [h2 x hx i hi hname hsuits]
      rfl

/-! ## The statements are about something -/

namespace Demo

theorem demo_ok : schema.Ok leafs where
  ids := by
    intro id
    match id with
    | 0 => decide
    | 1 => decide
    | 2 => decide
    | 3 => decide
    | 4 => decide
    | 5 => decide
    | _ + 6 => exact List.Pairwise.nil
  names := by
    intro id
    match id with
    | 0 => decide
    | 1 => decide
    | 2 => decide
    | 3 => decide
    | 4 => decide
    | 5 => decide
    | _ + 6 => intro i hi; cases hi
  defaults := by
    intro subgraph i j h
    match i with
    | 2 => cases h; exact .scalar _ _ _ rfl ⟨_, rfl⟩
    | 0 | 1 | 3 | 4 | 5 | 6 | 7 | 8 | 9 | 10 | 11 | 12 | 13 | 14 | 15 | 16 | 17 | 18 | 19 | 20 | 21 => cases h
    | _ + 22 => cases h
  oneOf := by
    intro id h
    match id with
    | 0 => decide
    | 1 => cases h
    | 2 => cases h
    | 3 => decide
    | 4 => decide
    | 5 => decide
    | _ + 6 => intro i hi; cases hi
  leaf := by
    rintro d ⟨s, h⟩
    cases h

theorem demo_plain : Plain schema 0 where
  fields := by
    intro id
    match id with
    | 0 => decide
    | 1 => decide
    | 2 => decide
    | 3 => decide
    | 4 => decide
    | 5 => decide
    | _ + 6 => intro i hi; cases hi
  oneOf := by
    intro id h
    match id with
    | 0 => decide
    | 1 => cases h
    | 2 => cases h
    | 3 => decide
    | 4 => decide
    | 5 => decide
    | _ + 6 => intro i hi; cases hi
  known := by
    intro id
    match id with
    | 0 => decide
    | 1 => decide
    | 2 => decide
    | 3 => decide
    | 4 => decide
    | 5 => decide
    | _ + 6 => intro i hi; cases hi

theorem demo_item (f : Nat) (hf : f ∈ [0, 1, 4]) : ItemOk schema (.object 0) (item f) := by
  rw [item, ItemOk]
  refine ⟨⟨.object 0, [0, 1, 2, 4], rfl, ?_, fun _ h => h⟩, fun _ => ?_, fun h => absurd rfl h, by rw [KeyOk]; trivial⟩
  · simp at hf ⊢
    omega
  · simp at hf
    rcases hf with rfl | rfl | rfl <;> rfl

theorem demo_key : KeyOk schema (.object 0) [item 0, item 1] := by
  rw [KeyOk, KeyOk, KeyOk]
  exact ⟨demo_item 0 (by simp), demo_item 1 (by simp), trivial⟩

theorem demo_owner : KeyOk schema (.object 0) [.mk 2 () [item 3, item 5]] := by
  rw [KeyOk, KeyOk, ItemOk, KeyOk, KeyOk, KeyOk, item, item, ItemOk, ItemOk, KeyOk]
  refine ⟨⟨⟨.object 0, [0, 1, 2, 4], rfl, by simp, fun _ h => h⟩, fun h => (by cases h), fun _ => rfl,
    ⟨⟨.object 1, [3, 5], rfl, by simp, fun _ h => h⟩, fun _ => rfl, fun h => absurd rfl h, trivial⟩,
    ⟨⟨.object 1, [3, 5], rfl, by simp, fun _ h => h⟩, fun _ => rfl, fun h => absurd rfl h, trivial⟩, trivial⟩, trivial⟩

theorem demo_scalar (d : Nat) (r : Bool) (reqs : List (Item Data)) (s : String) :
    ValOk schema leafs (.scalar d) (.named r) reqs (.leaf s) :=
  .scalar _ _ _ _ rfl (fun k j hj => by rw [forward] at hj; cases hj; exact ⟨s, rfl⟩)

theorem demo_user : ValOk schema leafs (.object 1) (.named true) [.mk 3 (dat 3 "uid") [], .mk 5 (dat 5 "email") []] user := by
  refine .object (.object 1) true _ ⟨some 1, [(3, .leaf "u"), (5, .leaf "e")]⟩ 1 rfl (by simp [possible]) ?_ ?_
  · intro i hi _ _ _ _ _
    simp only [List.mem_cons, List.not_mem_nil, or_false] at hi
    rcases hi with rfl | rfl <;> rfl
  · intro i hi v hv
    simp only [List.mem_cons, List.not_mem_nil, or_false] at hi
    rcases hi with rfl | rfl <;> (cases hv; exact demo_scalar _ _ _ _)

theorem demo_product (id sku : String) : ValOk schema leafs (.object 0) (.named true) reqs (obj (product id sku)) := by
  refine .object (.object 0) true _ (product id sku) 0 rfl (by simp [possible]) ?_ ?_
  · intro i hi _ _ _ _ _
    simp only [reqs, List.mem_cons, List.not_mem_nil, or_false] at hi
    rcases hi with rfl | rfl | rfl | rfl <;> rfl
  · intro i hi v hv
    simp only [reqs, List.mem_cons, List.not_mem_nil, or_false] at hi
    rcases hi with rfl | rfl | rfl | rfl <;> cases hv
    · exact demo_scalar _ _ _ _
    · exact demo_scalar _ _ _ _
    · exact demo_user
    · exact .null _ _ _ rfl

theorem demo_parents : Parents schema leafs (.object 0) reqs false (obj p1) := .one p1 (demo_product _ _)

theorem demo_parents_all : Parents schema leafs (.object 0) reqs true (.list [obj p1, obj p2]) :=
  .all [p1, p2] (by
    intro o ho
    simp only [List.mem_cons, List.not_mem_nil, or_false] at ho
    rcases ho with rfl | rfl
    · exact demo_product _ _
    · exact demo_product _ _)

theorem demo_strict : Strict reqs :=
  .cons _ _ .nil (by decide) (.cons _ _ .nil (by decide)
    (.cons _ _ (.cons _ _ .nil (by decide) (.cons _ _ .nil (by simp) .nil)) (by decide) (.cons _ _ .nil (by simp) .nil)))

theorem demo_cov : ∀ p, HasPath p [item 0, item 1] → HasPath p reqs := by
  intro p hp
  match p with
  | [] => trivial
  | i :: p =>
    obtain ⟨it, hit, hi, hrest⟩ := hp
    have hp : p = [] := by
      cases p with
      | nil => rfl
      | cons k p =>
        exfalso
        simp only [List.mem_cons, List.not_mem_nil, or_false] at hit
        rcases hit with rfl | rfl <;> (obtain ⟨it', hit', _⟩ := hrest; cases hit')
    subst hp
    simp only [List.mem_cons, List.not_mem_nil, or_false] at hit
    rcases hit with rfl | rfl
    · exact ⟨_, List.mem_cons_self, hi, trivial⟩
    · exact ⟨_, List.mem_cons_of_mem _ List.mem_cons_self, hi, trivial⟩

theorem demo_flat : Flat schema [item 0, item 1] where
  leaf := by decide
  names := by decide

/-- `C74_key_partial`, `C74_arguments_partial` and `C74_once_partial` for `product(id: ID!, sku: String, limit: Int! = 9)`. -/
example : given false [item 0, item 1] [0, 1, 2] (obj p1) =
    .ok [("id", .leaf "p1"), ("sku", .leaf "s1"), ("limit", .leaf "9")] := rfl

example : ArgumentsOk schema leafs 0 [0, 1, 2] [("id", .leaf "p1"), ("sku", .leaf "s1"), ("limit", .leaf "9")] :=
  C74_arguments_partial (batch := false) demo_ok demo_plain (.object 0) rfl demo_key (by decide) (by decide)
    (by
      intro t ht ho
      simp only [List.mem_cons, List.not_mem_nil, or_false] at ht
      rcases ht with rfl | rfl | rfl <;> cases ho)
    [] [(0, .value (.select 0 .identity)), (1, .value (.select 1 .identity)), (2, .value (.default (.leaf "9")))] (0, 3) rfl
    _ rfl reqs demo_strict demo_cov (obj p1) demo_parents _ rfl

/-- In a batch, with an input object. -/
example : ArgumentsOk schema leafs 0 [9]
    [("keys", .list [.obj [("id", .leaf "p1"), ("sku", .leaf "s1")], .obj [("id", .leaf "p2"), ("sku", .leaf "s2")]])] :=
  C74_arguments_partial (batch := true) demo_ok demo_plain (.object 0) rfl demo_key (by decide) (by decide)
    (by
      intro t ht ho
      rw [List.mem_singleton.1 ht] at ho
      cases ho)
    [] [(9, .value (.object [(6, .select 0 .identity), (7, .select 1 .identity)]))] (0, 1) rfl
    _ rfl reqs demo_strict demo_cov (.list [obj p1, obj p2]) demo_parents_all _ rfl

/-- With a `@oneOf` argument. -/
example : given false [item 0] [10] (obj p1) = .ok [("one", .obj [("id", .leaf "p1")])] := rfl

example : OneOfKey schema [item 0] [10] := by
  intro t ht _
  refine ⟨by decide, ?_⟩
  intro i hi
  cases hi
  rfl

example : ∀ a ∈ [(0, Arg.value (.select 0 .identity)), (1, .value (.select 1 .identity)), (2, .value (.default (.leaf "9")))],
    ∀ i ∈ [item 0, item 1], schema.fieldName i.id = (schema.input a.1).name →
    Suits (schema.input a.1).ty (schema.fieldTy i.id) → argReads a.2 = [[i.id]] :=
  (C74_once_partial (key := [item 0, item 1]) (args := [0, 1, 2]) demo_flat (by decide) (by decide) []
    [(0, .value (.select 0 .identity)), (1, .value (.select 1 .identity)), (2, .value (.default (.leaf "9")))] (0, 3) rfl _ rfl).2

/-! ## What goes wrong -/

/-- **A candidate that is gone.** For the key `id sku` and an argument of a `@oneOf` type with two input
objects, `pair: { id sku }` and `other: { x }`, the first is the only candidate; but when the second does not
match, the vector is truncated to what it was before the first. The range that is returned is past the end of the
vector: reading it panics. After two other lookups it is the injection of the second of them. -/
theorem C74_reset_false :
    detect schema false [item 0, item 1] [3] [] = .ok (some (1, 1), []) ∧ records [] (1, 1) = .panic ∧
    detect schema false [item 0] [0] [] = .ok (some (0, 1), [(0, .value (.select 0 .identity))]) ∧
    detect schema false [item 4] [18] [(0, .value (.select 0 .identity))] =
      .ok (some (1, 1), [(0, .value (.select 0 .identity)), (18, .value (.select 4 .identity))]) ∧
    records [(0, .value (.select 0 .identity)), (18, .value (.select 4 .identity))] (1, 1) =
      .ok [(18, .value (.select 4 .identity))] :=
  ⟨rfl, rfl, rfl, rfl, rfl⟩

/-- **Two fields of a `@oneOf` type.** `bulk: { ids: [ID!], codes: [ID] }` has two fields that the key `id` can be
given for: the second is chosen, although several are said to be refused. -/
theorem C74_oneof_ambiguous :
    given true [item 0] [12] (.list [obj p1, obj p2]) = .ok [("bulk", .obj [("codes", .list [.leaf "p1", .leaf "p2"])])] ∧
    (schema.input 13).name = "ids" ∧ oneOfValues schema true (item 0) [13, 14] [13, 14] =
      .ok (some [(13, .select 0 .identity), (14, .select 0 .identity)]) :=
  ⟨rfl, rfl, rfl⟩

/-- **One field for two arguments.** In a batch, the key `id` is given for both of `ids: [ID!]!` and
`codes: [ID]`, although at most one is said to match. -/
theorem C74_twice_false :
    given true [item 0] [15, 16] (.list [obj p1]) = .ok [("ids", .list [.leaf "p1"]), ("codes", .list [.leaf "p1"])] := rfl

theorem argumentsOk_one {t : Nat} {n : String} {j : Json} (h : ArgumentsOk schema leafs 0 [t] [(n, j)]) :
    Admits schema leafs 0 (schema.input t).ty.definition (schema.input t).ty.wrap j := by
  obtain ⟨l, hl, _, h2, _⟩ := h
  match l with
  | [] => cases hl
  | [p] =>
    have hp := h2 p List.mem_cons_self
    rw [List.mem_singleton.1 hp.1] at hp
    have : p.2 = j := by simp at hl; exact hl.2.symm
    rw [this] at hp
    exact hp.2
  | _ :: _ :: _ => cases hl

theorem not_oneOf {t id : Nat} {n : String} {es : List (String × Json)} (hid : (schema.input t).ty.definition = .input id)
    (ho : schema.oneOf id = true) (hes : ¬ ∃ e, es = [e] ∧ e.2 ≠ .null) : ¬ ArgumentsOk schema leafs 0 [t] [(n, .obj es)] := by
  intro h
  have hp := argumentsOk_one h
  generalize (schema.input t).ty.wrap = w at hp
  rw [hid] at hp
  cases hp with
  | scalar _ _ _ hd _ => cases hd
  | object _ _ _ _ _ _ _ _ h => exact hes (h ho)

/-- **A `@oneOf` type for a composite field.** For the key `owner { uid email }`, an argument
`owner: { uid email }` of a `@oneOf` type is filled with both fields. -/
theorem C74_both_false : ∃ es, given false [.mk 2 () [item 3, item 5]] [17] (obj p1) = .ok es ∧
    KeyOk schema (.object 0) [.mk 2 () [item 3, item 5]] ∧ ¬ ArgumentsOk schema leafs 0 [17] es :=
  ⟨[("owner", .obj [("uid", .leaf "u"), ("email", .leaf "e")])], rfl, demo_owner, not_oneOf rfl rfl (by
    rintro ⟨e, he, _⟩
    cases he)⟩

/-- **Null for a `@oneOf` type.** For a key that may be null, a field of a `@oneOf` type is given null. -/
theorem C74_null_false : ∃ es, given false [item 4] [10] (obj p1) = .ok es ∧
    Parents schema leafs (.object 0) reqs false (obj p1) ∧ ¬ ArgumentsOk schema leafs 0 [10] es :=
  ⟨[("one", .obj [("id", .null)])], rfl, demo_parents, not_oneOf rfl rfl (by
    rintro ⟨e, he, hn⟩
    cases he
    exact hn rfl)⟩

/-- **Sixty-five arguments.** The required arguments are bits of a word: the sixty-fifth is taken for the first,
and is not given. -/
theorem C74_many_false : ∃ args : List Nat, args.length = 65 ∧ 21 ∈ args ∧ (schema.input 21).default = none ∧
    (schema.input 21).ty.wrap.isNonNull = true ∧
    detect schema false [item 0, item 1] args [] =
      .ok (some (0, 1), [(20, .value (.object [(6, .select 0 .identity), (7, .select 1 .identity)]))]) :=
  ⟨[20] ++ (List.range 63).map (· + 22) ++ [21], by simp, by simp, rfl, rfl, rfl⟩

/-- A schema whose input fields are only for another subgraph. -/
def hidden : Schema := { schema with input := fun i => { schema.input i with internal := some 1 } }

/-- **Input fields of other subgraphs.** Fields of an input object that the subgraph does not know are filled. -/
theorem C74_hidden_false :
    detect hidden false [item 0, item 1] [20] [] =
      .ok (some (0, 1), [(20, .value (.object [(6, .select 0 .identity), (7, .select 1 .identity)]))]) ∧
    known hidden 0 1 = [] :=
  ⟨rfl, rfl⟩

/-- **Sixty-four fields.** A key with sixty-four fields panics. -/
theorem C74_wide_panic (S : Schema) (key : List (Item Unit)) (h : 64 ≤ key.length) (args : List Nat) (arena : List (Nat × Arg)) :
    detect S false key args arena = .panic := by
  rw [detect, allCandidates, direct, if_pos (.inr rfl), mapKey, if_pos h]
  rfl

end Demo

end Verif.AutoDetect
