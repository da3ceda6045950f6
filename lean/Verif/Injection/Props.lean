import Verif.Injection.ArgLemmas
import Verif.Injection.Witness

/-!
# C73: which values are injected into the arguments of a lookup
-/

namespace Verif.Injection

open Verif.Views

variable {S : Schema} {leaf : Def → Json → Prop} {subgraph : Nat}

theorem prepend_not_default (path : List Nat) {fs : List (Item Unit)} {inj : Inj} (h : ∀ j, inj ≠ .default j) :
    ∀ j, (prepend path (fs, inj)).2 ≠ .default j := by
  cases path with
  | nil => exact h
  | cons f path =>
    intro j
    rw [prepend]
    exact fun h => by cases h

theorem create_not_default : ∀ {s : Sel} {fs : List (Item Unit)} {inj : Inj}, create s = .ok (fs, inj) →
    ∀ j, inj ≠ .default j
  | .identity, fs, inj, h, j => by
    rw [create] at h
    cases h
    exact fun h => by cases h
  | .path first rest, fs, inj, h, j => by
    rw [create] at h
    have h := Out.ok.inj h
    cases rest with
    | nil =>
      rw [forPath] at h
      cases h
      exact fun h => by cases h
    | cons n rest =>
      rw [forPath] at h
      cases h
      exact fun h => by cases h
  | .object path fields, fs, inj, h, j => by
    rw [create] at h
    obtain ⟨⟨fs', kvs⟩, _, heq⟩ := Views.map_ok.1 h
    have := prepend_not_default path (fs := fs') (inj := .object (pushKeyValues kvs)) (fun j h => by cases h) j
    simp only at heq
    rw [heq] at this
    exact this
  | .list path item, fs, inj, h, j => by
    rw [create] at h
    obtain ⟨⟨fs', inj'⟩, hi, heq⟩ := Views.map_ok.1 h
    have := prepend_not_default path (fs := fs') (create_not_default hi) j
    rw [heq] at this
    exact this
  | .several, fs, inj, h, j => by
    rw [create] at h
    cases h

/-- The arguments with `@is`, then the others that have a default. -/
theorem injected_ids {present : List Nat} : ∀ {args : List Nat} {others : List (Nat × Arg)},
    otherArguments S present args = .ok others →
    others.map (·.1) = args.filter (fun i => !present.contains i && (S.input i).default.isSome)
  | [], others, h => by
    rw [otherArguments] at h
    cases h
    rfl
  | t :: ts, others, h => by
    rw [otherArguments] at h
    split at h
    · rename_i hp
      rw [injected_ids h, List.filter_cons_of_neg]
      simpa using fun h' => absurd hp (by simpa using h')
    · rename_i hp
      split at h
      · rename_i j hj
        obtain ⟨others', ho, rfl⟩ := Views.map_ok.1 h
        rw [List.filter_cons_of_pos (by simp [hj]; simpa using hp), List.map_cons, injected_ids ho]
      · rename_i hj
        split at h
        · cases h
        · rw [injected_ids h, List.filter_cons_of_neg]
          simp [hj]

theorem bindAll_ids {source : Ty} {is : Nat → Option Value} : ∀ {args : List Nat} {bs : List (Nat × Bound)},
    bindAll S subgraph source is args = .ok bs → bs.map (·.1) = args.filter (fun i => (is i).isSome)
  | [], bs, h => by
    rw [bindAll] at h
    cases h
    rfl
  | t :: ts, bs, h => by
    rw [bindAll] at h
    split at h
    · rename_i hi
      rw [bindAll_ids h, List.filter_cons_of_neg (by simp [hi])]
    · rename_i v hi
      obtain ⟨b, hb, h⟩ := bind_ok.1 h
      obtain ⟨bs', hbs, rfl⟩ := Views.map_ok.1 h
      rw [List.filter_cons_of_pos (by simp [hi]), List.map_cons, bindAll_ids hbs]

theorem explicit_exact {source : Ty} {args : List Nat} {is : Nat → Option Value} {fs : List (Item Unit)}
    {injected : List (Nat × Arg)} (h : explicit S subgraph source args is = .ok (.exact fs injected)) :
    ∃ bs args' others, bindAll S subgraph source is args = .ok bs ∧ createArgs [] bs = .ok (fs, args') ∧
      otherArguments S (args'.map (·.1)) args = .ok others ∧ injected = args' ++ others := by
  rw [explicit] at h
  obtain ⟨bs, hbs, h⟩ := bind_ok.1 h
  have key : ∀ bs, explicit.exactly S args bs = .ok (.exact fs injected) →
      ∃ args' others, createArgs [] bs = .ok (fs, args') ∧
        otherArguments S (args'.map (·.1)) args = .ok others ∧ injected = args' ++ others := by
    intro bs h
    rw [explicit.exactly] at h
    obtain ⟨⟨fs', args'⟩, h1, h⟩ := bind_ok.1 h
    obtain ⟨others, h2, h3⟩ := Views.map_ok.1 h
    cases h3
    exact ⟨args', others, h1, h2, rfl⟩
  split at h
  · cases h
  · split at h
    · obtain ⟨_, _, h⟩ := Views.map_ok.1 h
      cases h
    · obtain ⟨args', others, h1, h2, h3⟩ := key _ h
      exact ⟨_, args', others, hbs, h1, h2, h3⟩
  · obtain ⟨args', others, h1, h2, h3⟩ := key _ h
    exact ⟨_, args', others, hbs, h1, h2, h3⟩

theorem explicit_oneOf {source : Ty} {args : List Nat} {is : Nat → Option Value}
    {alts : List (List (Item Unit) × List (Nat × Arg))} (h : explicit S subgraph source args is = .ok (.oneOf alts)) :
    ∃ t ss, bindAll S subgraph source is args = .ok [(t, .value ss)] ∧ 2 ≤ ss.length ∧ isOneOf S t = true ∧
      oneOfAlternatives S args t ss = .ok alts := by
  rw [explicit] at h
  obtain ⟨bs, hbs, h⟩ := bind_ok.1 h
  have key : ∀ bs, explicit.exactly S args bs ≠ .ok (.oneOf alts) := by
    intro bs h
    rw [explicit.exactly] at h
    obtain ⟨⟨fs', args'⟩, h1, h⟩ := bind_ok.1 h
    obtain ⟨others, h2, h3⟩ := Views.map_ok.1 h
    cases h3
  split at h
  · cases h
  · split at h
    · rename_i ho
      obtain ⟨alts', h1, h2⟩ := Views.map_ok.1 h
      cases h2
      exact ⟨_, _, hbs, by simp, ho, h1⟩
    · exact absurd h (key _)
  · exact absurd h (key _)

/-! ## Exact injections -/

/-- **Which arguments are given.** When a lookup with `@is` is accepted, its arguments are those with `@is`
and, of the others, those that have a default; an argument without either may be null. -/
theorem C73_given {source : Ty} {args : List Nat} {is : Nat → Option Value} {fs : List (Item Unit)}
    {injected : List (Nat × Arg)} (h : explicit S subgraph source args is = .ok (.exact fs injected)) :
    injected.map (·.1) = args.filter (fun i => (is i).isSome) ++
      args.filter (fun i => !(is i).isSome && (S.input i).default.isSome) ∧
    ∀ i ∈ args, is i = none → (S.input i).default = none → (S.input i).ty.wrap.isNonNull = false := by
  obtain ⟨bs, args', others, h1, h2, h3, rfl⟩ := explicit_exact h
  have e1 := (createArgs_ok h2).1
  have e2 := bindAll_ids h1
  rw [e1, e2] at h3
  have hcontains : ∀ i ∈ args, (args.filter (fun i => (is i).isSome)).contains i = (is i).isSome := by
    intro i hi
    rw [Bool.eq_iff_iff]
    simp [hi]
  constructor
  · rw [List.map_append, e1, e2, injected_ids h3]
    congr 1
    apply List.filter_congr
    intro i hi
    rw [hcontains i hi]
  · intro i hi hn hd
    refine (otherArguments_ok h3).2.2.2 i hi ?_ hd
    intro hm
    have := (List.mem_filter.1 hm).2
    rw [hn] at this
    cases this

/-- **Exact injections.** When a lookup with `@is` is accepted, and the field selection maps are ones for
which the checks suffice, the arguments are what the field can be called with: for any objects of the entity
and any required fields that have those of the injection, every argument is of its type, none is given twice
and none that is required is missing. -/
theorem C73_exact_partial (hS : S.Ok leaf) (d : Def) (batch : Bool) (args : List Nat) (hn : args.Nodup)
    (is : Nat → Option Value) (hc : CleanIs S subgraph d batch is) (fs : List (Item Unit)) (injected : List (Nat × Arg))
    (h : explicit S subgraph (sourceOf d batch) args is = .ok (.exact fs injected))
    (reqs : List (Item Data)) (hs : Strict reqs) (hcov : ∀ p, HasPath p fs → HasPath p reqs)
    (parents : Val) (hp : Parents S leaf d reqs batch parents) (es : List (String × Json))
    (hes : arguments S reqs parents injected = .ok es) :
    ArgumentsOk S leaf subgraph args es := by
  obtain ⟨bs, args', others, h1, h2, h3, rfl⟩ := explicit_exact h
  obtain ⟨b1, _, b3⟩ := bindAll_ok h1
  obtain ⟨a1, _, a3⟩ := createArgs_ok h2
  refine argumentsOk hS hn (by rw [a1]; exact b1) h3 ?_ hes
  intro a ha j hj
  obtain ⟨b, hb, hb1, r, hr, hcov'⟩ := a3 a ha
  obtain ⟨⟨alternatives⟩, hv, hbind⟩ := b3 b hb
  rw [← hb1]
  rcases hc b.1 alternatives hv with hclean | ⟨hlen, _, _⟩
  · have hgood := (bindValue_good (leaf := leaf) hS _ d batch b.1 b.2 hbind (by rw [CleanTopValue]; exact hclean) false
      (fun h => by cases h)).2
    refine (hgood r a.2 hr reqs parents hs (fun p hp' => hcov p (hcov' p hp')) hp j ?_).1
    rw [bindValue] at hbind
    have hnd : ∀ j, a.2 ≠ .value (.default j) := by
      intro j' heq
      cases alternatives with
      | nil => cases hclean
      | cons e es' =>
        rw [CleanTops] at hclean
        rw [hclean.2, bindTops] at hbind
        rcases bindTop_single hbind with ⟨fields, hbe⟩ | ⟨s, hbe⟩
        · rw [hbe, createArg] at hr
          obtain ⟨_, _, hx⟩ := Views.map_ok.1 hr
          rw [heq] at hx
          cases hx
        · rw [hbe, createArg] at hr
          obtain ⟨⟨fs', inj⟩, hcr, hx⟩ := Views.map_ok.1 hr
          rw [heq] at hx
          cases hx
          exact create_not_default hcr j' rfl
    rw [topValue.eq_def] at hj
    split at hj
    · rename_i j' heq
      exact absurd heq (hnd j')
    · exact hj
  · exfalso
    rw [bindValue] at hbind
    match alternatives, hlen with
    | e :: e' :: es', _ =>
      rw [bindTops] at hbind
      · obtain ⟨ss, hss, hbe⟩ := Views.map_ok.1 hbind
        have hl := (bindAlternatives_length hss).1
        rw [← hbe, createArg] at hr
        obtain ⟨x, hcr, _⟩ := Views.map_ok.1 hr
        match ss, hl with
        | s :: s' :: ss', _ =>
          rw [single, create] at hcr
          · cases hcr
          · intro s h; cases h
      · intro h; cases h

/-! ## Alternatives -/

/-- **Alternatives.** When the alternatives for a `@oneOf` argument are accepted, each of them gives arguments
the field can be called with. -/
theorem C73_oneof_partial (hS : S.Ok leaf) (d : Def) (batch : Bool) (args : List Nat) (hn : args.Nodup)
    (is : Nat → Option Value) (hc : CleanIs S subgraph d batch is) (alts : List (List (Item Unit) × List (Nat × Arg)))
    (h : explicit S subgraph (sourceOf d batch) args is = .ok (.oneOf alts))
    (fs : List (Item Unit)) (injected : List (Nat × Arg)) (ha : (fs, injected) ∈ alts)
    (reqs : List (Item Data)) (hs : Strict reqs) (hcov : ∀ p, HasPath p fs → HasPath p reqs)
    (parents : Val) (hp : Parents S leaf d reqs batch parents) (es : List (String × Json))
    (hes : arguments S reqs parents injected = .ok es) :
    ArgumentsOk S leaf subgraph args es := by
  obtain ⟨t, ss, h1, hlen, ho, h2⟩ := explicit_oneOf h
  obtain ⟨b1, _, b3⟩ := bindAll_ok h1
  obtain ⟨⟨alternatives⟩, hv, hbind⟩ := b3 _ List.mem_cons_self
  obtain ⟨s, hsm, hs1⟩ := oneOfAlternatives_mem h2 _ ha
  have htm : t ∈ args := b1.subset (by simp)
  rw [bindValue] at hbind
  have halt : bindAlternatives S subgraph (sourceOf d batch) t (S.input t).ty.wrap alternatives = .ok ss ∧
      ∀ e ∈ alternatives, CleanAlternative S subgraph (sourceOf d batch) e := by
    match alternatives with
    | [] => rw [bindTops] at hbind; cases hbind
    | [e] =>
      rw [bindTops] at hbind
      rcases bindTop_single hbind with ⟨fields, hbe⟩ | ⟨s, hbe⟩
      · cases hbe
      · cases hbe
        simp at hlen
    | e :: e' :: es' =>
      rw [bindTops] at hbind
      · obtain ⟨ss', hss, hbe⟩ := Views.map_ok.1 hbind
        cases hbe
        refine ⟨hss, ?_⟩
        rcases hc t _ hv with hcl | hcl
        · rw [CleanTops] at hcl
          cases hcl.2
        · exact hcl.2.2
      · intro h; cases h
  obtain ⟨e, he, hbe⟩ := (bindAlternatives_length halt.1).2 s hsm
  have hclean := halt.2 e he
  rw [oneOfAlternative.eq_def] at hs1
  split at hs1
  · rename_i path i f
    have hcase : ∀ (hnd : ∀ j, f ≠ .default j), ((createValue f).bind fun result =>
        let (fs, inj) := prepend path result
        (otherArguments S [t] args).map fun others => (fs, (t, Arg.object [(i, .value inj)]) :: others)) =
          .ok (fs, injected) → ArgumentsOk S leaf subgraph args es := by
      intro hnd hs1
      obtain ⟨⟨fs1, inj1⟩, hcv, hs1⟩ := bind_ok.1 hs1
      obtain ⟨others, hoth, heq⟩ := Views.map_ok.1 hs1
      cases heq
      refine argumentsOk hS hn (injected := [(t, Arg.object [(i, .value (prepend path (fs1, inj1)).2)])])
        (others := others) ?_ hoth ?_ hes
      · exact List.singleton_sublist.2 htm
      · intro a ha' j hj
        rw [List.mem_singleton.1 ha'] at hj ⊢
        exact alternative_good hS hbe hclean ho hcv hnd hs hcov hp hj
    cases f with
    | default j => cases hs1
    | value s => exact hcase (fun j h => by cases h) hs1
    | field g => exact hcase (fun j h => by cases h) hs1
  · cases hs1
  · cases hs1

/-! ## Cases -/

open Demo

/-- What is accepted for the argument `t`, and the arguments for the objects. -/
def given (d : Def) (batch : Bool) (t : Nat) (v : Value) (parents : Val) : Out (List (String × Json)) :=
  (explicit schema 0 (sourceOf d batch) [t] (isAt t v)).bind fun
    | .exact _ injected => arguments schema reqs parents injected
    | _ => .err

theorem demo_ok : schema.Ok leafs where
  ids := by
    intro id
    show ((match id with | 0 => [3, 4] | 1 => [6, 7] | 2 => [11, 12] | _ => []) : List Nat).Nodup
    split <;> decide
  names := by
    intro id
    show ∀ i ∈ ((match id with | 0 => [3, 4] | 1 => [6, 7] | 2 => [11, 12] | _ => []) : List Nat), ∀ j ∈ _, _
    match id with
    | 0 => decide
    | 1 => decide
    | 2 => decide
    | _ + 3 => intro i hi; cases hi
  defaults := by
    intro subgraph i j h
    match i with
    | 0 => cases h
    | 1 => cases h
    | 2 => cases h
    | 3 => cases h
    | 4 => cases h; exact .scalar _ _ _ rfl ⟨_, rfl⟩
    | 5 => cases h
    | 6 => cases h
    | 7 => cases h
    | 8 => cases h
    | 9 => cases h
    | 10 => cases h
    | 11 => cases h
    | 12 => cases h; exact .scalar _ _ _ rfl ⟨_, rfl⟩
    | _ + 13 => cases h; exact .scalar _ _ _ rfl ⟨_, rfl⟩
  oneOf := by
    intro id h i hi
    have : id = 1 := by
      have h' : (id == 1) = true := h
      simpa using h'
    subst this
    have h' : i ∈ [6, 7] := hi
    simp at h'
    rcases h' with rfl | rfl <;> rfl
  leaf := by
    rintro d ⟨s, h⟩
    cases h

example : given (.object 0) false 2 (one (.object none [.short "id"])) (obj p1) =
    .ok [("key", .obj [("id", .leaf "p1"), ("n", .leaf "5")])] := rfl
example : given (.object 0) true 1 (one (.list none (one (.path (path ["id"]))))) (.list [obj p1, obj p2]) =
    .ok [("ids", .list [.leaf "p1", .leaf "p2"])] := rfl
example : given (.object 0) true 8 (one (.list none (one (.object none [.short "id"])))) (.list [obj p1, obj p2]) =
    .ok [("keys", .list [.obj [("n", .leaf "5"), ("id", .leaf "p1")], .obj [("n", .leaf "5"), ("id", .leaf "p2")]])] := rfl

/-- The required fields of `Product`, all of them. -/
theorem demo_user (s : String) (r : Bool) (reqs : List (Item Data)) (h : reqs = [.mk 3 (dat 3 "uid") []]) :
    ValOk schema leafs (.object 1) (.named r) reqs (user s) := by
  subst h
  refine .object (.object 1) r _ ⟨some 1, [(3, .leaf s)]⟩ 1 rfl (by simp [possible]) ?_ ?_
  · intro i hi _ _ _ _ _
    rw [List.mem_singleton.1 hi]
    rfl
  · intro i hi v hv
    rw [List.mem_singleton.1 hi] at hv ⊢
    cases hv
    exact .scalar _ _ _ _ rfl (fun k j hj => by rw [forward] at hj; cases hj; exact ⟨s, rfl⟩)

theorem demo_product (d : Def) (hd : d.isComposite = true) (hp : 0 ∈ possible schema d) (s : String) (owner : Val)
    (tags : List Val) (ho : ValOk schema leafs (.object 1) (.named false) [.mk 3 (dat 3 "uid") []] owner)
    (ht : ∀ v ∈ tags, ValOk schema leafs (.object 1) (.named true) [.mk 3 (dat 3 "uid") []] v) (r : Bool) :
    ValOk schema leafs d (.named r) reqs (obj (product s owner tags)) := by
  refine .object d r _ (product s owner tags) 0 hd hp ?_ ?_
  · intro i hi _ _ _ _ _
    simp only [reqs, List.mem_cons, List.not_mem_nil, or_false] at hi
    rcases hi with rfl | rfl | rfl <;> rfl
  · intro i hi v hv
    simp only [reqs, List.mem_cons, List.not_mem_nil, or_false] at hi
    rcases hi with rfl | rfl | rfl
    · cases hv
      exact .scalar _ _ _ _ rfl (fun k j hj => by rw [forward] at hj; cases hj; exact ⟨s, rfl⟩)
    · cases hv
      exact ho
    · cases hv
      exact .list _ _ _ _ _ ht

theorem demo_p1 (r : Bool) : ValOk schema leafs (.object 0) (.named r) reqs (obj p1) :=
  demo_product _ rfl (by simp [possible]) _ _ _ (.null _ _ _ rfl) (by
    intro v hv
    simp only [List.mem_cons, List.not_mem_nil, or_false] at hv
    rcases hv with rfl | rfl
    · exact demo_user _ _ _ rfl
    · exact demo_user _ _ _ rfl) r

theorem demo_p2 (r : Bool) : ValOk schema leafs (.object 0) (.named r) reqs (obj p2) :=
  demo_product _ rfl (by simp [possible]) _ _ _ (demo_user _ _ _ rfl) (by simp) r

theorem demo_parents : Parents schema leafs (.object 0) reqs false (obj p1) := .one p1 (demo_p1 true)

theorem demo_parents_all : Parents schema leafs (.object 0) reqs true (.list [obj p1, obj p2]) :=
  .all [p1, p2] (by
    intro o ho
    simp only [List.mem_cons, List.not_mem_nil, or_false] at ho
    rcases ho with rfl | rfl
    · exact demo_p1 true
    · exact demo_p2 true)

theorem demo_strict : Strict reqs := by
  refine .cons _ _ .nil (by decide) (.cons _ _ (.cons _ _ .nil (by simp) .nil) (by decide)
    (.cons _ _ (.cons _ _ .nil (by simp) .nil) (by simp) .nil))

/-- The key `{ id }` is as it should be. -/
theorem demo_clean : CleanIs schema 0 (.object 0) false (isAt 2 (one (.object none [.short "id"]))) := by
  intro t alternatives h
  rw [isAt] at h
  split at h
  · rename_i ht
    cases h
    have : t = 2 := by simpa using ht
    subst this
    left
    refine ⟨⟨rfl, fun h => (by cases h), fun h => (by cases h), ?_, trivial⟩, rfl⟩
    show CleanField schema 0 (sourceOf (.object 0) false) (isOneOf schema 2) (.short "id")
    rw [CleanField]
    intro h
    cases h
  · cases h

/-- `C73_exact_partial` for a call of a lookup with `@is(field: "{ id }")`. -/
example : ArgumentsOk schema leafs 0 [2] [("key", .obj [("id", .leaf "p1"), ("n", .leaf "5")])] :=
  C73_exact_partial demo_ok (.object 0) false [2] (by simp) _ demo_clean [.mk 0 () []]
    [(2, .object [(3, .value (.select 0 .identity)), (4, .value (.default (.leaf "5")))])] rfl reqs demo_strict
    (by
      intro p hp
      match p with
      | [] => trivial
      | i :: p =>
        obtain ⟨it, hit, hi, hrest⟩ := hp
        rw [List.mem_singleton.1 hit] at hi hrest
        cases p with
        | nil => exact ⟨_, List.mem_cons_self, hi, trivial⟩
        | cons k p =>
          obtain ⟨it', hit', _⟩ := hrest
          cases hit')
    (obj p1) demo_parents _ rfl

/-- `C73_oneof_partial`: the alternatives of a `@oneOf` argument, in a batch with the ids of a list. -/
theorem demo_alternatives : CleanIs schema 0 (.object 0) false (isAt 5 (.mk [.object none [.long "a" (one (.path (path ["id"])))],
    .object none [.long "b" (one (.path (path ["id"])))]])) := by
  intro t alternatives h
  rw [isAt] at h
  split at h
  · rename_i ht
    cases h
    have : t = 5 := by simpa using ht
    subst this
    right
    refine ⟨by simp, rfl, ?_⟩
    intro e he
    have key : ∀ name, (∀ t, (schema.input t).name = name → (schema.input t).ty.wrap = .named false) →
        CleanAlternative schema 0 (sourceOf (.object 0) false) (.object none [.long name (one (.path (path ["id"])))]) := by
      intro name hname
      refine ⟨trivial, ?_⟩
      intro fs source' hb
      cases hb
      refine ⟨rfl, ?_⟩
      rw [CleanField]
      refine ⟨fun _ => ?_, ?_⟩
      · show ∀ e ∈ [Entry.path (path ["id"])], NonNullEntry schema (sourceOf (.object 0) false) e
        intro e he
        rw [List.mem_singleton.1 he]
        intro fs ty hb
        cases hb
        rfl
      · intro t ht
        refine ⟨⟨⟨by simp [path], fun d' h t ht => (by cases h; exact ht), ?_⟩, ?_⟩, rfl⟩
        · intro d h
          cases h
          intro ids f d' h1 h2 h3
          cases h1
          cases h2
          cases h3
          exact ⟨fun h => absurd rfl h, fun d' h t ht => (by cases h; exact ht), trivial⟩
        · intro fs ty hb
          cases hb
          rw [hname t ht]
          rfl
    have hname : ∀ t, (schema.input t).name = "a" ∨ (schema.input t).name = "b" →
        (schema.input t).ty.wrap = .named false := by
      intro t ht
      match t with
      | 0 | 1 | 2 | 3 | 4 | 5 | 8 | 9 | 10 | 11 | 12 => revert ht; decide
      | 6 => rfl
      | 7 => rfl
      | _ + 13 => revert ht; simp [schema]
    simp only [List.mem_cons, List.not_mem_nil, or_false] at he
    rcases he with rfl | rfl
    · exact key "a" (fun t ht => hname t (.inl ht))
    · exact key "b" (fun t ht => hname t (.inr ht))
  · cases h

example : ∃ alts, explicit schema 0 (sourceOf (.object 0) false) [5] (isAt 5 (.mk
    [.object none [.long "a" (one (.path (path ["id"])))], .object none [.long "b" (one (.path (path ["id"])))]])) =
      .ok (.oneOf alts) ∧ alts.map (fun a => a.2.map (·.1)) = [[5], [5]] := ⟨_, rfl, rfl⟩

/-! ## What the checks do not see -/

theorem argumentsOk_one {t : Nat} {n : String} {j : Json} (h : ArgumentsOk schema leafs 0 [t] [(n, j)]) :
    Admits schema leafs 0 (schema.input t).ty.definition (schema.input t).ty.wrap j := by
  obtain ⟨l, hl, _, h2, _⟩ := h
  match l with
  | [] => cases hl
  | [p] =>
    have hp := h2 p List.mem_cons_self
    rw [List.mem_singleton.1 hp.1] at hp
    have : p.2 = j := by simp at hl; exact hl.2.symm
    rw [this] at hp
    exact hp.2
  | _ :: _ :: _ => cases hl

theorem not_null_required (t : Def) (h : t.isLeaf = true) : ¬ Admits schema leafs 0 t (.named true) .null := by
  intro h'
  cases h' with
  | null _ _ h => cases h
  | scalar _ _ _ _ h => obtain ⟨_, h⟩ := h; cases h

/-- **A path through something that may be null.** `owner.uid` is accepted for a required argument although
`owner` is nullable: the field is called with null. -/
theorem C73_nullable_false : ∃ es, given (.object 0) false 0 (one (.path (path ["owner", "uid"]))) (obj p1) = .ok es ∧
    Parents schema leafs (.object 0) reqs false (obj p1) ∧ ¬ ArgumentsOk schema leafs 0 [0] es := by
  refine ⟨[("id", .null)], rfl, demo_parents, ?_⟩
  intro h
  have hp := argumentsOk_one h
  exact not_null_required _ rfl hp

/-- **A path through a list.** `tags.uid` is accepted for an argument that is no list: the field is called with
a list. -/
theorem C73_list_path_false : ∃ es, given (.object 0) false 0 (one (.path (path ["tags", "uid"]))) (obj p1) = .ok es ∧
    Parents schema leafs (.object 0) reqs false (obj p1) ∧ ¬ ArgumentsOk schema leafs 0 [0] es := by
  refine ⟨[("id", .list [.leaf "u1", .leaf "u2"])], rfl, demo_parents, ?_⟩
  intro h
  have hp := argumentsOk_one h
  generalize hw : (schema.input 0).ty.wrap = w at hp
  cases hp with
  | list => cases hw
  | scalar _ _ _ _ h => obtain ⟨_, h⟩ := h; cases h

/-- **An object for a list.** `{ id }` is accepted for an argument that is a list of objects: the field is
called with an object. -/
theorem C73_object_for_list_false : ∃ es, given (.object 0) false 8 (one (.object none [.short "id"])) (obj p1) = .ok es ∧
    Parents schema leafs (.object 0) reqs false (obj p1) ∧ ¬ ArgumentsOk schema leafs 0 [8] es := by
  refine ⟨[("keys", .obj [("id", .leaf "p1"), ("n", .leaf "5")])], rfl, demo_parents, ?_⟩
  intro h
  have hp := argumentsOk_one h
  generalize hw : (schema.input 8).ty.wrap = w at hp
  generalize hd : (schema.input 8).ty.definition = d at hp
  cases hp with
  | scalar => cases hw
  | object => cases hw

/-- **A `@oneOf` object without a field, or with null.** `{ }` and `{ a: owner.uid }` are accepted for a
`@oneOf` argument: the field is called with an object without an entry, or with one whose entry is null. -/
theorem C73_oneof_false :
    (∃ es, given (.object 0) false 5 (one (.object none [])) (obj p1) = .ok es ∧ ¬ ArgumentsOk schema leafs 0 [5] es) ∧
    (∃ es, given (.object 0) false 5 (one (.object none [.long "a" (one (.path (path ["owner", "uid"])))])) (obj p1) =
      .ok es ∧ ¬ ArgumentsOk schema leafs 0 [5] es) := by
  have key : ∀ es : List (String × Json), (¬ ∃ e, es = [e] ∧ e.2 ≠ .null) →
      ¬ ArgumentsOk schema leafs 0 [5] [("one", .obj es)] := by
    intro es hes h
    have hp := argumentsOk_one h
    generalize hd : (schema.input 5).ty.definition = d at hp
    generalize hw : (schema.input 5).ty.wrap = w at hp
    cases hp with
    | scalar _ _ _ _ h => obtain ⟨_, h⟩ := h; cases h
    | object id _ _ _ _ _ _ _ h =>
      cases hd
      exact hes (h rfl)
  refine ⟨⟨_, rfl, key _ ?_⟩, ⟨_, rfl, key _ ?_⟩⟩
  · rintro ⟨e, he, _⟩
    cases he
  · rintro ⟨e, he, hn⟩
    cases he
    exact hn rfl

/-- **Defaults in a batch.** In a batch, `{ ids: [id] }` is accepted for an input object with another field
that has a default: the field is called with a list of defaults, one for each entity. -/
theorem C73_batch_default_false : ∃ es,
    given (.object 0) true 10 (one (.object none [.long "ids" (one (.list none (one (.path (path ["id"])))))]))
      (.list [obj p1, obj p2]) = .ok es ∧
    Parents schema leafs (.object 0) reqs true (.list [obj p1, obj p2]) ∧
    es = [("bulk", .obj [("ids", .list [.leaf "p1", .leaf "p2"]), ("n", .list [.leaf "5", .leaf "5"])])] ∧
    ¬ ArgumentsOk schema leafs 0 [10] es := by
  refine ⟨_, rfl, demo_parents_all, rfl, ?_⟩
  intro h
  have hp := argumentsOk_one h
  generalize hd : (schema.input 10).ty.definition = d at hp
  generalize hw : (schema.input 10).ty.wrap = w at hp
  cases hp with
  | scalar _ _ _ _ h => obtain ⟨_, h⟩ := h; cases h
  | object id _ _ ids _ hf ht _ _ =>
    cases hd
    have hmem : ("n", Json.list [.leaf "5", .leaf "5"]) ∈ [("ids", Json.list [.leaf "p1", .leaf "p2"]),
      ("n", .list [.leaf "5", .leaf "5"])] := by simp
    have h1 := hf _ hmem
    have h3 := ht _ hmem
    have hk : ids "n" ∈ [11, 12] := h1.1
    have hi : ids "n" = 12 := by
      rcases List.mem_cons.1 hk with h | h
      · have := h1.2
        simp only at this
        rw [h] at this
        exact absurd this (by decide)
      · exact List.mem_singleton.1 h
    simp only at h3
    rw [hi] at h3
    generalize hd3 : (schema.input 12).ty.definition = d3 at h3
    generalize hw3 : (schema.input 12).ty.wrap = w3 at h3
    cases h3 with
    | list => cases hw3
    | scalar _ _ _ _ h => obtain ⟨_, h⟩ := h; cases h

/-- A draft, which has no `id`. -/
def draft : Obj := ⟨some 2, []⟩

theorem demo_draft : Parents schema leafs (.interface 0) reqs true (.list [obj p1, obj draft]) :=
  .all [p1, draft] (by
    intro o ho
    simp only [List.mem_cons, List.not_mem_nil, or_false] at ho
    rcases ho with rfl | rfl
    · exact demo_product _ rfl (by simp [possible, schema]) _ _ _ (.null _ _ _ rfl) (by
        intro v hv
        simp only [List.mem_cons, List.not_mem_nil, or_false] at hv
        rcases hv with rfl | rfl
        · exact demo_user _ _ _ rfl
        · exact demo_user _ _ _ rfl) true
    · refine .object (.interface 0) true _ draft 2 rfl (by simp [possible, schema]) ?_ ?_
      · intro i hi e fs he hif hp
        exfalso
        simp only [reqs, List.mem_cons, List.not_mem_nil, or_false] at hi
        cases e with
        | object id =>
          have : id = 2 := (List.mem_singleton.1 hp).symm
          subst this
          cases he
          cases hif
        | interface id =>
          cases he
          have hif : i.id ∈ [4] := hif
          rcases hi with rfl | rfl | rfl <;> revert hif <;> decide
        | scalar => cases he
        | enum => cases he
        | union => cases he
        | input => cases he
      · intro i _ v hv
        cases hv)

/-- **A type condition that does not apply.** For an interface, `[{ id: <Product>.id }]` is accepted although
its other objects have no `id`: for one of them the required field is left out. -/
theorem C73_condition_false : ∃ es,
    given (.interface 0) true 8 (one (.list none (one (.object none
      [.long "id" (one (.path ⟨some "Product", [seg "id"]⟩))])))) (.list [obj p1, obj draft]) = .ok es ∧
    Parents schema leafs (.interface 0) reqs true (.list [obj p1, obj draft]) ∧
    es = [("keys", .list [.obj [("n", .leaf "5"), ("id", .leaf "p1")], .obj [("n", .leaf "5")]])] ∧
    ¬ ArgumentsOk schema leafs 0 [8] es := by
  refine ⟨[("keys", .list [.obj [("n", .leaf "5"), ("id", .leaf "p1")], .obj [("n", .leaf "5")]])], rfl, demo_draft, rfl, ?_⟩
  intro h
  have hp := argumentsOk_one h
  generalize hd : (schema.input 8).ty.definition = d at hp
  generalize hw : (schema.input 8).ty.wrap = w at hp
  cases hp with
  | scalar => cases hw
  | list _ _ w _ h =>
    cases hw
    have h1 := h (.obj [("n", .leaf "5")]) (by simp)
    cases h1 with
    | scalar _ _ _ _ h => obtain ⟨_, h⟩ := h; cases h
    | object id _ _ _ _ _ _ hr _ =>
      cases hd
      have := hr 3 (by decide) rfl rfl
      revert this
      decide

/-- **An object made of a list.** `tags.{ ids: [uid] }` is accepted for an argument that is no list: the field
is called with a list of objects. -/
theorem C73_object_of_list_false : ∃ es,
    given (.object 0) false 10 (one (.object (some (path ["tags"])) [.long "ids" (one (.list none (one (.path (path ["uid"])))))]))
      (obj p1) = .ok es ∧
    Parents schema leafs (.object 0) reqs false (obj p1) ∧ ¬ ArgumentsOk schema leafs 0 [10] es := by
  refine ⟨_, rfl, demo_parents, ?_⟩
  intro h
  have hp := argumentsOk_one h
  generalize hd : (schema.input 10).ty.definition = d at hp
  generalize hw : (schema.input 10).ty.wrap = w at hp
  cases hp with
  | list => cases hw
  | scalar _ _ _ _ h => obtain ⟨_, h⟩ := h; cases h

/-- **Alternatives that are lists** make the build of the schema panic. -/
theorem C73_alternatives_panic : explicit schema 0 (sourceOf (.object 0) true) [9]
    (isAt 9 (.mk [.list none (one (.object none [.long "a" (one (.path (path ["id"])))])),
      .list none (one (.object none [.long "b" (one (.path (path ["id"])))]))])) = .panic := rfl

end Verif.Injection
