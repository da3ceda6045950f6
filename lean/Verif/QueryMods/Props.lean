import Verif.QueryMods.Closure
import Verif.QueryMods.Shapes
/-!
# C60: directives and denials change exactly what is shown and requested
-/
namespace Verif.QueryMods

/-- The builder before anything was evaluated: the fields of the plan that are part of the response. -/
def start (data typenames : Nat → Bool) : Builder := ⟨data, typenames, [], [], []⟩

/-! ## Shown -/

/-- A data field or `__typename` stays in the response exactly if the directives of every modifier on
it let it through. -/
theorem C60_shown {vars : Nat → Bool} {ms : List Modifier} {b b' : Builder}
    (h : handleNative vars b ms = some b') :
    (∀ i, b'.data i = true ↔ b.data i = true ∧ Kept vars ms (.data i)) ∧
      (∀ i, b'.typenames i = true ↔ b.typenames i = true ∧ Kept vars ms (.typename i)) ∧
      b'.errors = b.errors ∧ b'.root = b.root ∧ b'.denied = b.denied :=
  let p := handleNative_post h
  ⟨p.data, p.typ, p.rest⟩

/-- `{ a @include(if: $v0) @skip(if: $v1)  b  __typename @skip(if: true) }`. -/
def exNative : List Modifier :=
  [⟨.executable [.include (.var 0), .skip (.var 1)], false, [.data 0]⟩,
   ⟨.executable [.skip (.lit true)], false, [.typename 0]⟩]

example : ((handleNative (fun v => v = 0) (start (fun _ => true) fun _ => true) exNative).map fun b =>
    (b.data 0, b.data 1, b.typenames 0)) = some (true, true, false) := by decide
example : ((handleNative (fun _ => true) (start (fun _ => true) fun _ => true) exNative).map fun b =>
    (b.data 0, b.data 1, b.typenames 0)) = some (false, true, false) := by decide

/-- Evaluating the directives panics exactly for an extension rule or for a lookup field to skip. -/
theorem C60_native_panics {vars : Nat → Bool} {ms : List Modifier} {b : Builder} :
    handleNative vars b ms = none ↔
      ∃ m ∈ ms, m.rule = .extension ∨
        ∃ ds i, m.rule = .executable ds ∧ ¬ Lets vars ds ∧ PField.lookup i ∈ m.impacted := by
  induction ms generalizing b with
  | nil => simp [handleNative]
  | cons m t ih =>
    have one : (∃ b', native1 vars b m = some b') ↔
        ¬ (m.rule = .extension ∨ ∃ ds i, m.rule = .executable ds ∧ ¬ Lets vars ds ∧ PField.lookup i ∈ m.impacted) := by
      unfold native1
      cases hm : m.rule with
      | extension => simp
      | executable ds =>
        cases hs : ds.any (Directive.skips vars) with
        | true =>
          have hl : ¬ Lets vars ds := by rw [← lets_iff]; simp [hs]
          simp only [hs, if_true, skipField_some]
          constructor
          · rintro h (h' | ⟨ds', i, h1, h2, h3⟩)
            · cases h'
            · exact h i h3
          · intro h i hi
            exact h (Or.inr ⟨ds, i, rfl, hl, hi⟩)
        | false =>
          have hl : Lets vars ds := lets_iff.1 hs
          simp only [hs, Bool.false_eq_true, if_false, Option.some.injEq, exists_eq', true_iff]
          rintro (h' | ⟨ds', i, h1, h2, h3⟩)
          · cases h'
          · cases h1; exact h2 hl
    simp only [handleNative, List.mem_cons, exists_eq_or_imp]
    cases h1 : native1 vars b m with
    | none =>
      simp only [Option.bind_none, true_iff]
      left
      apply Classical.byContradiction
      intro hc
      obtain ⟨b', hb'⟩ := one.2 hc
      rw [h1] at hb'; cases hb'
    | some b1 =>
      simp only [Option.bind_some, ih]
      have := one.1 ⟨b1, h1⟩
      constructor
      · exact Or.inr
      · rintro (h | h)
        · exact absurd h this
        · exact h

/-! ## Denied -/

/-- The decisions of all extensions together: a field or the root is denied with an error exactly if
some decision denies with that error a record it belongs to; errors are numbered in the order they
come; what is shown does not change. -/
theorem C60_denials {recs : List Modifier} {ds : List (Nat × Nat × Decisions)} {b b' : Builder}
    (h : decideAll recs b ds = some b') (h0 : b.denied = [] ∧ b.root = []) :
    (∀ f e, (f, e) ∈ b'.denied ↔ DeniesField recs ds b.errors.length f e) ∧
      (∀ e, e ∈ b'.root ↔ ∃ j m, Denies ds b.errors.length j e ∧ recs[j]? = some m ∧ m.root = true) ∧
      b'.errors = b.errors ++ ds.flatMap (fun d => errorsOf d.2.2) ∧
      b'.data = b.data ∧ b'.typenames = b.typenames := by
  obtain ⟨p, p5⟩ := decideAll_post h
  refine ⟨?_, ?_, p5, p.data, p.typ⟩
  · intro f e; rw [p.denied, h0.1]; simp [DeniesField]
  · intro e; rw [p.root, h0.2]; simp

def exRecs : List Modifier :=
  [⟨.extension, false, [.data 0, .data 2]⟩, ⟨.extension, true, [.data 1]⟩, ⟨.extension, false, [.data 3]⟩]

example : (decideAll exRecs (start (fun _ => true) fun _ => true)
      [(0, 1, .denyAll 70), (1, 3, .denySome [(0, 1), (1, 0)] [80, 81])]).map
      (fun b => (b.denied, b.root, b.errors)) =
    some ([(0, 0), (2, 0), (1, 2), (3, 1)], [2], [70, 80, 81]) := by decide

/-- The engine panics on the decisions exactly if one of them is not fine: an element outside of the
range asked about, 65535 errors or more, or a denied rule on something else than a data field. -/
theorem C60_decisions_panic {recs : List Modifier} {ds : List (Nat × Nat × Decisions)} {b : Builder} :
    decideAll recs b ds = none ↔
      ∃ before start stop d after, ds = before ++ (start, stop, d) :: after ∧
        ¬ Fine1 recs (b.errors.length + offset before) start stop d := by
  have := decideAll_some (recs := recs) (ds := ds) (b := b)
  cases h : decideAll recs b ds with
  | none =>
    simp only [true_iff]
    apply Classical.byContradiction
    intro hc
    obtain ⟨b', hb'⟩ := this.2 (by
      intro before s s' d after heq
      apply Classical.byContradiction
      intro hf
      exact hc ⟨before, s, s', d, after, heq, hf⟩)
    rw [h] at hb'; cases hb'
  | some b' =>
    simp only [reduceCtorEq, false_iff]
    rintro ⟨before, s, s', d, after, heq, hf⟩
    exact hf (this.1 ⟨b', h⟩ before s s' d after heq)

/-- An extension that names an element it was not given. -/
example : decideAll exRecs (start (fun _ => true) fun _ => true) [(0, 1, .denySome [(1, 0)] [80])] = none := by
  decide

/-! ## Requested -/

/-- When the loop ends, a data field is requested from its subgraph exactly if it is needed: shown and
not denied, or required (by a shown field, by its authorization, by a query partition or by a required
field), or the source of a derived field. -/
theorem C60_requested {p : Plan} {resp : Nat → Bool} {denied : List (Nat × Nat)} {fuel : Nat} {b : Nat → Bool}
    (h : requested p resp denied fuel = some b) (i : Nat) :
    b i = true ↔ Needed p resp (fun i => ∃ e, (i, e) ∈ denied) i :=
  ⟨closure_sound (initial_sound denied) h i, closure_complete (initial_inv denied) h i⟩

/-- A denied field is requested only for others. -/
theorem C60_denied_requested {p : Plan} {resp : Nat → Bool} {denied : List (Nat × Nat)} {fuel : Nat}
    {b : Nat → Bool} (h : requested p resp denied fuel = some b) {f e : Nat} (hd : (f, e) ∈ denied)
    (hb : b f = true) :
    (∃ r it, Req p resp r ∧ it ∈ r ∧ it.field = f) ∨ Src p resp f := by
  cases (C60_requested h f).1 hb with
  | shown _ h2 => exact absurd ⟨e, hd⟩ h2
  | required h1 h2 => exact Or.inl ⟨_, _, h1, h2, rfl⟩
  | source h1 h2 h3 => exact Or.inr (Or.inl ⟨_, h1, h2, h3⟩)
  | sourceItem h1 h2 h3 => exact Or.inr (Or.inr ⟨_, _, h1, h2, h3⟩)

/-- If no field requires itself the loop ends. -/
theorem C60_terminates_partial {p : Plan} (hac : Acyclic p) (resp : Nat → Bool) (denied : List (Nat × Nat)) :
    ∃ N, ∀ fuel, N ≤ fuel → ∃ b, requested p resp denied fuel = some b :=
  closure_ends hac _

/-- Field 0 is shown and requires `1 { 2 }`; 2 requires 3; 4 is shown and derived from 5, which is
hidden and requires 6; 7 is shown but denied. -/
def exPlan : Plan :=
  { fields := [⟨[.mk 1 [.mk 2 []]], [], none⟩, .empty, ⟨[.mk 3 []], [], none⟩, .empty, ⟨[], [], some 5⟩,
      ⟨[.mk 6 []], [], none⟩, .empty, .empty]
    partitions := [[.mk 3 []]] }
def exResp : Nat → Bool := fun i => i = 0 || i = 4 || i = 7

example : (requested exPlan exResp [(7, 0)] 20).map (fun b => (List.range 9).map b) =
    some [true, true, true, true, true, true, true, false, false] := by decide

example : Acyclic exPlan := by
  refine ⟨fun i => if i = 0 then 3 else if i = 2 then 2 else if i = 5 then 2 else 1, ?_⟩
  intro i f h
  have hcase : i = 0 ∨ i = 2 ∨ i = 5 ∨ (exPlan.field i).req = [] := by
    match i with
    | 0 => simp
    | 1 => simp [exPlan, Plan.field, Field.empty]
    | 2 => simp
    | 3 => simp [exPlan, Plan.field, Field.empty]
    | 4 => simp [exPlan, Plan.field]
    | 5 => simp
    | 6 => simp [exPlan, Plan.field, Field.empty]
    | 7 => simp [exPlan, Plan.field, Field.empty]
    | i + 8 => simp [exPlan, Plan.field, Field.empty]
  have nil : ∀ l : List Item, l = [] → ¬ Occurs f l := by
    rintro l rfl h
    cases h with
    | top h => simp at h
    | deep h _ => simp at h
  rcases hcase with rfl | rfl | rfl | h0
  · simp only [exPlan, Plan.field, List.getElem?_cons_zero, Option.getD_some] at h
    cases h with
    | top h => simp only [List.mem_singleton] at h; subst h; simp [Item.field]
    | deep h h' =>
      simp only [List.mem_singleton] at h
      subst h
      cases h' with
      | top h => simp only [Item.sub, List.mem_singleton] at h; subst h; simp [Item.field]
      | deep h h' =>
        simp only [Item.sub, List.mem_singleton] at h
        subst h
        exact absurd h' (nil _ rfl)
  · simp only [exPlan, Plan.field] at h
    cases h with
    | top h => simp at h; subst h; simp [Item.field]
    | deep h h' => simp at h; subst h; exact absurd h' (nil _ rfl)
  · simp only [exPlan, Plan.field] at h
    cases h with
    | top h => simp at h; subst h; simp [Item.field]
    | deep h h' => simp at h; subst h; exact absurd h' (nil _ rfl)
  · exact absurd h (nil _ h0)

/-- A field that requires itself keeps the loop running for ever. -/
theorem C60_cyclic_loops :
    ∃ p resp, ∀ denied fuel, requested p resp denied fuel = none := by
  let p : Plan := ⟨[⟨[.mk 0 []], [], none⟩], []⟩
  refine ⟨p, fun i => i = 0, ?_⟩
  have hreq : (p.field 0).req = [.mk 0 []] := rfl
  have hpop : ∀ fuel (s : St), (∃ r ∈ s.reqs, r = [Item.mk 0 []]) → popLoop p fuel s = none := by
    intro fuel
    induction fuel with
    | zero =>
      rintro s ⟨r, hr, -⟩
      rw [popLoop.eq_def]
      cases hs : s.reqs with
      | nil => rw [hs] at hr; simp at hr
      | cons a b => rfl
    | succ n ih =>
      rintro s ⟨r, hr, rfl⟩
      rw [popLoop.eq_def]
      cases hs : s.reqs with
      | nil => rw [hs] at hr; simp at hr
      | cons a b =>
        simp only
        apply ih
        rw [hs] at hr
        rcases List.mem_cons.1 hr with rfl | hr
        · refine ⟨_, ?_, rfl⟩
          simp only [List.foldl_cons, List.foldl_nil, visit, Item.field, hreq]
          exact mem_pushReq.2 (Or.inr ⟨rfl, by simp⟩)
        · exact ⟨_, (fold_grows (p := p) { s with reqs := b } a).reqs _ hr, rfl⟩
  intro denied fuel
  unfold requested
  have hmem : [Item.mk 0 []] ∈ (initial p (fun i => decide (i = 0)) denied).reqs := by
    rw [(initial_spec).2.1]
    exact Or.inl ⟨0, by simp [p], by simp, by simp, Or.inl rfl⟩
  rw [closure.eq_def]
  rw [if_neg]
  · cases fuel with
    | zero => rfl
    | succ n =>
      simp only
      rw [hpop]
      · rfl
      · have : ∀ (l : List Nat) bits reqs, [Item.mk 0 []] ∈ reqs →
            [Item.mk 0 []] ∈ (drain p (fun i => decide (i = 0)) bits reqs l).reqs := by
          intro l
          induction l with
          | nil => intro bits reqs h; exact h
          | cons i t ih =>
            intro bits reqs h
            rw [drain]
            split
            · exact ih _ _ h
            · apply ih
              split
              · exact h
              · exact mem_pushReq.2 (Or.inl h)
        exact ⟨_, this _ _ _ hmem, rfl⟩
  · intro hc
    simp only [Bool.and_eq_true, List.isEmpty_iff] at hc
    rw [hc.1] at hmem
    simp at hmem

/-! ### Cost -/

/-- Level `k` has the fields `2 k` and `2 k + 1`, which both require both fields of the level below. -/
def tower (i : Nat) : Field :=
  if i < 2 then .empty else ⟨[.mk (2 * (i / 2 - 1)) [], .mk (2 * (i / 2 - 1) + 1) []], [], none⟩

def towerPlan (n : Nat) : Plan := ⟨(List.range (2 * n + 2)).map tower, []⟩

def level (k : Nat) : List Item := [.mk (2 * k) [], .mk (2 * k + 1) []]

theorem tower_field {n i : Nat} (h : i < 2 * n + 2) : (towerPlan n).field i = tower i := by
  unfold Plan.field towerPlan
  simp [List.getElem?_map, List.getElem?_range h]

theorem pop_one {p : Plan} {fuel : Nat} {s s' : St} {r : List Item} {t : List (List Item)}
    (h : popLoop p fuel s = some s') (hs : s.reqs = r :: t) :
    ∃ f', fuel = f' + 1 ∧ popLoop p f' (r.foldl (visit p) { s with reqs := t }) = some s' := by
  rw [popLoop.eq_def] at h
  simp only [hs] at h
  cases fuel with
  | zero => cases h
  | succ n => exact ⟨n, rfl, h⟩

theorem pop_level {n : Nat} (k : Nat) : k < n → ∀ fuel (s s' : St) (t : List (List Item)),
    popLoop (towerPlan n) fuel s = some s' → s.reqs = level k :: t →
    ∃ f' s1, s1.reqs = t ∧ f' + 2 ^ (k + 1) ≤ fuel ∧ popLoop (towerPlan n) f' s1 = some s' := by
  induction k with
  | zero =>
    intro hk fuel s s' t h hs
    obtain ⟨f1, rfl, h1⟩ := pop_one h hs
    have e0 : ((towerPlan n).field 0).req = [] := by rw [tower_field (by omega)]; rfl
    have e1 : ((towerPlan n).field 1).req = [] := by rw [tower_field (by omega)]; rfl
    obtain ⟨f2, rfl, h2⟩ := pop_one (r := []) (t := [] :: t) h1 (by
      simp [level, visit, Item.field, Item.sub, pushReq, e0, e1])
    obtain ⟨f3, rfl, h3⟩ := pop_one (r := []) (t := t) h2 rfl
    refine ⟨f3, _, rfl, ?_, h3⟩
    omega
  | succ k ih =>
    intro hk fuel s s' t h hs
    obtain ⟨f1, rfl, h1⟩ := pop_one h hs
    have e0 : ((towerPlan n).field (2 * (k + 1))).req = level k := by
      rw [tower_field (by omega)]
      have h2 : ¬ 2 * (k + 1) < 2 := by omega
      have h3 : 2 * (k + 1) / 2 - 1 = k := by omega
      unfold tower level
      rw [if_neg h2, h3]
    have e1 : ((towerPlan n).field (2 * (k + 1) + 1)).req = level k := by
      rw [tower_field (by omega)]
      have h2 : ¬ 2 * (k + 1) + 1 < 2 := by omega
      have h3 : (2 * (k + 1) + 1) / 2 - 1 = k := by omega
      unfold tower level
      rw [if_neg h2, h3]
    obtain ⟨f2, s2, a1, a2, a3⟩ := ih (by omega) _ _ _ ([] :: level k :: [] :: t) h1 (by
      rw [level]
      simp only [List.foldl_cons, List.foldl_nil, visit, Item.field, Item.sub, pushReq, e0, e1]
      simp [level])
    obtain ⟨f3, rfl, h3⟩ := pop_one a3 a1
    obtain ⟨f4, s4, b1, b2, b3⟩ := ih (by omega) _ _ _ ([] :: t) h3 rfl
    obtain ⟨f5, rfl, h5⟩ := pop_one b3 b1
    refine ⟨f5, _, rfl, ?_, h5⟩
    rw [Nat.pow_succ 2 (k + 1)]
    omega

theorem pop_mem {n : Nat} : ∀ fuel (s s' : St) k, k < n → level k ∈ s.reqs → popLoop (towerPlan n) fuel s = some s' →
    2 ^ (k + 1) ≤ fuel := by
  intro fuel
  induction fuel with
  | zero =>
    intro s s' k hk hm h
    rw [popLoop.eq_def] at h
    cases hs : s.reqs with
    | nil => rw [hs] at hm; simp at hm
    | cons a b => simp only [hs] at h; cases h
  | succ f ih =>
    intro s s' k hk hm h
    cases hs : s.reqs with
    | nil => rw [hs] at hm; simp at hm
    | cons a b =>
      rw [hs] at hm
      rcases List.mem_cons.1 hm with rfl | hm
      · obtain ⟨f', s1, -, h2, -⟩ := pop_level k hk _ _ _ _ h hs
        omega
      · obtain ⟨f1, h1, h2⟩ := pop_one h hs
        cases h1
        have := ih _ s' k hk ((fold_grows (p := towerPlan n) { s with reqs := b } a).reqs _ hm) h2
        omega

/-- The same required set is treated once for every way to reach it: with `n` levels of two fields that
both require both fields of the level below, a query for one field makes at least `2 ^ n` rounds. -/
theorem C60_exponential (n : Nat) (denied : List (Nat × Nat)) (fuel : Nat) (b : Nat → Bool)
    (h : requested (towerPlan n) (fun i => i = 2 * n) denied fuel = some b) (hn : 0 < n) : 2 ^ n ≤ fuel := by
  have hreq : ((towerPlan n).field (2 * n)).req = level (n - 1) := by
    rw [tower_field (by omega)]
    have h2 : ¬ 2 * n < 2 := by omega
    have h3 : 2 * n / 2 - 1 = n - 1 := by omega
    unfold tower level
    rw [if_neg h2, h3]
  have hmem : level (n - 1) ∈ (initial (towerPlan n) (fun i => decide (i = 2 * n)) denied).reqs := by
    rw [(initial_spec).2.1]
    exact Or.inl ⟨2 * n, by simp [towerPlan], by simp, by simp [level], Or.inl hreq.symm⟩
  unfold requested at h
  rw [closure.eq_def] at h
  split at h
  · rename_i hc
    simp only [Bool.and_eq_true, List.isEmpty_iff] at hc
    rw [hc.1] at hmem
    simp at hmem
  · cases fuel with
    | zero => cases h
    | succ fuel =>
      simp only [Option.bind_eq_some_iff] at h
      obtain ⟨s1, h1, -⟩ := h
      have : ∀ (l : List Nat) bits reqs, level (n - 1) ∈ reqs →
          level (n - 1) ∈ (drain (towerPlan n) (fun i => decide (i = 2 * n)) bits reqs l).reqs := by
        intro l
        induction l with
        | nil => intro bits reqs h; exact h
        | cons i t ih =>
          intro bits reqs h
          rw [drain]
          split
          · exact ih _ _ h
          · apply ih
            split
            · exact h
            · exact mem_pushReq.2 (Or.inl h)
      have h3 := pop_mem fuel _ s1 (n - 1) (by omega) (this _ _ _ hmem) h1
      rw [show n - 1 + 1 = n by omega] at h3
      omega

/-- What a denied field requires is still requested, although nothing else needs it. -/
theorem C60_denied_requirements :
    ∃ p resp denied b, requested p resp denied 10 = some b ∧ denied = [(0, 0)] ∧
      b 0 = false ∧ b 1 = true ∧ resp 1 = false := by
  refine ⟨⟨[⟨[.mk 1 []], [], none⟩, .empty], []⟩, fun i => i = 0, [(0, 0)], _, rfl, rfl, ?_, ?_, ?_⟩ <;> decide

/-! ## Errors in objects -/

/-- For shapes in the order they are built and any denials: the errors of a field shape are exactly
those of the data field it keeps, and the bit of a concrete shape is set exactly if one of its field
shapes keeps a denied data field. -/
theorem C60_shape_errors {n : Nat} {bs : List Block} (hn : ∀ s ∈ allShapes bs, ∀ f, s.id = some f → f < n)
    (denied : List (Nat × Nat)) :
    ∃ r, buildRefs n bs = some r ∧
      (∀ i e, e ∈ findAll (shapeErrors r denied) i ↔
        ∃ s f, (allShapes bs)[i]? = some s ∧ s.id = some f ∧ (f, e) ∈ denied) ∧
      ∀ pre b post, bs = pre ++ b :: post → b.concrete = true →
        ∃ bit, (hasError (errorShapes (shapeErrors r denied)) (ranges 0 bs))[(pre.filter (·.concrete)).length]? = some bit ∧
          (bit = true ↔ ∃ s ∈ b.shapes, ∃ f e, s.id = some f ∧ (f, e) ∈ denied) := by
  obtain ⟨r, h1, h2⟩ := buildRefs_post hn
  have hfind : ∀ i e, (i, e) ∈ shapeErrors r denied ↔
      ∃ s f, (allShapes bs)[i]? = some s ∧ s.id = some f ∧ (f, e) ∈ denied := by
    intro i e
    rw [mem_shapeErrors]
    constructor
    · rintro ⟨f, hf, hi⟩
      by_cases hl : f < n
      · rw [h2 f hl, mem_occ] at hi
        obtain ⟨j, s, hj, hs, hid⟩ := hi
        rw [Nat.zero_add] at hj
        subst hj
        exact ⟨s, f, hs, hid, hf⟩
      · rw [shapeIds_out h1 hl] at hi; simp at hi
    · rintro ⟨s, f, hs, hid, hf⟩
      refine ⟨f, hf, ?_⟩
      rw [h2 f (hn s (List.mem_of_getElem? hs) f hid), mem_occ]
      exact ⟨i, s, by omega, hs, hid⟩
  refine ⟨r, h1, ?_, ?_⟩
  · intro i e
    rw [mem_findAll (shapeErrors_sorted r denied), hfind]
  · rintro pre b post rfl hb
    rw [hasError_eq (ranges_inc _ _) (errorShapes_sorted (shapeErrors_sorted r denied)), List.getElem?_map,
      ranges_get hb]
    refine ⟨_, rfl, ?_⟩
    rw [hit_iff]
    simp only [Nat.zero_add, mem_errorShapes]
    constructor
    · rintro ⟨i, ⟨e, hi⟩, h3, h4⟩
      obtain ⟨s, f, hs, hid, hf⟩ := (hfind i e).1 hi
      rw [allShapes_get h3 h4] at hs
      exact ⟨s, List.mem_of_getElem? hs, f, e, hid, hf⟩
    · rintro ⟨s, hs, f, e, hid, hf⟩
      obtain ⟨j, hj⟩ := List.mem_iff_getElem?.1 hs
      have hjl := (List.getElem?_eq_some_iff.1 hj).1
      refine ⟨(allShapes pre).length + j, ⟨e, ?_⟩, by omega, by omega⟩
      refine (hfind _ _).2 ⟨s, f, ?_, hid, hf⟩
      rw [allShapes_get (by omega) (by omega), Nat.add_sub_cancel_left]
      exact hj

def exBlocks : List Block :=
  [⟨true, [⟨[2]⟩, ⟨[3]⟩]⟩, ⟨false, [⟨[4]⟩]⟩, ⟨true, [⟨[0, 1]⟩, ⟨[5]⟩]⟩, ⟨true, [⟨[2]⟩]⟩]

example : ((buildRefs 6 exBlocks).map fun r =>
    let errs := shapeErrors r [(2, 7), (4, 8), (1, 9)]
    (errs, hasError (errorShapes errs) (ranges 0 exBlocks))) =
  some ([(0, 7), (2, 8), (5, 7)], [true, false, true]) := by decide +kernel

/-- In an object without duplicate keys: the value of a field with an error is hidden, every error is
pushed at its key, a null is propagated exactly if such a field is required, other values stay. -/
theorem C60_errors_hide {errs : List (Nat × Nat)} {shapes : List OShape} {fields : Obj}
    (hn : (fields.map (·.1)).Nodup) :
    let s := handleShapeErrors true errs shapes fields
    (∀ f ∈ shapes, findAll errs f.id ≠ [] →
      (∃ v, (f.key, v) ∈ s.fields) ∧ ∀ v, (f.key, v) ∈ s.fields → ∀ n, v ≠ .data n) ∧
      (∀ k v, (∀ f ∈ shapes, f.key = k → findAll errs f.id = []) → ((k, v) ∈ s.fields ↔ (k, v) ∈ fields)) ∧
      (∀ k e, (k, e) ∈ s.errors ↔ ∃ f ∈ shapes, f.key = k ∧ e ∈ findAll errs f.id) ∧
      (s.propagated = true ↔ ∃ f ∈ shapes, findAll errs f.id ≠ [] ∧ f.nonNull = true) := by
  intro s
  have p : ObjPost errs shapes ⟨fields, [], false⟩ s := by
    simp only [s, handleShapeErrors, if_true]
    exact fold_post hn
  refine ⟨fun f hf he => ⟨p.present f hf he, fun v hv n hvn => ?_⟩, fun k v h => p.other k v h, ?_, ?_⟩
  · have := p.hidden f hf he v hv
    rw [hvn] at this
    exact this
  · intro k e
    rw [p.errors]
    simp only [List.nil_append, List.mem_flatMap, List.mem_map, Prod.mk.injEq]
    constructor
    · rintro ⟨f, hf, e', he, h1, rfl⟩; exact ⟨f, hf, h1, he⟩
    · rintro ⟨f, hf, h1, he⟩; exact ⟨f, hf, e, he, h1, rfl⟩
  · rw [p.prop]; simp

example : handleShapeErrors true [(4, 9)] [⟨3, 10, true⟩, ⟨4, 11, false⟩] [(10, .data 1), (11, .data 2)] =
    ⟨[(10, .data 1), (11, .inaccessible 2)], [(11, 9)], false⟩ := by decide
example : handleShapeErrors true [(4, 9)] [⟨3, 10, true⟩, ⟨4, 11, true⟩] [(10, .data 1)] =
    ⟨[(10, .data 1), (11, .null)], [(11, 9)], true⟩ := by decide

/-- From the decisions of the extensions to an object: the value of a field shape whose first data
field is denied is not in the object and the error is.  Missing: data fields merged into a shape
behind another one and objects with duplicate keys, both of which are false (`C60_group_shown`,
`C60_duplicate_shown`). -/
theorem C60_denied_hidden_partial {recs : List Modifier} {ds : List (Nat × Nat × Decisions)}
    {data typenames : Nat → Bool} {bld : Builder} (hd : decideAll recs (start data typenames) ds = some bld)
    {n : Nat} {pre post : List Block} {b : Block}
    (hn : ∀ s ∈ allShapes (pre ++ b :: post), ∀ f, s.id = some f → f < n) (hb : b.concrete = true)
    {r : Refs} (hr : buildRefs n (pre ++ b :: post) = some r)
    {j f e : Nat} {sh : FShape} (hj : b.shapes[j]? = some sh) (hid : sh.id = some f)
    (hden : DeniesField recs ds 0 f e)
    {shapes : List OShape} {o : OShape} (ho : o ∈ shapes) (hoid : o.id = (allShapes pre).length + j)
    {fields : Obj} (hk : (fields.map (·.1)).Nodup) {has : Bool}
    (hhas : (hasError (errorShapes (shapeErrors r bld.denied)) (ranges 0 (pre ++ b :: post)))[
      (pre.filter (·.concrete)).length]? = some has) :
    let s := handleShapeErrors has (shapeErrors r bld.denied) shapes fields
    (∃ v, (o.key, v) ∈ s.fields) ∧ (∀ v, (o.key, v) ∈ s.fields → ∀ n, v ≠ .data n) ∧
      (o.key, e) ∈ s.errors ∧ (o.nonNull = true → s.propagated = true) := by
  have hden' : (f, e) ∈ bld.denied := ((C60_denials hd ⟨rfl, rfl⟩).1 f e).2 hden
  obtain ⟨r', h1, h2, h3⟩ := C60_shape_errors hn bld.denied
  rw [hr] at h1
  cases h1
  obtain ⟨bit, h4, h5⟩ := h3 pre b post rfl hb
  rw [hhas] at h4
  cases h4
  have hhas' : has = true := h5.2 ⟨sh, List.mem_of_getElem? hj, f, e, hid, hden'⟩
  subst hhas'
  have hjl := (List.getElem?_eq_some_iff.1 hj).1
  have hmem : e ∈ findAll (shapeErrors r bld.denied) o.id := by
    rw [hoid, h2]
    refine ⟨sh, f, ?_, hid, hden'⟩
    rw [allShapes_get (by omega) (by omega), Nat.add_sub_cancel_left]
    exact hj
  have hne : findAll (shapeErrors r bld.denied) o.id ≠ [] := by
    intro hc; rw [hc] at hmem; simp at hmem
  obtain ⟨k1, -, k3, k4⟩ := C60_errors_hide (errs := shapeErrors r bld.denied) (shapes := shapes) hk
  refine ⟨(k1 o ho hne).1, (k1 o ho hne).2, (k3 _ _).2 ⟨o, ho, rfl, hmem⟩, ?_⟩
  intro h
  exact k4.2 ⟨o, ho, hne, h⟩

/-- Conversely a field whose shape keeps no denied data field is untouched in every object. -/
theorem C60_others_kept {n : Nat} {pre post : List Block} {b : Block} {denied : List (Nat × Nat)}
    (hn : ∀ s ∈ allShapes (pre ++ b :: post), ∀ f, s.id = some f → f < n)
    {r : Refs} (hr : buildRefs n (pre ++ b :: post) = some r)
    {shapes : List OShape} {k : Nat}
    (hk : ∀ o ∈ shapes, o.key = k → ∃ (j : Nat) (sh : FShape), o.id = (allShapes pre).length + j ∧ b.shapes[j]? = some sh ∧
      ∀ f e, sh.id = some f → (f, e) ∉ denied)
    {fields : Obj} (hnd : (fields.map (·.1)).Nodup) (has : Bool) (v : Val) :
    (k, v) ∈ (handleShapeErrors has (shapeErrors r denied) shapes fields).fields ↔ (k, v) ∈ fields := by
  cases has with
  | false => rfl
  | true =>
    refine (C60_errors_hide (errs := shapeErrors r denied) (shapes := shapes) hnd).2.1 k v ?_
    intro o ho hok
    obtain ⟨j, sh, h1, h2, h3⟩ := hk o ho hok
    obtain ⟨r', g1, g2, -⟩ := C60_shape_errors hn denied
    rw [hr] at g1
    cases g1
    rw [List.eq_nil_iff_forall_not_mem]
    intro e he
    obtain ⟨s, f, k1, k2, k3⟩ := (g2 _ _).1 he
    have hjl := (List.getElem?_eq_some_iff.1 h2).1
    rw [h1, allShapes_get (by omega) (by omega), Nat.add_sub_cancel_left, h2] at k1
    cases k1
    exact h3 f e k2 k3

/-- The decisions of `exBlocks` example, end to end: data field 2 is the first shape of two objects. -/
example : ((decideAll [⟨.extension, false, [.data 2]⟩] (start (fun _ => true) fun _ => true) [(0, 1, .denyAll 70)]).bind
    fun b => (buildRefs 6 exBlocks).map fun r =>
      let errs := shapeErrors r b.denied
      let has := hasError (errorShapes errs) (ranges 0 exBlocks)
      (has, handleShapeErrors true errs [⟨0, 20, false⟩, ⟨1, 21, false⟩] [(20, .data 5), (21, .data 6)])) =
    some ([true, false, true], ⟨[(20, .inaccessible 5), (21, .data 6)], [(20, 0)], false⟩) := by decide +kernel

/-- Two selections with the same response key are one field shape, which keeps only the first data
field: if only the second one is denied the object has no error and the value is shown; denying the
first one instead hides it. -/
theorem C60_group_shown :
    ∃ r, buildRefs 2 [⟨true, [⟨[0, 1]⟩]⟩] = some r ∧
      hasError (errorShapes (shapeErrors r [(1, 7)])) (ranges 0 [⟨true, [⟨[0, 1]⟩]⟩]) = [false] ∧
      hasError (errorShapes (shapeErrors r [(0, 7)])) (ranges 0 [⟨true, [⟨[0, 1]⟩]⟩]) = [true] ∧
      ∀ has, (handleShapeErrors has (shapeErrors r [(1, 7)]) [⟨0, 10, true⟩] [(10, .data 42)]).fields = [(10, .data 42)] := by
  refine ⟨_, rfl, ?_, ?_, ?_⟩
  · decide +kernel
  · decide +kernel
  · decide +kernel

/-- A subgraph that sends a key twice: only the first value of the denied field is hidden. -/
theorem C60_duplicate_shown :
    (handleShapeErrors true [(1, 7)] [⟨0, 10, false⟩, ⟨1, 11, false⟩]
      [(10, .data 1), (11, .data 2), (11, .data 3)]).fields = [(10, .data 1), (11, .inaccessible 2), (11, .data 3)] := by
  decide

end Verif.QueryMods
