import Verif.SteinerInput.Build
/-!
# The loops over the terminals, the end, and the edges of a solution
-/
namespace Verif.SteinerInput

open Verif.Flac Verif.Updater Verif.OpChecks

/-- Between two terminals. -/
structure Outer (sp : Space) (S P : List Nat) (b : B) : Prop where
  good : Good sp b
  path : b.path = []
  all : ∀ n ∈ b.rep, n ≠ sp.root → ∀ e ∈ sp.incoming n, b.emap e ≠ none
  reqs : Reqs sp S P b

variable {sp : Space} {x : Nat} {ind : Bool} {b b' : B} {st : List Item} {term : Option Nat} {S P T : List Nat}

theorem Good.frame (h : Good sp b) (h1 : b'.edges = b.edges) (h2 : b'.rep = b.rep) (h3 : b'.map = b.map) (h4 : b'.emap = b.emap) : Good sp b' := by
  obtain ⟨e, r, m, em, i1, d1, de, p, it1, n1, e1, r1⟩ := b'
  simp only at h1 h2 h3 h4
  subst h1; subst h2; subst h3; subst h4
  exact ⟨h.root, h.rep, h.comp, h.up, h.edge, h.surj, h.inj⟩

theorem Outer.begin (h : Outer sp S P b) (hd : ind = false → term ≠ none) (hi : ind = true → term = none) : Run sp x ind b [⟨x, none⟩] term := by
  refine ⟨h.good, fun it hit c e w hc => ?_, (show ([] : List Nat).Nodup from List.nodup_nil), by simp, fun it hit => ?_, by simp, by rw [h.path]; simp, fun hf => ?_, hd,
    fun hi' _ _ _ => hi hi', fun n hn hr e he => .inl (h.all n hn hr e he)⟩
  · simp only [List.mem_singleton] at hit
    subst hit; cases hc
  · simp only [List.head?_cons, Option.mem_some_iff] at hit
    subst hit; rw [h.path]; exact .nil
  · exact absurd rfl (hf ⟨x, none⟩ (by simp))

theorem Run.ends (h : Run sp x ind b [] term) (hr : Reqs sp S P b) : Outer sp S P b := by
  refine ⟨h.good, h.stop rfl, fun n hn hne e he => ?_, hr⟩
  rcases h.all n hn hne e he with k | k
  · exact k
  · simp at k

/-- The next terminal that is needed in all cases. -/
theorem Reqs.pop {xs : List Nat} (h : Reqs sp S P b) (hx : b.indisp = x :: xs) : Reqs sp (x :: S) P { b with indisp := xs } := by
  refine ⟨fun n hn hr r hm => ?_, h.node, h.edge, h.req, fun r hr => ?_⟩
  · rcases h.need n hn hr r hm with k | k | ⟨m, k⟩
    · rw [hx] at k
      rcases List.mem_cons.1 k with k | k
      · exact .inr (.inl (by simp [k]))
      · exact .inl k
    · exact .inr (.inl (by simp [k]))
    · exact .inr (.inr ⟨m, k.rep, k.known, k.mapped⟩)
  · rcases h.orig r (by rw [hx]; simp [show r ∈ xs from hr]) with k | ⟨y, k1, k2⟩
    · exact .inl k
    · exact .inr ⟨y, by simp [k1], k2⟩

theorem Reqs.disp {P' d : List Nat} (h : Reqs sp S P b)
    (hp : ∀ r, r ∈ P ∨ r ∈ b.disp ∨ b.map r ≠ none → r ∈ P' ∨ r ∈ d ∨ b.map r ≠ none) : Reqs sp S P' { b with disp := d } := by
  refine ⟨fun n hn hr r hm => ?_, fun p hp' => ?_, h.edge, fun p hp' => ?_, h.orig⟩
  · rcases h.need n hn hr r hm with k | k | ⟨m, k⟩
    · exact .inl k
    · exact .inr (.inl k)
    · exact .inr (.inr ⟨m, k.rep, k.known, fun r hr => hp r (k.mapped r hr)⟩)
  · obtain ⟨n, k1, k2, k3, k4⟩ := h.node p hp'
    exact ⟨n, k1, k2, k3, fun r hr => hp r (k4 r hr)⟩
  · obtain ⟨n, k1, k2, k3, k4, k5, k6, k7⟩ := h.req p hp'
    exact ⟨n, k1, k2, k3, k4, k5, k6, fun r hr => hp r (k7 r hr)⟩

/-- The terminals of the tree and of the space. -/
structure Terms (sp : Space) (b : B) (T S : List Nat) : Prop where
  node : ∀ y ∈ S, ∃ m, b.map y = some m ∧ (m = 0 ∨ m ∈ T)
  used : ∀ m ∈ T, m ≠ 0 ∧ ∃ y ∈ S, b.map y = some m
  nodup : T.Nodup
  leaves : ∀ r, (r, true) ∈ sp.leaf → r ∈ S ∨ r ∈ b.indisp
  orig : ∀ y ∈ S, (y, true) ∈ sp.leaf ∨ ∃ y' ∈ S, ∃ n, Back sp y' n ∧ y ∈ sp.requires n

theorem handle_indisp (m : Nat) (it : Item) : (b.handle m it).indisp = b.indisp := by
  obtain ⟨dep, es, em, he⟩ := handle_eq b m it
  rw [he]

theorem add_indisp (it : Item) : (b.add it).indisp = b.indisp := handle_indisp (b := b.addNode it.node) _ it

/-- What is to be done stays. -/
theorem indisp_keep (n : Nat) {term' : Option Nat} (hi : ingest sp n b st term = .ok (b', term')) : ∀ r ∈ b.indisp, r ∈ b'.indisp := by
  induction n generalizing b st term with
  | zero => simp [ingest] at hi
  | succ n ih =>
    cases st with
    | nil =>
      simp only [ingest, Out.ok.injEq, Prod.mk.injEq] at hi
      obtain ⟨rfl, rfl⟩ := hi
      exact fun r hr => hr
    | cons it st =>
      unfold ingest at hi
      dsimp only at hi
      intro r hr
      split at hi
      · exact ih hi r (by rw [handle_indisp]; exact hr)
      · split at hi
        · cases hi
        · split at hi
          · exact ih hi r (List.mem_append.2 (.inr hr))
          · split at hi
            · exact ih hi r (by rw [(register_edges _ _ _).2.2.2.2.2, add_indisp]; exact hr)
            · exact ih hi r hr
        · split at hi
          · exact ih hi r (List.mem_append.2 (.inr (by rw [add_indisp]; exact hr)))
          · exact ih hi r (by rw [(register_edges _ _ _).2.2.2.2.2, add_indisp]; exact hr)

theorem terms_step {fuel m : Nat} {xs : List Nat} {term : Option Nat} {b1 : B} (h : Outer sp S [] b) (ht : Terms sp b T S) (hd : b.indisp = x :: xs)
    (h1 : ingest sp fuel { b with indisp := xs } [⟨x, none⟩] none = .ok (b1, term)) (k1 : Run sp x true b1 [] term)
    (k3 : More { b with indisp := xs } b1) (g1 : b1.map x = some m) : Terms sp b1 (if m ≠ 0 ∧ m ∉ T then T ++ [m] else T) (x :: S) := by
  have hmem : ∀ k, k ∈ (if m ≠ 0 ∧ m ∉ T then T ++ [m] else T) ↔ k ∈ T ∨ k = m ∧ m ≠ 0 := fun k => by
    split
    · next hc => simp [hc.1]
    · next hc =>
      constructor
      · exact .inl
      · rintro (hk | ⟨rfl, hk⟩)
        · exact hk
        · exact Classical.byContradiction fun hn => hc ⟨hk, hn⟩
  refine ⟨fun y hy => ?_, fun k hk => ?_, ?_, fun r hr => ?_, fun y hy => ?_⟩
  · simp only [hmem]
    rcases List.mem_cons.1 hy with rfl | hy
    · exact ⟨m, g1, by
        by_cases hm : m = 0
        · exact .inl hm
        · exact .inr (.inr ⟨rfl, hm⟩)⟩
    · obtain ⟨k, j1, j2⟩ := ht.node y hy
      exact ⟨k, k3.map y k j1, j2.imp_right .inl⟩
  · rcases (hmem k).1 hk with hk | ⟨rfl, hk⟩
    · obtain ⟨j1, y, j2, j3⟩ := ht.used k hk
      exact ⟨j1, y, by simp [j2], k3.map y k j3⟩
    · exact ⟨hk, x, by simp, g1⟩
  · split
    · next hc =>
      rw [List.nodup_append]
      exact ⟨ht.nodup, by simp, fun a ha c hc' hac => by
        simp only [List.mem_singleton] at hc'
        subst hc'; subst hac; exact hc.2 ha⟩
    · exact ht.nodup
  · rcases ht.leaves r hr with k | k
    · exact .inl (by simp [k])
    · rw [hd] at k
      rcases List.mem_cons.1 k with k | k
      · exact .inl (by simp [k])
      · exact .inr (indisp_keep fuel h1 r k)
  · rcases List.mem_cons.1 hy with rfl | hy
    · rcases h.reqs.orig y (by rw [hd]; simp) with k | ⟨y', k1, k2⟩
      · exact .inl k
      · exact .inr ⟨y', by simp [k1], k2⟩
    · rcases ht.orig y hy with k | ⟨y', k1, k2⟩
      · exact .inl k
      · exact .inr ⟨y', by simp [k1], k2⟩

theorem indispensable_spec {fuel n i : Nat} {T' S' : List Nat} (h : Outer sp S [] b) (ht : Terms sp b T S)
    (hi : indispensable sp fuel n i b T S = .ok (b', T', S')) : Outer sp S' [] b' ∧ Terms sp b' T' S' ∧ b'.indisp = [] := by
  induction n generalizing i b T S with
  | zero => simp [indispensable] at hi
  | succ n ih =>
    unfold indispensable at hi
    cases hd : b.indisp with
    | nil =>
      rw [hd] at hi
      simp only [Out.ok.injEq, Prod.mk.injEq] at hi
      obtain ⟨rfl, rfl, rfl⟩ := hi
      exact ⟨h, ht, hd⟩
    | cons x xs =>
      rw [hd] at hi
      dsimp only at hi
      split at hi
      · cases hi
      · obtain ⟨⟨b1, term⟩, h1, hi⟩ := Out.bind_ok hi
        dsimp only at hi
        have ho : Outer sp (x :: S) [] { b with indisp := xs } := ⟨h.good.frame rfl rfl rfl rfl, h.path, h.all, h.reqs.pop hd⟩
        obtain ⟨k1, k2, k3, -⟩ := ingest_spec (x := x) (ind := true) (S := x :: S) fuel (ho.begin (by simp) (fun _ => rfl)) ho.reqs (fun _ => by simp) h1
        obtain ⟨m, g1, g2⟩ := k1.found (by simp)
        rw [g2 rfl] at hi
        dsimp only at hi
        exact ih (k1.ends k2) (terms_step (fuel := fuel) h ht hd h1 k1 k3 g1) hi

theorem dispensable_spec {fuel n : Nat} (h : Outer sp S [] b) (hi : dispensable sp fuel n b = .ok b') :
    Outer sp S [] b' ∧ b'.disp = [] ∧ b'.indisp = b.indisp ∧ ∀ i k : Nat, b.map i = some k → b'.map i = some k := by
  induction n generalizing b with
  | zero => simp [dispensable] at hi
  | succ n ih =>
    unfold dispensable at hi
    cases hd : b.disp with
    | nil =>
      rw [hd] at hi
      simp only [Out.ok.injEq] at hi
      subst hi
      exact ⟨h, hd, rfl, fun _ _ h => h⟩
    | cons x xs =>
      rw [hd] at hi
      dsimp only at hi
      obtain ⟨⟨b1, term⟩, h1, hi⟩ := Out.bind_ok hi
      dsimp only at hi
      have ho : Outer sp S [x] { b with disp := xs } := ⟨h.good.frame rfl rfl rfl rfl, h.path, h.all, h.reqs.disp (fun r hr => by
        rw [hd] at hr
        simp only [List.not_mem_nil, List.mem_cons, false_or, or_assoc] at hr ⊢
        exact hr)⟩
      obtain ⟨k1, k2, k3, k4⟩ := ingest_spec (x := x) (ind := false) (S := S) fuel (ho.begin (by simp) (by simp)) ho.reqs (by simp) h1
      obtain ⟨m, g1, -⟩ := k1.found (by simp)
      have hr1 : Reqs sp S [] b1 := k2.disp (d := b1.disp) (fun r hr => by
        rcases hr with hr | hr
        · simp only [List.mem_singleton] at hr
          subst hr; exact .inr (.inr (by rw [g1]; simp))
        · exact .inr hr)
      obtain ⟨j1, j2, j3, j4⟩ := ih (k1.ends hr1) hi
      exact ⟨j1, j2, j3.trans (k4 rfl), fun i k hik => j4 i k (k3.map i k hik)⟩

theorem outer_init : Outer sp [] [] (.init sp) ∧ Terms sp (.init sp) [] [] := by
  have hm : ∀ n m : Nat, (B.init sp).map n = some m → n = sp.root ∧ m = 0 := fun n m h => by
    simp only [B.init, upd] at h
    split at h
    · next hn => simp only [Option.some.injEq] at h; exact ⟨hn, h.symm⟩
    · cases h
  refine ⟨⟨⟨rfl, fun m n h => ?_, fun n m h => ?_, fun n m h hn => ?_, fun e k h => ?_, fun k h => ?_, fun e e' k h => ?_⟩, rfl, fun n hn hne => ?_,
    ⟨fun n hn hne => ?_, fun p hp => ?_, fun p hp => ?_, fun p hp => ?_, fun r hr => ?_⟩⟩, ⟨fun y hy => ?_, fun m hm => ?_, List.nodup_nil, fun r hr => ?_, fun y hy => ?_⟩⟩
  · cases m with
    | zero => simp only [B.init, List.getElem?_cons_zero, Option.some.injEq] at h; subst h; simp [B.init, upd]
    | succ m => simp [B.init] at h
  · obtain ⟨rfl, rfl⟩ := hm n m h
    exact .here rfl
  · obtain ⟨rfl, rfl⟩ := hm n m h
    exact absurd (by simp [B.init]) hn
  · cases h
  · simp [B.init] at h
  · cases h
  · simp only [B.init, List.mem_singleton] at hn
    exact absurd hn hne
  · rcases hn with hn | hn
    · obtain ⟨k, hk⟩ := Option.ne_none_iff_exists'.1 hn
      exact absurd (hm n k hk).1 hne
    · simp [B.init] at hn
  · simp [B.init] at hp
  · simp [B.init] at hp
  · simp [B.init] at hp
  · simp only [B.init, List.mem_reverse, List.mem_map, List.mem_filter] at hr
    obtain ⟨⟨r', i⟩, ⟨h1, h2⟩, rfl⟩ := hr
    simp only at h2
    subst h2
    exact .inl h1
  · simp at hy
  · simp at hm
  · exact .inr (by simp only [B.init, List.mem_reverse, List.mem_map, List.mem_filter]; exact ⟨(r, true), ⟨hr, rfl⟩, rfl⟩)
  · simp at hy

/-- What was built, before the requirements are put together. -/
structure Built (sp : Space) (b : B) (T S : List Nat) : Prop where
  good : Good sp b
  all : ∀ n ∈ b.rep, n ≠ sp.root → ∀ e ∈ sp.incoming n, b.emap e ≠ none
  reqs : Reqs sp S [] b
  disp : b.disp = []
  indisp : b.indisp = []
  terms : Terms sp b T S

theorem build_spec {fuel : Nat} {inp : Input} (h : build sp fuel = .ok (b, inp, T)) : ∃ S, Built sp b T S ∧ finish b T S = some inp := by
  unfold build at h
  obtain ⟨⟨b1, T1, S⟩, h1, h⟩ := Out.bind_ok h
  obtain ⟨b2, h2, h⟩ := Out.bind_ok h
  split at h
  · cases h
  · next hf =>
    simp only [Out.ok.injEq, Prod.mk.injEq] at h
    obtain ⟨rfl, rfl, rfl⟩ := h
    obtain ⟨k1, k2, k3⟩ := indispensable_spec outer_init.1 outer_init.2 h1
    obtain ⟨j1, j2, j3, j4⟩ := dispensable_spec k1 h2
    refine ⟨S, ⟨j1.good, j1.all, j1.reqs, j2, j3.trans k3, ⟨fun y hy => ?_, fun m hm => ?_, k2.nodup, fun r hr => ?_, k2.orig⟩⟩, hf⟩
    · obtain ⟨m, g1, g2⟩ := k2.node y hy
      exact ⟨m, j4 y m g1, g2⟩
    · obtain ⟨g1, y, g2, g3⟩ := k2.used m hm
      exact ⟨g1, y, g2, j4 y m g3⟩
    · rw [j3]; exact k2.leaves r hr

theorem mem_reqNodes {l : List Nat} {m : Nat} : m ∈ reqNodes b T l ↔ ∃ i ∈ l, (b.map i).getD 4294967295 = m ∧ m ≠ 0 ∧ m ∉ T := by
  unfold reqNodes
  rw [List.mem_eraseDups, mem_sort]
  simp only [List.mem_filter, List.mem_map, Bool.and_eq_true, Bool.not_eq_true', List.contains_eq_mem, decide_eq_false_iff_not]
  constructor
  · rintro ⟨⟨i, h1, rfl⟩, h2, h3⟩
    exact ⟨i, h1, rfl, by simpa using h2, h3⟩
  · rintro ⟨i, h1, rfl, h2, h3⟩
    exact ⟨⟨i, h1, rfl⟩, by simpa using h2, h3⟩

theorem depsOf_some {l : List Nat} {d : List (Nat × Nat)} (h : depsOf b l = some d) :
    ∀ k w, (k, w) ∈ d ↔ ∃ e ∈ l, b.emap e = some k ∧ w = Graph.weight ⟨b.edges⟩ k := by
  induction l generalizing d with
  | nil => simp only [depsOf, Option.some.injEq] at h; subst h; simp
  | cons e l ih =>
    simp only [depsOf, Option.bind_eq_some_iff, Option.map_eq_some_iff] at h
    obtain ⟨k, h1, d', h2, rfl⟩ := h
    intro k' w
    simp only [List.mem_cons, Prod.mk.injEq, ih h2, exists_eq_or_imp, h1, Option.some.injEq]
    constructor
    · rintro (⟨rfl, rfl⟩ | h)
      · exact .inl ⟨rfl, rfl⟩
      · exact .inr h
    · rintro (⟨rfl, rfl⟩ | h)
      · exact .inl ⟨rfl, rfl⟩
      · exact .inr h

theorem depsOf_ne {l : List Nat} (h : ∀ e ∈ l, b.emap e ≠ none) : depsOf b l ≠ none := by
  induction l with
  | nil => simp [depsOf]
  | cons e l ih =>
    obtain ⟨k, hk⟩ := Option.ne_none_iff_exists'.1 (h e (by simp))
    obtain ⟨d, hd⟩ := Option.ne_none_iff_exists'.1 (ih fun e he => h e (by simp [he]))
    simp [depsOf, hk, hd]

theorem groups_some {ks : List (Nat × Nat)} {rs : List Req} (h : groups b T ks = some rs) : ∀ r, r ∈ rs ↔ ∃ k ∈ ks, group b T k = some r := by
  induction ks generalizing rs with
  | nil => simp only [groups, Option.some.injEq] at h; subst h; simp
  | cons k ks ih =>
    simp only [groups, Option.bind_eq_some_iff, Option.map_eq_some_iff] at h
    obtain ⟨r', h1, rs', h2, rfl⟩ := h
    intro r
    simp only [List.mem_cons, ih h2, exists_eq_or_imp, h1, Option.some.injEq]
    constructor
    · rintro (rfl | h)
      · exact .inl rfl
      · exact .inr h
    · rintro (rfl | h)
      · exact .inl rfl
      · exact .inr h

theorem groups_ne {ks : List (Nat × Nat)} (h : ∀ k ∈ ks, group b T k ≠ none) : groups b T ks ≠ none := by
  induction ks with
  | nil => simp [groups]
  | cons k l ih =>
    obtain ⟨r, hr⟩ := Option.ne_none_iff_exists'.1 (h k (by simp))
    obtain ⟨d, hd⟩ := Option.ne_none_iff_exists'.1 (ih fun e he => h e (by simp [he]))
    simp [groups, hr, hd]

theorem groups_ne_of {ks : List (Nat × Nat)} {rs : List Req} (h : groups b T ks = some rs) : ∀ k ∈ ks, group b T k ≠ none := by
  induction ks generalizing rs with
  | nil => simp
  | cons k ks ih =>
    simp only [groups, Option.bind_eq_some_iff, Option.map_eq_some_iff] at h
    obtain ⟨r', h1, rs', h2, rfl⟩ := h
    intro k' hk
    rcases List.mem_cons.1 hk with rfl | hk
    · rw [h1]; simp
    · exact ih h2 k' hk

/-- Every edge with requirements has a node. -/
theorem Built.finish (h : Built sp b T S) : ∃ inp, finish b T S = some inp := by
  apply Option.ne_none_iff_exists'.1
  unfold SteinerInput.finish
  simp only [ne_eq, Option.map_eq_none_iff]
  refine groups_ne fun k hk => ?_
  unfold group
  simp only [ne_eq, Option.map_eq_none_iff]
  refine depsOf_ne fun e he => ?_
  simp only [List.mem_map, List.mem_filter] at he
  obtain ⟨p, ⟨hp, -⟩, rfl⟩ := he
  obtain ⟨n, k1, k2, k3, k4, -⟩ := h.reqs.req p hp
  exact h.all n k1 k2 _ k4

/-- The requirements by edge of the input. -/
theorem Built.byReq {inp : Input} (h : Built sp b T S) (hf : SteinerInput.finish b T S = some inp) :
    (∀ p ∈ b.byReq, ∃ r ∈ inp.byReq, r.space = p.2.2 ∧ r.req = reqNodes b T p.2.2 ∧ ∃ k w, b.emap p.2.1 = some k ∧ (k, w) ∈ r.deps) ∧
    ∀ r ∈ inp.byReq, r.req = reqNodes b T r.space ∧ ∀ d ∈ r.deps, ∃ p ∈ b.byReq, r.space = p.2.2 ∧ b.emap p.2.1 = some d.1 := by
  unfold SteinerInput.finish at hf
  rw [Option.map_eq_some_iff] at hf
  obtain ⟨rs, hg, rfl⟩ := hf
  have hr := groups_some hg
  have hkey : ∀ p ∈ b.byReq, (b.interned[(b.key p).2]?).getD [] = p.2.2 := fun p hp => by
    obtain ⟨n, -, -, -, -, -, k6, -⟩ := h.reqs.req p hp
    have hlt : b.interned.idxOf p.2.2 < b.interned.length := List.idxOf_lt_length_iff.2 k6
    simp only [B.key]
    rw [List.getElem?_eq_getElem hlt, Option.getD_some]
    exact List.getElem_idxOf hlt
  refine ⟨fun p hp => ?_, fun r hm => ?_⟩
  · have hk : b.key p ∈ sortBy keyLe (b.byReq.map b.key).eraseDups := (sortBy_perm _ _).mem_iff.2 (List.mem_eraseDups.2 (List.mem_map.2 ⟨p, hp, rfl⟩))
    cases hgr : group b T (b.key p) with
    | none => exact absurd hgr (by
        intro hgr
        have := (groups_ne_of hg) _ hk
        exact this hgr)
    | some r =>
      refine ⟨r, (hr r).2 ⟨_, hk, hgr⟩, ?_⟩
      unfold group at hgr
      simp only [Option.map_eq_some_iff] at hgr
      obtain ⟨d, hd, rfl⟩ := hgr
      refine ⟨hkey p hp, by rw [hkey p hp], ?_⟩
      obtain ⟨n, k1, k2, k3, k4, -⟩ := h.reqs.req p hp
      obtain ⟨k, hk'⟩ := Option.ne_none_iff_exists'.1 (h.all n k1 k2 _ k4)
      exact ⟨k, _, hk', (depsOf_some hd _ _).2 ⟨p.2.1, List.mem_map.2 ⟨p, by simp [hp], rfl⟩, hk', rfl⟩⟩
  · obtain ⟨k, -, hgr⟩ := (hr r).1 hm
    unfold group at hgr
    simp only [Option.map_eq_some_iff] at hgr
    obtain ⟨d, hd, rfl⟩ := hgr
    refine ⟨rfl, fun q hq => ?_⟩
    obtain ⟨e, he, h1, -⟩ := (depsOf_some hd q.1 q.2).1 hq
    obtain ⟨p, hp, rfl⟩ := List.mem_map.1 he
    simp only [List.mem_filter, decide_eq_true_eq] at hp
    exact ⟨p, hp.1, by rw [← hp.2]; exact hkey p hp.1, h1⟩

end Verif.SteinerInput
