import Verif.RespAuth.Spec
import Verif.NullProp.RootLemmas
import Verif.NullProp.ObjLemmas

/-!
# Lemmas on denials
-/
namespace Verif.RespAuth

open Verif.NullProp
open Verif.DefaultMerge (Key)

/-! ## Reachability -/

theorem Deref.det {ps : List Data} {v w w' : Val} (h : Deref ps v w) (h' : Deref ps v w') : w = w' := by
  induction h with
  | here hv =>
    cases h' with
    | here _ => rfl
    | step _ _ => exact absurd rfl (hv _)
  | step hc _ ih =>
    cases h' with
    | here hv => exact absurd rfl (hv _)
    | step hc' h' =>
      rw [hc] at hc'
      simp only [Option.some.injEq] at hc'
      subst hc'
      exact ih h'

theorem field_eq {F : List Fld} (hn : (F.map (·.key.key)).Nodup) {f g : Fld} (hf : f ∈ F) (hg : g ∈ F)
    (h : f.key.key = g.key.key) : f = g := inj_of_nodup_map hn f hf g hg h

/-- A path of keys and indices leads to one value. -/
theorem Reaches.det {ps : List Data} {root : Id} (hk : ∀ o F, getObj ps o = some F → (F.map (·.key.key)).Nodup) {p : List VId} {w : Val}
    (h : Reaches ps root p w) : ∀ {p' : List VId} {w' : Val}, Reaches ps root p' w' → p.map seg = p'.map seg → w = w' := by
  induction h with
  | root =>
    intro p' w' h' hs
    cases h' with
    | root => rfl
    | field _ _ _ _ => simp at hs
    | index _ _ _ _ => simp at hs
  | field _ hF hf hd ih =>
    intro p' w' h' hs
    cases h' with
    | root => simp at hs
    | field h1 hF' hf' hd' =>
      simp only [List.map_cons, seg, List.cons.injEq, Seg.key.injEq] at hs
      have := ih h1 hs.2
      simp only [Val.obj.injEq] at this
      subst this
      rw [hF] at hF'
      simp only [Option.some.injEq] at hF'
      subst hF'
      have := field_eq (hk _ _ hF) hf hf' hs.1
      subst this
      exact hd.det hd'
    | index _ _ _ _ => simp [seg] at hs
  | index _ hvs hv hd ih =>
    intro p' w' h' hs
    cases h' with
    | root => simp at hs
    | field _ _ _ _ => simp [seg] at hs
    | index h1 hvs' hv' hd' =>
      simp only [List.map_cons, seg, List.cons.injEq, Seg.ix.injEq] at hs
      have := ih h1 hs.2
      simp only [Val.list.injEq] at this
      subst this
      rw [hvs] at hvs'
      simp only [Option.some.injEq] at hvs'
      subst hvs'
      rw [hs.1, hv'] at hv
      simp only [Option.some.injEq] at hv
      subst hv
      exact hd.det hd'

/-! ## Marks -/

/-- The path of what is hidden for a denial, innermost first; empty for the whole data. -/
def markOf (rule : Rule) (t : Target) (ref : Ref) : List VId :=
  if rule = .field ∧ t.required = false then .field ref.id t.key true :: ref.path
  else ref.path.dropWhile fun v => !v.nullable

theorem find_dropWhile (l : List VId) : l.find? VId.nullable = (l.dropWhile fun v => !v.nullable).head? := by
  induction l with
  | nil => rfl
  | cons v l ih =>
    cases hv : v.nullable with
    | true => simp [hv]
    | false => simp [hv, ih]

theorem nearest_path (l : List VId) :
    nearest (l.map fun v => (seg v, v.nullable)) =
      if (l.dropWhile fun v => !v.nullable) = [] then none else some ((l.dropWhile fun v => !v.nullable).map seg) := by
  induction l with
  | nil => rfl
  | cons v l ih =>
    cases hv : v.nullable with
    | true => simp [hv, nearest]
    | false =>
      simp only [List.map_cons, hv, nearest, ih]
      simp [hv]

theorem nearest_denied (rule : Rule) (t : Target) (ref : Ref) :
    nearest (denied rule t ref) = if markOf rule t ref = [] then none else some ((markOf rule t ref).map seg) := by
  unfold denied markOf posOf
  cases rule with
  | output => simp [nearest_path]
  | field =>
    cases hr : t.required with
    | true => simp [nearest, nearest_path]
    | false => simp [nearest, seg]

theorem errorPath_eq (rule : Rule) (t : Target) (ref : Ref) :
    errorPath rule t ref = ((denied rule t ref).map (·.1)).reverse := by
  unfold errorPath denied posOf
  cases rule <;> simp

theorem removeData_eq (rule : Rule) (t : Target) (ref : Ref) (r : Response) :
    removeData rule t ref r = match (markOf rule t ref).head? with
      | none => some { r with root := none }
      | some v => (makeInaccessible r.parts v).map fun ps => { r with parts := ps } := by
  unfold removeData markOf
  cases rule with
  | output => simp only [propagateNull, find_dropWhile, reduceCtorEq, false_and, if_false]; rfl
  | field =>
    cases hr : t.required with
    | true => simp only [propagateNull, find_dropWhile, if_true, Bool.true_eq_false, and_false, if_false]; rfl
    | false => simp [hideValue]

/-! ## Sequences of denials -/

/-- A denied object. -/
structure Item where
  rule : Rule
  t : Target
  ref : Ref
  err : Nat

/-- Its denial. -/
def Item.denial (i : Item) : Denial := ⟨denied i.rule i.t i.ref, i.err⟩

/-- Its mark. -/
def Item.mark (i : Item) : List VId := markOf i.rule i.t i.ref

/-- The denials one after the other. -/
def denyItems : List Item → St → Option St
  | [], s => some s
  | i :: is, s =>
    match denyOne i.rule i.t i.ref i.err s with
    | none => none
    | some s => denyItems is s

theorem denyItems_append {is js : List Item} {s : St} : denyItems (is ++ js) s = (denyItems is s).bind (denyItems js) := by
  induction is generalizing s with
  | nil => rfl
  | cons i is ih =>
    rw [List.cons_append, denyItems, denyItems]
    cases denyOne i.rule i.t i.ref i.err s with
    | none => rfl
    | some s => exact ih

theorem denyRefs_items {rule : Rule} {t : Target} {err : Nat} {refs : List Ref} {s : St} :
    denyRefs rule t err refs s = denyItems (refs.map fun r => ⟨rule, t, r, err⟩) s := by
  induction refs generalizing s with
  | nil => rfl
  | cons r refs ih =>
    rw [denyRefs, List.map_cons, denyItems]
    simp only
    cases denyOne rule t r err s with
    | none => rfl
    | some s => exact ih

theorem denyElements_items {rule : Rule} {t : Target} {refs : List Ref} {errors : List Nat} {els : List (Nat × Nat)}
    {ds : List (Ref × Nat)} (hl : els.length = ds.length)
    (h : ∀ (n : Nat) el d, els[n]? = some el → ds[n]? = some d → refs[el.1]? = some d.1 ∧ errors[el.2]? = some d.2) {s : St} :
    denyElements rule t refs errors els s = denyItems (ds.map fun r => ⟨rule, t, r.1, r.2⟩) s := by
  induction els generalizing ds s with
  | nil =>
    cases ds with
    | nil => rfl
    | cons _ _ => simp at hl
  | cons el els ih =>
    cases ds with
    | nil => simp at hl
    | cons d ds =>
      obtain ⟨i, e⟩ := el
      obtain ⟨h1, h2⟩ := h 0 (i, e) d rfl rfl
      simp only at h1 h2
      rw [denyElements, h1, h2, List.map_cons, denyItems]
      simp only
      cases denyOne rule t d.1 d.2 s with
      | none => rfl
      | some s =>
        exact ih (by simpa using hl) fun n el d h1 h2 => h (n + 1) el d (by simpa using h1) (by simpa using h2)

theorem denies_mem {refs : List Ref} {d : Decisions} {rs : List (Ref × Nat)} (h : Denies refs d rs) : ∀ r ∈ rs, r.1 ∈ refs := by
  intro r hr
  cases h with
  | grantAll => simp at hr
  | denyAll => obtain ⟨x, hx, rfl⟩ := List.mem_map.1 hr; exact hx
  | failed => obtain ⟨x, hx, rfl⟩ := List.mem_map.1 hr; exact hx
  | denySome hl hd =>
    obtain ⟨n, hn⟩ := List.getElem?_of_mem hr
    have hlt := hl ▸ (List.getElem?_eq_some_iff.1 hn).1
    exact List.mem_of_getElem? (hd n _ r (List.getElem?_eq_getElem hlt) hn).1

theorem runTarget_items {sets : Sets} {rule : Rule} {t : Target} {d : Decisions} {refs : List Ref} {rs : List (Ref × Nat)}
    (hc : parents sets t = refs) (hne : refs ≠ []) (h : Denies refs d rs) (s : St) :
    runTarget sets rule t d s = denyItems (rs.map fun r => ⟨rule, t, r.1, r.2⟩) s := by
  unfold runTarget
  simp only [hc]
  have : refs.isEmpty = false := by
    cases refs with
    | nil => exact absurd rfl hne
    | cons _ _ => rfl
  rw [this]
  simp only [Bool.false_eq_true, if_false]
  cases h with
  | grantAll => rfl
  | denyAll => rw [List.map_map]; exact denyRefs_items
  | failed => rw [List.map_map]; exact denyRefs_items
  | denySome hl hd => exact denyElements_items hl hd

theorem parents_of_concerns {sets : Sets} {t : Target} {refs : List Ref} (h : Concerns sets t refs) : parents sets t = refs := by
  obtain ⟨all, h1, rfl⟩ := h
  unfold parents
  rw [h1]

/-- What is needed of a denied object. -/
def Item.Ok (ps : List Data) (root : Id) (i : Item) : Prop :=
  Reaches ps root i.ref.path (.obj i.ref.id) ∧
    (i.rule = .field → i.t.required = false → ∃ F, getObj ps i.ref.id = some F ∧ ∃ f ∈ F, f.key = i.t.key)

theorem Tracked.tail {sets : Sets} {ps : List Data} {root : Id} {m : Rule × Target × Decisions}
    {ms : List (Rule × Target × Decisions)} (h : Tracked sets ps root (m :: ms)) : Tracked sets ps root ms :=
  ⟨fun x hx => h.refs x (List.mem_cons_of_mem _ hx), fun x hx => h.fields x (List.mem_cons_of_mem _ hx)⟩

theorem allDenials_items {sets : Sets} {ms : List (Rule × Target × Decisions)} {dens : List Denial} (h : AllDenials sets ms dens) :
    ∃ is : List Item, dens = is.map Item.denial ∧ (∀ s, runModifiers sets ms s = denyItems is s) ∧
      ∀ ps root, Tracked sets ps root ms → ∀ i ∈ is, i.Ok ps root := by
  induction h with
  | nil => exact ⟨[], rfl, fun _ => rfl, by simp⟩
  | @skip rule t d ms ds hn _ ih =>
    obtain ⟨is, h1, h2, h3⟩ := ih
    refine ⟨is, h1, fun s => ?_, fun ps root ht => h3 ps root ht.tail⟩
    have : parents sets t = [] := by unfold parents; rw [hn]
    rw [runModifiers, show runTarget sets rule t d s = some s by unfold runTarget; simp [this]]
    exact h2 s
  | @empty rule t d ms ds hc _ ih =>
    obtain ⟨is, h1, h2, h3⟩ := ih
    refine ⟨is, h1, fun s => ?_, fun ps root ht => h3 ps root ht.tail⟩
    have : parents sets t = [] := parents_of_concerns hc
    rw [runModifiers, show runTarget sets rule t d s = some s by unfold runTarget; simp [this]]
    exact h2 s
  | @cons rule t d ms ds refs rs hc hne hd _ ih =>
    obtain ⟨is, h1, h2, h3⟩ := ih
    refine ⟨rs.map (fun r => ⟨rule, t, r.1, r.2⟩) ++ is, ?_, ?_, ?_⟩
    · rw [List.map_append, h1, List.map_map]
      rfl
    · intro s
      rw [runModifiers, runTarget_items (parents_of_concerns hc) hne hd, denyItems_append]
      cases denyItems (rs.map fun r => (⟨rule, t, r.1, r.2⟩ : Item)) s with
      | none => rfl
      | some s => exact h2 s
    · intro ps root ht i hi
      rcases List.mem_append.1 hi with hi | hi
      · obtain ⟨r, hr, rfl⟩ := List.mem_map.1 hi
        have hmem := denies_mem hd r hr
        obtain ⟨all, hall, hrefs⟩ := hc
        have hin : r.1 ∈ all ∧ (sets.ty t.set = t.ty ∨ sets.possible t.ty r.1.ty = true) := by
          rw [hrefs] at hmem
          split at hmem
          · next he => exact ⟨hmem, .inl he⟩
          · exact ⟨(List.mem_filter.1 hmem).1, .inr (List.mem_filter.1 hmem).2⟩
        exact ⟨ht.refs _ List.mem_cons_self all hall r.1 hin.1,
          fun hf hq => ht.fields _ List.mem_cons_self hf hq all hall r.1 hin.1 hin.2⟩
      · exact h3 ps root ht.tail i hi

/-- The ids marked. -/
def heads (is : List Item) : List VId := is.filterMap fun i => i.mark.head?

theorem denyItems_eq (is : List Item) : ∀ (r : Response) (es : List Err),
    denyItems is ⟨r, es⟩ = (makeAll r.parts (heads is)).map fun ps =>
      ⟨⟨ps, if is.any (fun i => i.mark.isEmpty) then none else r.root⟩,
        es ++ is.map fun i => ⟨i.err, errorPath i.rule i.t i.ref⟩⟩ := by
  induction is with
  | nil => intro r es; simp [denyItems, heads, makeAll]
  | cons i is ih =>
    intro r es
    rw [denyItems, denyOne, removeData_eq]
    show _ = _
    cases hm : markOf i.rule i.t i.ref with
    | nil =>
      simp only [List.head?_nil, Option.map_some]
      rw [ih]
      simp [heads, Item.mark, hm]
    | cons v p =>
      simp only [List.head?_cons]
      have hh : heads (i :: is) = v :: heads is := by simp [heads, Item.mark, hm]
      rw [hh, makeAll]
      cases hv : makeInaccessible r.parts v with
      | none => rfl
      | some ps =>
        simp only [Option.map_some]
        rw [ih]
        simp [Item.mark, hm]

/-! ## The marks lead somewhere -/

theorem Reaches.suffix {ps : List Data} {root : Id} {p q : List VId} {w : Val} (h : Reaches ps root p w) (hs : q <:+ p) :
    ∃ w', Reaches ps root q w' := by
  induction h with
  | root =>
    have := List.suffix_nil.1 hs
    subst this
    exact ⟨_, .root⟩
  | field h1 hF hf hd ih =>
    rcases List.suffix_cons_iff.1 hs with rfl | hs
    · exact ⟨_, .field h1 hF hf hd⟩
    · exact ih hs
  | index h1 hF hf hd ih =>
    rcases List.suffix_cons_iff.1 hs with rfl | hs
    · exact ⟨_, .index h1 hF hf hd⟩
    · exact ih hs

/-- A mark leads to a field of an object or an item of a list. -/
inductive Marked (ps : List Data) (root : Id) : List VId → Prop where
  | field {p o F f k} : Reaches ps root p (.obj o) → getObj ps o = some F → f ∈ F → f.key = k →
    Marked ps root (.field o k true :: p)
  | index {p l vs i v} : Reaches ps root p (.list l) → getList ps l = some vs → vs[i]? = some v →
    Marked ps root (.index l i true :: p)

theorem head_dropWhile {l : List VId} {v : VId} {p : List VId} (h : (l.dropWhile fun v => !v.nullable) = v :: p) :
    v.nullable = true := by
  induction l with
  | nil => simp at h
  | cons x l ih =>
    cases hx : x.nullable with
    | true =>
      simp only [List.dropWhile_cons, hx, Bool.not_true, Bool.false_eq_true, if_false, List.cons.injEq] at h
      exact h.1 ▸ hx
    | false =>
      simp only [List.dropWhile_cons, hx, Bool.not_false, if_true] at h
      exact ih h

theorem Item.Ok.marked {ps : List Data} {root : Id} {i : Item} (h : i.Ok ps root) (hne : i.mark ≠ []) : Marked ps root i.mark := by
  unfold Item.mark markOf at *
  split at hne
  · next hc =>
    rw [if_pos hc]
    obtain ⟨F, hF, f, hf, hk⟩ := h.2 hc.1 hc.2
    exact .field h.1 hF hf hk
  · next hc =>
    rw [if_neg hc]
    cases hd : i.ref.path.dropWhile fun v => !v.nullable with
    | nil => exact absurd hd hne
    | cons v p =>
      have hv := head_dropWhile hd
      obtain ⟨w', hw'⟩ := h.1.suffix (hd ▸ List.dropWhile_suffix _)
      cases hw' with
      | @field _ o F f n _ h1 hF hf hd' =>
        simp only [VId.nullable] at hv
        subst hv
        exact .field h1 hF hf rfl
      | @index _ l vs j x n _ h1 hF hf hd' =>
        simp only [VId.nullable] at hv
        subst hv
        exact .index h1 hF hf

/-- The marks, as a property of ids. -/
theorem mem_heads {is : List Item} {v : VId} : v ∈ heads is ↔ ∃ i ∈ is, ∃ p, i.mark = v :: p := by
  unfold heads
  rw [List.mem_filterMap]
  constructor
  · rintro ⟨i, hi, hh⟩
    cases hm : i.mark with
    | nil => rw [hm] at hh; simp at hh
    | cons w p =>
      rw [hm] at hh
      simp only [List.head?_cons, Option.some.injEq] at hh
      exact ⟨i, hi, p, by rw [hm, hh]⟩
  · rintro ⟨i, hi, p, hm⟩
    exact ⟨i, hi, by rw [hm]; rfl⟩

/-- The positions marked. -/
def Hit (is : List Item) (q : List Seg) : Prop := ∃ i ∈ is, i.mark ≠ [] ∧ i.mark.map seg = q

theorem field_hit {ps : List Data} {root : Id} {is : List Item} (ht : Tree ps root) (hok : ∀ i ∈ is, i.Ok ps root)
    {p : List VId} {o : Id} {F : List Fld} {f : Fld} (hp : Reaches ps root p (.obj o)) (hF : getObj ps o = some F) (hf : f ∈ F) :
    .field o f.key true ∈ heads is ↔ Hit is (.key f.key.key :: p.map seg) := by
  rw [mem_heads]
  constructor
  · rintro ⟨i, hi, p', hm⟩
    refine ⟨i, hi, by rw [hm]; simp, ?_⟩
    have := (hok i hi).marked (by rw [hm]; simp)
    rw [hm] at this ⊢
    cases this with
    | field h1 _ _ _ =>
      simp only [List.map_cons, seg]
      rw [ht.objs _ _ _ h1 hp]
  · rintro ⟨i, hi, hne, hs⟩
    have := (hok i hi).marked hne
    cases hm : i.mark with
    | nil => exact absurd hm hne
    | cons v p' =>
      rw [hm] at this hs
      cases this with
      | field h1 hF' hf' hk' =>
        subst hk'
        simp only [List.map_cons, seg, List.cons.injEq, Seg.key.injEq] at hs
        have := h1.det ht.keys hp hs.2
        simp only [Val.obj.injEq] at this
        subst this
        rw [hF] at hF'
        simp only [Option.some.injEq] at hF'
        subst hF'
        have := field_eq (ht.keys _ _ hF) hf' hf hs.1
        subst this
        exact ⟨i, hi, _, hm⟩
      | index _ _ _ => simp [seg] at hs

theorem index_hit {ps : List Data} {root : Id} {is : List Item} (ht : Tree ps root) (hok : ∀ i ∈ is, i.Ok ps root)
    {p : List VId} {l : Id} {j : Nat} (hp : Reaches ps root p (.list l)) :
    .index l j true ∈ heads is ↔ Hit is (.ix j :: p.map seg) := by
  rw [mem_heads]
  constructor
  · rintro ⟨i, hi, p', hm⟩
    refine ⟨i, hi, by rw [hm]; simp, ?_⟩
    have := (hok i hi).marked (by rw [hm]; simp)
    rw [hm] at this ⊢
    cases this with
    | index h1 _ _ =>
      simp only [List.map_cons, seg]
      rw [ht.lists _ _ _ h1 hp]
  · rintro ⟨i, hi, hne, hs⟩
    have := (hok i hi).marked hne
    cases hm : i.mark with
    | nil => exact absurd hm hne
    | cons v p' =>
      rw [hm] at this hs
      cases this with
      | index h1 hF' hf' =>
        simp only [List.map_cons, seg, List.cons.injEq, Seg.ix.injEq] at hs
        have := h1.det ht.keys hp hs.2
        simp only [Val.list.injEq] at this
        subst this
        obtain ⟨rfl, _⟩ := hs
        exact ⟨i, hi, _, hm⟩
      | field _ _ _ _ => simp [seg] at hs

/-- Nothing is marked inside a value that is neither object nor list. -/
theorem no_hit {ps : List Data} {root : Id} {is : List Item} (ht : Tree ps root) (hok : ∀ i ∈ is, i.Ok ps root)
    {p : List VId} {w : Val} (hp : Reaches ps root p w) (ho : ∀ o, w ≠ .obj o) (hl : ∀ l, w ≠ .list l) (s : Seg) :
    ¬ Hit is (s :: p.map seg) := by
  rintro ⟨i, hi, hne, hs⟩
  have := (hok i hi).marked hne
  cases hm : i.mark with
  | nil => exact absurd hm hne
  | cons v p' =>
    rw [hm] at this hs
    simp only [List.map_cons, List.cons.injEq] at hs
    cases this with
    | field h1 _ _ _ => exact ho _ (h1.det ht.keys hp hs.2).symm
    | index h1 _ _ => exact hl _ (h1.det ht.keys hp hs.2).symm

/-! ## What is shown -/

theorem dropWhile_map {F : List Fld} {g : Fld → Fld} (hg : ∀ f, (g f).key = f.key) :
    (F.map g).dropWhile (fun f => !visible f.key) = (F.dropWhile fun f => !visible f.key).map g := by
  induction F with
  | nil => rfl
  | cons f F ih =>
    simp only [List.map_cons, List.dropWhile_cons, hg]
    split
    · exact ih
    · rfl

theorem shows_without {ps h : List Data} {root : Id} {is : List Item} (ht : Tree ps root) (hok : ∀ i ∈ is, i.Ok ps root)
    (hm : makeAll ps (heads is) = some h) (n : Nat) : ∀ (v : Val) (p : List VId) (out : Out), Reaches ps root p v →
    ¬ Hit is (p.map seg) → showVal n ps v = some out → ∃ out', showVal n h v = some out' ∧ Without (Hit is) (p.map seg) out out' := by
  have hnul : ∀ v ∈ heads is, v.nullable = true := by
    intro v hv
    obtain ⟨i, hi, p, hp⟩ := mem_heads.1 hv
    have := (hok i hi).marked (by rw [hp]; simp)
    rw [hp] at this
    cases this <;> rfl
  induction n with
  | zero => intro v p out _ _ hs; simp [showVal] at hs
  | succ n ih =>
    -- a link
    have link : ∀ (x x' : Val) (q : List VId) (o : Out), (∀ w, Deref ps x w → Reaches ps root q w) →
        (x' = x ∧ ¬ Hit is (q.map seg) ∨ (∃ c, x' = .inacc c) ∧ Hit is (q.map seg)) → showVal n ps x = some o →
        ∃ o', showVal n h x' = some o' ∧ Without (Hit is) (q.map seg) o o' := by
      intro x x' q o hr hx hs
      have hpos : n ≠ 0 := by rintro rfl; simp [showVal] at hs
      obtain ⟨m, rfl⟩ := Nat.exists_eq_succ_of_ne_zero hpos
      rcases hx with ⟨rfl, hnh⟩ | ⟨⟨c, rfl⟩, hh⟩
      · by_cases hc : ∃ c, x' = .inacc c
        · obtain ⟨c, rfl⟩ := hc
          simp only [showVal, Option.some.injEq] at hs
          subst hs
          exact ⟨.null, rfl, .null⟩
        · exact ih x' q o (hr _ (.here fun c hc' => hc ⟨c, hc'⟩)) hnh hs
      · exact ⟨.null, rfl, .denied hh⟩
    intro v p out hp hnh hs
    cases v with
    | null =>
      simp only [showVal, Option.some.injEq] at hs
      subst hs
      exact ⟨_, rfl, .null⟩
    | unexpected =>
      simp only [showVal, Option.some.injEq] at hs
      subst hs
      exact ⟨_, rfl, .null⟩
    | inacc c =>
      simp only [showVal, Option.some.injEq] at hs
      subst hs
      exact ⟨_, rfl, .null⟩
    | leaf l =>
      simp only [showVal, Option.some.injEq] at hs
      subst hs
      exact ⟨_, rfl, .leaf hnh⟩
    | packed ls =>
      simp only [showVal, Option.some.injEq] at hs
      subst hs
      refine ⟨_, rfl, .list hnh rfl ?_⟩
      intro i o o' ho ho'
      rw [ho] at ho'
      simp only [Option.some.injEq] at ho'
      subst ho'
      rw [List.getElem?_map] at ho
      obtain ⟨l, _, rfl⟩ := Option.map_eq_some_iff.1 ho
      exact .leaf (no_hit ht hok hp (by simp) (by simp) _)
    | list l =>
      simp only [showVal] at hs ⊢
      obtain ⟨vs, hvs, hs⟩ := Option.bind_eq_some_iff.1 hs
      obtain ⟨os, hos, rfl⟩ := Option.map_eq_some_iff.1 hs
      obtain ⟨c, hc⟩ := makeAll_list hm hnul hvs
      rw [hc]
      simp only [Option.bind_some]
      obtain ⟨hl, hi⟩ := mapM_eq_some_iff.1 hos
      have hlink : ∀ (i : Nat) x o, vs[i]? = some x → os[i]? = some o →
          ∃ o', showVal n h (if .index l i true ∈ heads is then .inacc (c i) else x) = some o' ∧
            Without (Hit is) (.ix i :: p.map seg) o o' := by
        intro i x o hx ho
        refine link x _ (.index l i true :: p) o (fun w hw => .index hp hvs hx hw) ?_ (hi i x o hx ho)
        have := index_hit (is := is) (j := i) ht hok hp
        by_cases hmem : .index l i true ∈ heads is
        · rw [if_pos hmem]
          exact .inr ⟨⟨_, rfl⟩, this.1 hmem⟩
        · rw [if_neg hmem]
          exact .inl ⟨rfl, fun hh => hmem (this.2 hh)⟩
      have htot : ∃ os', (vs.mapIdx fun i w => if .index l i true ∈ heads is then .inacc (c i) else w).mapM
          (fun v => showVal n h v) = some os' := by
        cases hcase : (vs.mapIdx fun i w => if .index l i true ∈ heads is then .inacc (c i) else w).mapM
            (fun v => showVal n h v) with
        | some os' => exact ⟨os', rfl⟩
        | none =>
          exfalso
          obtain ⟨x, hx, hxn⟩ := mapM_none.1 hcase
          obtain ⟨i, hix⟩ := List.getElem?_of_mem hx
          rw [List.getElem?_mapIdx] at hix
          obtain ⟨y, hy, rfl⟩ := Option.map_eq_some_iff.1 hix
          have hlt : i < os.length := hl ▸ (List.getElem?_eq_some_iff.1 hy).1
          obtain ⟨o', ho', _⟩ := hlink i y _ hy (List.getElem?_eq_getElem hlt)
          rw [ho'] at hxn
          simp at hxn
      obtain ⟨os', hos'⟩ := htot
      rw [hos']
      refine ⟨_, rfl, .list hnh ?_ ?_⟩
      · rw [← hl, ← (mapM_eq_some_iff.1 hos').1, List.length_mapIdx]
      · intro i o o' ho ho'
        have hlt : i < vs.length := hl ▸ (List.getElem?_eq_some_iff.1 ho).1
        have hx := List.getElem?_eq_getElem hlt
        obtain ⟨o2, ho2, hw⟩ := hlink i _ o hx ho
        have := (mapM_eq_some_iff.1 hos').2 i _ o' (by rw [List.getElem?_mapIdx, hx]; rfl) ho'
        rw [ho2] at this
        simp only [Option.some.injEq] at this
        exact this ▸ hw
    | obj id =>
      simp only [showVal] at hs ⊢
      obtain ⟨F, hF, hs⟩ := Option.bind_eq_some_iff.1 hs
      obtain ⟨os, hos, rfl⟩ := Option.map_eq_some_iff.1 hs
      obtain ⟨c, hc⟩ := makeAll_obj hm hnul hF (by
        intro k hk
        obtain ⟨i, hi, q, hq⟩ := mem_heads.1 hk
        have := (hok i hi).marked (by rw [hq]; simp)
        rw [hq] at this
        cases this with
        | field _ hF' hf' hk' =>
          rw [hF] at hF'
          simp only [Option.some.injEq] at hF'
          subst hF'
          exact List.mem_map.2 ⟨_, hf', hk'⟩)
      rw [hc]
      simp only [Option.bind_some]
      obtain ⟨g, hgdef⟩ : ∃ g : Fld → Fld, g = fun f => ⟨f.key, if .field id f.key true ∈ heads is then .inacc (c f.key) else f.value⟩ :=
        ⟨_, rfl⟩
      rw [← hgdef, dropWhile_map (by intro f; rw [hgdef])]
      obtain ⟨F1, hF1⟩ : ∃ F1, F1 = F.dropWhile fun f => !visible f.key := ⟨_, rfl⟩
      rw [← hF1] at hos ⊢
      have hsub : ∀ f ∈ F1, f ∈ F := fun f hf => (List.dropWhile_suffix (fun f : Fld => !visible f.key)).subset (hF1 ▸ hf)
      obtain ⟨hl, hi⟩ := mapM_eq_some_iff.1 hos
      have hlink : ∀ (i : Nat) f o, F1[i]? = some f → os[i]? = some o → o.1 = f.key.key ∧
          ∃ o', showVal n h (g f).value = some o' ∧ Without (Hit is) (.key f.key.key :: p.map seg) o.2 o' := by
        intro i f o hf ho
        have hff := hsub f (List.mem_of_getElem? hf)
        obtain ⟨o1, ho1, rfl⟩ := Option.map_eq_some_iff.1 (hi i f o hf ho)
        refine ⟨rfl, link f.value _ (.field id f.key true :: p) o1 (fun w hw => .field hp hF hff hw) ?_ ho1⟩
        have := field_hit (is := is) ht hok hp hF hff
        rw [hgdef]
        simp only
        by_cases hmem : .field id f.key true ∈ heads is
        · rw [if_pos hmem]
          exact .inr ⟨⟨_, rfl⟩, this.1 hmem⟩
        · rw [if_neg hmem]
          exact .inl ⟨rfl, fun hh => hmem (this.2 hh)⟩
      have hgk : ∀ f, (g f).key = f.key := by intro f; rw [hgdef]
      have htot : ∃ os', (F1.map g).mapM (fun f => (showVal n h f.value).map fun o => (f.key.key, o)) = some os' := by
        cases hcase : (F1.map g).mapM (fun f => (showVal n h f.value).map fun o => (f.key.key, o)) with
        | some os' => exact ⟨os', rfl⟩
        | none =>
          exfalso
          obtain ⟨x, hx, hxn⟩ := mapM_none.1 hcase
          obtain ⟨i, hix⟩ := List.getElem?_of_mem hx
          rw [List.getElem?_map] at hix
          obtain ⟨y, hy, rfl⟩ := Option.map_eq_some_iff.1 hix
          have hlt : i < os.length := hl ▸ (List.getElem?_eq_some_iff.1 hy).1
          obtain ⟨_, o', ho', _⟩ := hlink i y _ hy (List.getElem?_eq_getElem hlt)
          rw [ho'] at hxn
          simp at hxn
      obtain ⟨os', hos'⟩ := htot
      rw [hos']
      obtain ⟨hl', hi'⟩ := mapM_eq_some_iff.1 hos'
      rw [List.length_map] at hl'
      have hget : ∀ (i : Nat) o o', os[i]? = some o → os'[i]? = some o' →
          o.1 = o'.1 ∧ Without (Hit is) (.key o.1 :: p.map seg) o.2 o'.2 := by
        intro i o o' ho ho'
        have hlt : i < F1.length := hl ▸ (List.getElem?_eq_some_iff.1 ho).1
        have hx := List.getElem?_eq_getElem hlt
        obtain ⟨hk, o2, ho2, hw⟩ := hlink i _ o hx ho
        have := hi' i _ o' (by rw [List.getElem?_map, hx]; rfl) ho'
        rw [ho2, hgk] at this
        simp only [Option.map_some, Option.some.injEq] at this
        subst this
        exact ⟨hk, hk ▸ hw⟩
      refine ⟨_, rfl, .obj hnh ?_ ?_⟩
      · apply List.ext_getElem?
        intro i
        rw [List.getElem?_map, List.getElem?_map]
        cases ho : os[i]? with
        | none =>
          have : os'[i]? = none := by
            rw [List.getElem?_eq_none_iff] at ho ⊢
            omega
          rw [this]
        | some o =>
          have hlt : i < os'.length := by
            have := (List.getElem?_eq_some_iff.1 ho).1
            omega
          have hx := List.getElem?_eq_getElem hlt
          rw [hx]
          simp only [Option.map_some]
          rw [(hget i o _ ho hx).1]
      · intro i k o o' ho ho'
        exact (hget i _ _ ho ho').2

end Verif.RespAuth
