import Verif.DeepMerge.Ends
/-!
# C65: merging what two plans say of the same object

`recursive_merge_object`, `recursive_merge_value` and `recursive_merge_list`, `response/write/merge.rs:74-161`, are
`mergeObj`, `mergeVal` and `mergeList` in NullProp/Model.lean.
-/
namespace Verif.DeepMerge

open Verif.DefaultMerge (Key)
open Verif.NullProp
open Verif.OpChecks (sortBy sortBy_perm)

variable {ps ps' : List Data} {n : Nat}

/-- The existing value stands for both values joined, and whatever shares no object with them is as before. -/
theorem C65_joined {v w : Val} {a b : Tree} {La Lb : List Id} (ha : Reps ps [v] [a] La) (hb : Reps ps [w] [b] Lb)
    (hd : (La ++ Lb).Nodup) (h : mergeVal n ps v w = some ps') :
    (∃ t L, Joins a b t ∧ Reps ps' [v] [t] L ∧ L.Nodup ∧ ∀ id ∈ L, id ∈ La ++ Lb) ∧
    ∀ vs ts L, Reps ps vs ts L → (∀ id ∈ L, id ∉ La ++ Lb) → Reps ps' vs ts L := by
  obtain ⟨t, L, h1, h2, h3, h4, h5⟩ := mv_sound n ps v w a b La Lb ps' ha hb hd h
  exact ⟨⟨t, L, h1, h2, h3, h4⟩, fun vs ts L r hL => r.frame h5 hL⟩

/-- The fields of a plan's object merged into an existing object. -/
theorem C65_object {id : Id} {X Y : List (Fld × Tree)} {Lx Ly : List Id} 
    (hX : getObj ps id = some (X.map Prod.fst)) (hY : Y.Pairwise fun a b => a.1.key.Before b.1.key)
    (hX' : X.Pairwise fun a b => a.1.key.Before b.1.key)
    (h1 : Reps ps (X.map (·.1.value)) (X.map Prod.snd) Lx) (h2 : Reps ps (Y.map (·.1.value)) (Y.map Prod.snd) Ly)
    (hd : (id :: Lx ++ Ly).Nodup) (h : mergeObj (mergeVal n) ps id (Y.map Prod.fst) = some ps') :
    (∃ t L, Joins (.obj (X.map fun p => (p.1.key, p.2))) (.obj (Y.map fun p => (p.1.key, p.2))) t ∧ Reps ps' [.obj id] [t] L ∧ L.Nodup ∧
      ∀ i ∈ L, i ∈ id :: Lx ++ Ly) ∧
    ∀ vs ts L, Reps ps vs ts L → (∀ i ∈ L, i ∉ id :: Lx ++ Ly) → Reps ps' vs ts L := by
  rw [List.cons_append, List.nodup_cons] at hd
  obtain ⟨Z, L, g1, g2, g3, g4, g5, g6, g7⟩ := mergeObj_sound (mv_sound n) hX hX' hY h1 h2 hd.1 hd.2 h
  refine ⟨⟨_, id :: (L ++ []), g3, .obj g1 g2 g4 .nil, ?_, ?_⟩, fun vs ts M r hM => r.frame g7 hM⟩
  · rw [List.append_nil, List.nodup_cons]
    exact ⟨fun hc => hd.1 (g6 id hc), g5⟩
  · intro i hi
    simp only [List.append_nil, List.mem_cons] at hi
    rcases hi with rfl | hi
    · simp
    · exact List.mem_cons_of_mem _ (g6 i hi)

/-- What the values are joined to does not depend on where they are stored. -/
theorem C65_deterministic {a b t t' : Tree} (h : Joins a b t) (h' : Joins a b t') : t = t' := h.unique t' h'

/-- If everywhere two objects, two lists or two nulls meet, hidden or not, the merge ends without a panic, wherever the
values are stored. -/
theorem C65_ends {a b : Tree} (hm : Meets a b) : ∃ N, ∀ n, N ≤ n → ∀ ps v w La Lb, Reps ps [v] [a] La → Reps ps [w] [b] Lb →
    (La ++ Lb).Nodup → ∃ ps', mergeVal n ps v w = some ps' := hm.done.fine

/-- Otherwise it panics. -/
theorem C65_panics {v w : Val} {a b : Tree} {La Lb : List Id} (hm : ¬ Meets a b) (ha : Reps ps [v] [a] La) (hb : Reps ps [w] [b] Lb)
    (hd : (La ++ Lb).Nodup) : mergeVal n ps v w = none := by
  cases h : mergeVal n ps v w with
  | none => rfl
  | some ps' =>
    obtain ⟨⟨t, L, h1, -⟩, -⟩ := C65_joined ha hb hd h
    exact absurd h1.meets hm

/-- Where lists that meet have the same length and nothing that meets is hidden, the result is what it should be. -/
theorem C65_merged_partial {a b : Tree} (hf : Fit a b) : ∃ N, ∀ n, N ≤ n → ∀ ps v w La Lb, Reps ps [v] [a] La → Reps ps [w] [b] Lb →
    (La ++ Lb).Nodup → ∃ ps' t L, mergeVal n ps v w = some ps' ∧ Merges a b t ∧ Reps ps' [v] [t] L ∧ L.Nodup := by
  obtain ⟨N, hN⟩ := C65_ends hf.meets
  refine ⟨N, fun n hn ps v w La Lb ha hb hd => ?_⟩
  obtain ⟨ps', h⟩ := hN n hn ps v w La Lb ha hb hd
  obtain ⟨⟨t, L, h1, h2, h3, -⟩, -⟩ := C65_joined ha hb hd h
  exact ⟨ps', t, L, h, hf.merges t h1, h2, h3⟩

/-! ## Where it is not what it should be -/

def leafOf (k : Nat) : Fld := ⟨⟨k, k⟩, .leaf ⟨true, k⟩⟩

/-- `[{ 1 }]` in the response, `[{ 2 }, { 3 }]` in the answer of another subgraph. -/
def longer : List Data := [{ objs := [[leafOf 1]], lists := [[.obj ⟨0, 0⟩]] }, { objs := [[leafOf 2], [leafOf 3]], lists := [[.obj ⟨1, 0⟩, .obj ⟨1, 1⟩]] }]

/-- Items of a longer list are dropped without an error. -/
theorem C65_items_dropped : mergeVal 3 longer (.list ⟨0, 0⟩) (.list ⟨1, 0⟩) =
    some [{ objs := [[leafOf 1, leafOf 2]], lists := [[.obj ⟨0, 0⟩]] }, { objs := [[], [leafOf 3]], lists := [[.obj ⟨1, 0⟩, .obj ⟨1, 1⟩]] }] := by
  decide +kernel

/-- An empty object in the response; the answer of another subgraph where the object is replaced by null. -/
def secret : List Data := [{ objs := [[]] }, { objs := [[leafOf 1]], inacc := [.obj ⟨1, 0⟩] }]

/-- What was to be hidden is shown. -/
theorem C65_hidden_shown : mergeVal 2 secret (.obj ⟨0, 0⟩) (.inacc ⟨1, 0⟩) =
    some [{ objs := [[leafOf 1]] }, { objs := [[]], inacc := [.obj ⟨1, 0⟩] }] := by
  decide +kernel

/-- A null and an object, for all that is stored. -/
theorem C65_null_panics {id : Id} : mergeVal n ps .null (.obj id) = none ∧ mergeVal n ps (.obj id) .null = none := by
  cases n <;> simp [mergeVal]

/-- Two scalars, even if they are the same. -/
theorem C65_scalar_panics {l : Leaf} : mergeVal n ps (.leaf l) (.leaf l) = none := by
  cases n <;> simp [mergeVal]

/-! ## The hypotheses can be met -/

def fld (k : Nat) (v : Val) : Fld := ⟨⟨k, k⟩, v⟩

/-- `{ 1: { 2: "2" } }` and `{ 1: { 3: "3" }, 4: null }`. -/
def store : List Data := [{ objs := [[fld 1 (.obj ⟨0, 1⟩)], [leafOf 2]] }, { objs := [[fld 1 (.obj ⟨1, 1⟩), fld 4 .null], [leafOf 3]] }]

def ta : Tree := .obj [(⟨1, 1⟩, .obj [(⟨2, 2⟩, .scalar (.leaf ⟨true, 2⟩))])]
def tb : Tree := .obj [(⟨1, 1⟩, .obj [(⟨3, 3⟩, .scalar (.leaf ⟨true, 3⟩))]), (⟨4, 4⟩, .null)]

theorem repsA : Reps store [.obj ⟨0, 0⟩] [ta] [⟨0, 0⟩, ⟨0, 1⟩] :=
  .obj (fs := [(fld 1 (.obj ⟨0, 1⟩), .obj [(⟨2, 2⟩, .scalar (.leaf ⟨true, 2⟩))])]) (L := [⟨0, 1⟩]) (L' := []) rfl (by simp)
    (.obj (fs := [(leafOf 2, .scalar (.leaf ⟨true, 2⟩))]) (L := []) (L' := []) rfl (by simp) (.scalar rfl .nil) .nil) .nil

theorem repsB : Reps store [.obj ⟨1, 0⟩] [tb] [⟨1, 0⟩, ⟨1, 1⟩] :=
  .obj (fs := [(fld 1 (.obj ⟨1, 1⟩), .obj [(⟨3, 3⟩, .scalar (.leaf ⟨true, 3⟩))]), (fld 4 .null, .null)]) (L := [⟨1, 1⟩]) (L' := []) rfl
    (by simp [fld, DefaultMerge.Key.Before])
    (.obj (fs := [(leafOf 3, .scalar (.leaf ⟨true, 3⟩))]) (L := []) (L' := [])  rfl (by simp) (.scalar rfl .nil) (.null .nil)) .nil

theorem fitAB : Fit ta tb := .obj (by
  intro k a b ha hb
  simp only [List.mem_singleton, Prod.mk.injEq, List.mem_cons, List.not_mem_nil, or_false] at ha hb
  obtain ⟨rfl, rfl⟩ := ha
  simp at hb
  subst hb
  exact .obj (by
    intro k a b ha hb
    simp at ha hb
    simp [ha] at hb))

example : Reps store [.obj ⟨0, 0⟩] [ta] [⟨0, 0⟩, ⟨0, 1⟩] ∧ Reps store [.obj ⟨1, 0⟩] [tb] [⟨1, 0⟩, ⟨1, 1⟩] ∧
    ([⟨0, 0⟩, ⟨0, 1⟩] ++ [⟨1, 0⟩, ⟨1, 1⟩] : List Id).Nodup ∧ Fit ta tb ∧ Meets ta tb ∧
    mergeVal 3 store (.obj ⟨0, 0⟩) (.obj ⟨1, 0⟩) =
      some [{ objs := [[fld 1 (.obj ⟨0, 1⟩), fld 4 .null], [leafOf 2, leafOf 3]] }, { objs := [[], []] }] :=
  ⟨repsA, repsB, by decide, fitAB, fitAB.meets, by decide +kernel⟩

/-- A null does not meet an object. -/
example : ¬ Meets .null (.obj []) := by rintro ⟨⟩

end Verif.DeepMerge
