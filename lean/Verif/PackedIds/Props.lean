import Verif.PackedIds.Model
/-! # C39: packed identifiers never alias -/
namespace Verif.PackedIds

/-! ## Parent objects -/

theorem pack_eq {s i : Nat} (hs : s < 256) (hi : i < 2 ^ 24) : pack s i = s * 2 ^ 24 + i := by
  have h1 : s <<< setIndexShift = s * 2 ^ 24 := by rw [Nat.shiftLeft_eq]; rfl
  have h2 : (s <<< setIndexShift) % 2 ^ 32 = s <<< setIndexShift := by
    apply Nat.mod_eq_of_lt; rw [h1]; omega
  have h3 : i % 2 ^ 32 = i := Nat.mod_eq_of_lt (by omega)
  unfold pack
  rw [h2, h3, ← Nat.shiftLeft_add_eq_or_of_lt (show i < 2 ^ setIndexShift from hi), h1]

theorem setOf_eq (x : Nat) : setOf x = x / 2 ^ 24 := Nat.shiftRight_eq_div_pow ..

theorem objectOf_eq (x : Nat) : objectOf x = x % 2 ^ 24 := by
  have : objectIndexMask = 2 ^ 24 - 1 := by decide
  unfold objectOf
  rw [this, Nat.and_two_pow_sub_one_eq_mod]

/-- **C39**: a packed index is read back exactly as written. -/
theorem C39_pack_roundtrip {s i : Nat} (hs : s < 256) (hi : i < 2 ^ 24) :
    setOf (pack s i) = s ∧ objectOf (pack s i) = i := by
  rw [pack_eq hs hi, setOf_eq, objectOf_eq]
  omega

/-- **C39**: two distinct pairs never give the same packed index. -/
theorem C39_pack_injective {s i s' i' : Nat} (hs : s < 256) (hi : i < 2 ^ 24) (hs' : s' < 256)
    (hi' : i' < 2 ^ 24) (h : pack s i = pack s' i') : s = s' ∧ i = i' := by
  rw [pack_eq hs hi, pack_eq hs' hi'] at h
  omega

/-- What a call should add to the iteration. -/
def Add.expected {R : Type} : Add R → List R
  | .all refs => refs
  | .filtered keep refs => refs.filter keep

/-- The size up to which the assertions of `with_filtered_response_objects` are enough. -/
def Add.small {R : Type} : Add R → Prop
  | .all _ => True
  | .filtered _ refs => refs.length ≤ 2 ^ 24

theorem getElem?_snoc_lt {α : Type} {l : List α} {a : α} {i : Nat} (h : i < l.length) :
    (l ++ [a])[i]? = l[i]? := List.getElem?_append_left h

/-- The indices of a well formed set point into its sets. -/
def ParentSet.Ok {R : Type} (p : ParentSet R) : Prop :=
  p.sets.length ≤ 256 ∧ ∀ x ∈ p.indices, setOf x < p.sets.length

theorem read_snoc {R : Type} (p : ParentSet R) (refs : List R) (more : List Nat) {x : Nat}
    (h : setOf x < p.sets.length) :
    (⟨p.sets ++ [refs], more⟩ : ParentSet R).read x = p.read x := by
  simp only [ParentSet.read]
  rw [getElem?_snoc_lt h]

theorem read_pack {R : Type} (p : ParentSet R) (refs : List R) (more : List Nat) {i : Nat}
    (hp : p.sets.length < 256) (hi : i < 2 ^ 24) :
    (⟨p.sets ++ [refs], more⟩ : ParentSet R).read (pack p.sets.length i) = refs[i]? := by
  simp only [ParentSet.read, C39_pack_roundtrip hp hi]
  simp

theorem range_map_getElem? {R : Type} (l : List R) :
    (List.range l.length).map (fun i => l[i]?) = l.map some := by
  apply List.ext_getElem?
  intro i
  by_cases h : i < l.length
  · simp [h]
  · simp [Nat.not_lt.1 h]

theorem zipIdx_filter {R : Type} (keep : R → Bool) (g : Nat → Nat)
    (h : Nat → Option R) (l : List R) (k : Nat)
    (hf : ∀ j, j < l.length → h (g (k + j)) = l[j]?) :
    (((l.zipIdx k).filterMap fun x => if keep x.1 then some (g x.2) else none).map h) =
      (l.filter keep).map some := by
  induction l generalizing k with
  | nil => rfl
  | cons a l ih =>
    have h0 := hf 0 (by simp)
    have ih := ih (k + 1) fun j hj => by
      have := hf (j + 1) (by simpa using hj)
      rw [Nat.add_assoc, Nat.add_comm 1 j, this]; simp
    rw [List.zipIdx_cons, List.filterMap_cons]
    by_cases hk : keep a = true
    · simp only [hk, if_true, List.filter_cons_of_pos, List.map_cons, ih]
      simp only [Nat.add_zero] at h0
      rw [h0]; rfl
    · rw [List.filter_cons_of_neg hk, ← ih]; simp [hk]

theorem add_spec {R : Type} (p : ParentSet R) (a : Add R) (q : ParentSet R) (hok : p.Ok)
    (hs : a.small) (h : p.add a = some q) :
    q.Ok ∧ q.iter = p.iter ++ a.expected.map some := by
  have hmax : maxSetIndex = 256 := by decide
  have hmask : objectIndexMask = 2 ^ 24 - 1 := by decide
  cases a with
  | all refs =>
    simp only [ParentSet.add, ParentSet.withAll, hmax, hmask, List.length_map,
      List.length_range] at h
    split at h
    · rename_i hlt
      split at h
      · rename_i hlen
        simp only [Option.some.injEq] at h
        subst h
        refine ⟨⟨by simp; omega, ?_⟩, ?_⟩
        · intro x hx
          simp only [List.mem_append, List.mem_map, List.mem_range] at hx
          rcases hx with hx | ⟨i, hi, rfl⟩
          · have := hok.2 x hx; simp; omega
          · rw [(C39_pack_roundtrip hlt (by omega)).1]; simp
        · simp only [ParentSet.iter, List.map_append, List.map_map]
          congr 1
          · exact List.map_congr_left fun x hx => read_snoc p refs _ (hok.2 x hx)
          · rw [Add.expected, ← range_map_getElem?]
            apply List.map_congr_left
            intro i hi
            rw [List.mem_range] at hi
            exact read_pack p refs _ hlt (by omega)
      · cases h
    · cases h
  | filtered keep refs =>
    simp only [ParentSet.add, ParentSet.withFiltered, hmax, hmask] at h
    simp only [Add.small] at hs
    split at h
    · rename_i hlt
      split at h
      · simp only [Option.some.injEq] at h
        subst h
        refine ⟨⟨by simp; omega, ?_⟩, ?_⟩
        · intro x hx
          simp only [List.mem_append, List.mem_filterMap] at hx
          rcases hx with hx | ⟨y, hy, hx⟩
          · have := hok.2 x hx; simp; omega
          · split at hx
            · simp only [Option.some.injEq] at hx
              have hy := List.snd_lt_of_mem_zipIdx hy
              rw [← hx, (C39_pack_roundtrip hlt (by omega)).1]; simp
            · cases hx
        · simp only [ParentSet.iter, List.map_append]
          congr 1
          · exact List.map_congr_left fun x hx => read_snoc p refs _ (hok.2 x hx)
          · refine zipIdx_filter keep (pack p.sets.length) _ refs 0 ?_
            intro j hj
            rw [Nat.zero_add]
            exact read_pack p refs _ hlt (by omega)
      · cases h
    · cases h

theorem build_spec {R : Type} (adds : List (Add R)) (p q : ParentSet R) (hok : p.Ok)
    (hs : ∀ a ∈ adds, a.small) (h : adds.foldlM ParentSet.add p = some q) :
    q.Ok ∧ q.iter = p.iter ++ (adds.flatMap Add.expected).map some := by
  induction adds generalizing p with
  | nil =>
    simp only [List.foldlM_nil, pure, Option.some.injEq] at h
    subst h
    simp [hok]
  | cons a adds ih =>
    simp only [List.foldlM_cons, bind, Option.bind_eq_some_iff] at h
    obtain ⟨r, hr, h⟩ := h
    have h1 := add_spec p a r hok (hs a (List.mem_cons_self ..)) hr
    have h2 := ih r h1.1 (fun b hb => hs b (List.mem_cons_of_mem _ hb)) h
    refine ⟨h2.1, ?_⟩
    rw [h2.2, h1.2]; simp

/-- **C39** (part): however a `ParentObjectSet` is built, if no assertion failed, iterating over it
gives back exactly the (filtered) references it was built from, in order, without a panic.  Missing:
filtered sets of more than `2^24` references, see `C39_filtered_alias`. -/
theorem C39_parent_objects_partial {R : Type} (adds : List (Add R)) (p : ParentSet R)
    (hs : ∀ a ∈ adds, a.small) (h : build adds = some p) :
    p.iter = (adds.flatMap Add.expected).map some := by
  have := (build_spec adds ParentSet.empty p ⟨by simp [ParentSet.empty], by simp [ParentSet.empty]⟩
    hs h).2
  simpa [ParentSet.empty, ParentSet.iter] using this

/-- Without filtering no hypothesis on sizes is needed: running out of space is detected. -/
theorem C39_unfiltered {R : Type} (sets : List (List R)) (p : ParentSet R)
    (h : build (sets.map Add.all) = some p) : p.iter = sets.flatten.map some := by
  have := C39_parent_objects_partial (sets.map Add.all) p
    (by intro a ha; obtain ⟨s, _, rfl⟩ := List.mem_map.1 ha; trivial) h
  rw [this]
  congr 1
  induction sets with
  | nil => rfl
  | cons s sets ih => simp [Add.expected, List.flatMap_map]

theorem length_filterMap_zipIdx {R : Type} (keep : R → Bool) (g : Nat → Nat) (l : List R) (k : Nat) :
    ((l.zipIdx k).filterMap fun x => if keep x.1 then some (g x.2) else none).length =
      (l.filter keep).length := by
  induction l generalizing k with
  | nil => rfl
  | cons a l ih =>
    rw [List.zipIdx_cons, List.filterMap_cons]
    by_cases hk : keep a = true
    · simp only [hk, if_true, List.filter_cons_of_pos, List.length_cons, ih]
    · rw [List.filter_cons_of_neg hk, ← ih (k + 1)]; simp [hk]

/-- The assertions are not too strict either: sets that fit are accepted. -/
theorem C39_no_spurious_panic {R : Type} (adds : List (Add R)) (hn : adds.length ≤ 256)
    (hs : ∀ a ∈ adds, a.expected.length < 2 ^ 24 - 1) : (build adds).isSome := by
  have hmax : maxSetIndex = 256 := by decide
  have hmask : objectIndexMask = 2 ^ 24 - 1 := by decide
  suffices H : ∀ (p : ParentSet R), p.sets.length + adds.length ≤ 256 →
      (adds.foldlM ParentSet.add p).isSome from H _ (by simpa [ParentSet.empty] using hn)
  induction adds with
  | nil => intro p _; rfl
  | cons a adds ih =>
    intro p hp
    rw [List.length_cons] at hp hn
    have ha := hs a (List.mem_cons_self ..)
    obtain ⟨q, hq, hlen⟩ : ∃ q, p.add a = some q ∧ q.sets.length = p.sets.length + 1 := by
      cases a with
      | all refs =>
        simp only [Add.expected] at ha
        simp only [ParentSet.add, ParentSet.withAll, hmax, hmask, List.length_map,
          List.length_range]
        rw [if_pos (by omega), if_pos ha]
        exact ⟨_, rfl, by simp⟩
      | filtered keep refs =>
        simp only [Add.expected] at ha
        simp only [ParentSet.add, ParentSet.withFiltered, hmax, hmask]
        rw [if_pos (by omega), if_pos (by rw [length_filterMap_zipIdx]; exact ha)]
        exact ⟨_, rfl, by simp⟩
    rw [List.foldlM_cons, hq]
    exact ih (by omega) (fun b hb => hs b (List.mem_cons_of_mem _ hb)) q (by omega)

/-- Two sets, one filtered. -/
example : (build [Add.all [10, 11], Add.filtered (· > 20) [20, 21, 22]]).map ParentSet.iter =
    some [some 10, some 11, some 21, some 22] := by decide +kernel

/-- **C39 is false for filtered sets**: the second set has `2^24 + 1` references of which only the
last is kept.  Nothing is detected, and the packed index denotes the *first* reference of that set. -/
theorem C39_filtered_alias :
    ∃ (adds : List (Add Nat)) (p : ParentSet Nat), build adds = some p ∧
      adds.flatMap Add.expected = [7] ∧ p.iter = [some 0] := by
  have key : ∀ (g : Nat → Nat) (n k : Nat),
      (((List.replicate n 0 ++ [7]).zipIdx k).filterMap fun x : Nat × Nat =>
        if (x.1 == 7) = true then some (g x.2) else none) = [g (k + n)] := by
    intro g n
    induction n with
    | zero => intro k; rfl
    | succ n ih =>
      intro k
      rw [List.replicate_succ, List.cons_append, List.zipIdx_cons, List.filterMap_cons]
      simp only [ih (k + 1)]
      rw [show k + 1 + n = k + (n + 1) by omega]; rfl
  have hexp : ∀ n, (List.replicate n 0 ++ [7]).filter (fun x => x == 7) = [7] := by
    intro n
    rw [List.filter_append, List.filter_eq_nil_iff.2]
    · rfl
    · intro a ha; rw [List.eq_of_mem_replicate ha]; decide
  obtain ⟨n, hn⟩ : ∃ n : Nat, n = 2 ^ 24 := ⟨_, rfl⟩
  refine ⟨[Add.all [], Add.filtered (· == 7) (List.replicate n 0 ++ [7])],
    ⟨[[], List.replicate n 0 ++ [7]], [pack 1 n]⟩, ?_, ?_, ?_⟩
  · clear hn
    have hmax : maxSetIndex = 256 := by decide
    have hmask : objectIndexMask = 2 ^ 24 - 1 := by decide
    have h1 : (ParentSet.empty : ParentSet Nat).add (Add.all []) = some ⟨[[]], []⟩ := by
      simp [ParentSet.add, ParentSet.withAll, hmax, hmask, ParentSet.empty]
    simp only [build, List.foldlM_cons, List.foldlM_nil, h1, bind, Option.bind_some]
    simp only [ParentSet.add, ParentSet.withFiltered]
    rw [key]
    simp [hmax, hmask]
  · have := hexp n
    simp only [List.flatMap_cons, List.flatMap_nil, Add.expected, List.nil_append, List.append_nil]
    exact this
  · have h1 : setOf (pack 1 n) = 1 := by rw [hn]; decide +kernel
    have h2 : objectOf (pack 1 n) = 0 := by rw [hn]; decide +kernel
    simp only [ParentSet.iter, List.map_cons, List.map_nil, ParentSet.read, h1, h2]
    cases n with
    | zero => simp at hn
    | succ n => simp [List.replicate_succ]

/-! ## Part numbers -/

/-- How many parts a history creates. -/
def created {A : Type} : List (PartOp A) → Nat
  | [] => 0
  | .new :: ops => created ops + 1
  | .insert _ _ :: ops => created ops

/-- A history of `DataParts` as the engine produces it: a part is inserted after it was created and at
most once (`insert` consumes it).  `n` parts exist already, those in `ins` were inserted. -/
def WellFormed {A : Type} (n : Nat) (ins : List Nat) : List (PartOp A) → Prop
  | [] => True
  | .new :: ops => WellFormed (n + 1) ins ops
  | .insert j _ :: ops => j < n ∧ j ∉ ins ∧ WellFormed n (j :: ins) ops

theorem wf_lt {A : Type} {ops : List (PartOp A)} {n : Nat} {ins : List Nat}
    (hw : WellFormed n ins ops) {j : Nat} {c : Content A} (h : .insert j c ∈ ops) :
    j < n + created ops := by
  induction ops generalizing n ins with
  | nil => cases h
  | cons op ops ih =>
    cases op with
    | new =>
      have := ih hw (by simpa using h)
      simp only [created]; omega
    | insert k d =>
      obtain ⟨hk, _, hw⟩ := hw
      simp only [created]
      rcases List.mem_cons.1 h with h | h
      · cases h; omega
      · exact ih hw h

theorem parts_inv {A : Type} (ops : List (PartOp A)) (n : Nat) (ins : List (Nat × Content A))
    (p q : Parts A) (hw : WellFormed n (ins.map Prod.fst) ops) (hlen : p.slots.length = n)
    (hin : ∀ x ∈ ins, p.slots[x.1]? = some x.2)
    (hle : n + created ops ≤ 65536) (hr : ops.foldlM Parts.step p = some q) :
    ∀ j c, ((j, c) ∈ ins ∨ .insert j c ∈ ops) → q.slots[j]? = some c := by
  induction ops generalizing n ins p with
  | nil =>
    simp only [List.foldlM_nil, pure, Option.some.injEq] at hr
    subst hr
    rintro j c (h | h)
    · exact hin _ h
    · cases h
  | cons op ops ih =>
    simp only [List.foldlM_cons, bind, Option.bind_eq_some_iff] at hr
    obtain ⟨r, hr1, hr2⟩ := hr
    cases op with
    | new =>
      simp only [Parts.step, Option.some.injEq] at hr1
      subst hr1
      intro j c h
      refine ih (n + 1) ins _ hw (by simp [hlen]) ?_ (by simp only [created] at hle; omega) hr2 j c ?_
      · intro x hx
        have h1 := hin x hx
        have : x.1 < p.slots.length := (List.getElem?_eq_some_iff.1 h1).1
        rw [List.getElem?_append_left this]; exact h1
      · rcases h with h | h
        · exact .inl h
        · simp only [List.mem_cons, reduceCtorEq, false_or] at h; exact .inr h
    | insert k d =>
      obtain ⟨hk, hnot, hw⟩ := hw
      simp only [created] at hle
      have hid : partId k = k := Nat.mod_eq_of_lt (by omega)
      simp only [Parts.step, hid] at hr1
      split at hr1
      · cases hr1
      · split at hr1
        · simp only [Option.some.injEq] at hr1
          subst hr1
          intro j c h
          refine ih n ((k, d) :: ins) _ (by simpa using hw) (by simp [hlen]) ?_ hle hr2 j c ?_
          · intro x hx
            rcases List.mem_cons.1 hx with rfl | hx'
            · simp [hlen, hk]
            · have hne : k ≠ x.1 := fun he => hnot (List.mem_map.2 ⟨x, hx', he.symm⟩)
              rw [List.getElem?_set_ne hne]; exact hin x hx'
          · rcases h with h | h
            · exact .inl (List.mem_cons_of_mem _ h)
            · rcases List.mem_cons.1 h with h | h
              · cases h; exact .inl (List.mem_cons_self ..)
              · exact .inr h
        · cases hr1

/-- **C39** (part): with at most `2^16` parts, each part is read back exactly as inserted. -/
theorem C39_parts_partial {A : Type} (ops : List (PartOp A)) (p : Parts A)
    (hw : WellFormed 0 [] ops) (hn : created ops ≤ 2 ^ 16) (hr : Parts.run ops = some p)
    (j : Nat) (c : Content A) (hj : .insert j c ∈ ops) : p.read j = some c := by
  have hjn : j < 2 ^ 16 := by have := wf_lt hw hj; omega
  have := parts_inv ops 0 [] ⟨[]⟩ p hw rfl (by simp) (by omega) hr j c (.inr hj)
  rw [Parts.read, partId, Nat.mod_eq_of_lt hjn]; exact this

theorem slot0_kept {A : Type} (ops : List (PartOp A)) (p q : Parts A) (c : Content A)
    (hc : c.isEmpty = false) (h0 : p.slots[0]? = some c) (hr : ops.foldlM Parts.step p = some q) :
    ∀ j d, .insert j d ∈ ops → partId j ≠ 0 := by
  induction ops generalizing p with
  | nil => intro j d h; cases h
  | cons op ops ih =>
    simp only [List.foldlM_cons, bind, Option.bind_eq_some_iff] at hr
    obtain ⟨r, hr1, hr2⟩ := hr
    have hlt : 0 < p.slots.length := (List.getElem?_eq_some_iff.1 h0).1
    cases op with
    | new =>
      simp only [Parts.step, Option.some.injEq] at hr1
      subst hr1
      intro j d h
      refine ih _ (by rw [List.getElem?_append_left hlt]; exact h0) hr2 j d ?_
      simpa using h
    | insert k e =>
      have hk : partId k ≠ 0 := by
        intro hk
        simp [Parts.step, hk, h0, hc] at hr1
      simp only [Parts.step] at hr1
      split at hr1
      · cases hr1
      · split at hr1
        · simp only [Option.some.injEq] at hr1
          subst hr1
          intro j d h
          rcases List.mem_cons.1 h with h | h
          · cases h; exact hk
          · exact ih _ (by rw [List.getElem?_set_ne hk]; exact h0) hr2 j d h
        · cases hr1

/-- **C39**: running out of part numbers is detected at the latest when the `2^16`-th part is
inserted: its number is the one of the root part, which is never empty. -/
theorem C39_parts_overflow_detected {A : Type} (root c : Content A) (ops : List (PartOp A))
    (hroot : root.isEmpty = false) (hin : .insert (2 ^ 16) c ∈ ops) :
    Parts.run (.new :: .insert 0 root :: ops) = none := by
  cases h : Parts.run (.new :: .insert 0 root :: ops) with
  | none => rfl
  | some q =>
    simp only [Parts.run, List.foldlM_cons, bind, Option.bind_eq_some_iff] at h
    obtain ⟨r, h1, s, h2, h3⟩ := h
    simp only [Parts.step, Option.some.injEq] at h1
    subst h1
    have : partId 0 = 0 := rfl
    simp only [Parts.step, this, List.nil_append, List.getElem?_cons_zero] at h2
    simp only [Content.isEmpty, List.isEmpty_nil, if_true, Option.some.injEq] at h2
    subst h2
    exact absurd (show partId (2 ^ 16) = 0 by decide)
      (slot0_kept ops _ q root hroot (by simp) h3 _ c hin)

/-- **C39**: in every history in which the (non-empty) root part comes first and every part created
is also inserted, either there was a panic or every part is read back exactly as inserted. -/
theorem C39_parts {A : Type} (root : Content A) (ops : List (PartOp A)) (p : Parts A)
    (hroot : root.isEmpty = false)
    (hw : WellFormed 0 [] (.new :: .insert 0 root :: ops))
    (hall : ∀ j, j < created (.new :: .insert 0 root :: ops) →
      ∃ c, .insert j c ∈ (.new :: .insert 0 root :: ops : List (PartOp A)))
    (hr : Parts.run (.new :: .insert 0 root :: ops) = some p)
    (j : Nat) (c : Content A) (hj : .insert j c ∈ (.new :: .insert 0 root :: ops : List (PartOp A))) :
    p.read j = some c := by
  have hn : created (.new :: .insert 0 root :: ops) ≤ 2 ^ 16 := by
    refine Nat.le_of_not_lt fun hgt => ?_
    obtain ⟨d, hd⟩ := hall (2 ^ 16) hgt
    simp only [List.mem_cons, reduceCtorEq, false_or, PartOp.insert.injEq] at hd
    rcases hd with hd | hd
    · exact absurd hd.1 (by decide)
    · rw [C39_parts_overflow_detected root d ops hroot hd] at hr; cases hr
  exact C39_parts_partial _ p hw hn hr j c hj

/-- Two parts after the root, inserted in the other order. -/
example : (Parts.run [.new, .insert 0 ⟨[1], []⟩, .new, .new, .insert 2 ⟨[7], []⟩,
    .insert 1 ⟨[8], [3]⟩]).map (fun p => (p.read 0, p.read 1, p.read 2)) =
    some (some ⟨[1], []⟩, some ⟨[8], [3]⟩, some ⟨[7], []⟩) := by decide +kernel

example : WellFormed 0 [] ([.new, .insert 0 ⟨[1], []⟩, .new, .new, .insert 2 ⟨[7], []⟩,
    .insert 1 ⟨[8], [3]⟩] : List (PartOp Nat)) := by simp [WellFormed]

theorem run_news {A : Type} (n : Nat) (ops : List (PartOp A)) (p : Parts A) :
    (List.replicate n PartOp.new ++ ops).foldlM Parts.step p =
      ops.foldlM Parts.step ⟨p.slots ++ List.replicate n ⟨[], []⟩⟩ := by
  induction n generalizing p with
  | zero => simp
  | succ n ih =>
    rw [List.replicate_succ, List.cons_append, List.foldlM_cons]
    simp only [Parts.step, bind]
    rw [Option.bind_some, ih]
    congr 2
    simp [List.replicate_succ]

theorem wf_news {A : Type} (n k : Nat) (ins : List Nat) (ops : List (PartOp A)) :
    WellFormed k ins (List.replicate n .new ++ ops) ↔ WellFormed (k + n) ins ops := by
  induction n generalizing k with
  | zero => simp
  | succ n ih =>
    rw [List.replicate_succ, List.cons_append, WellFormed, ih]
    rw [show k + 1 + n = k + (n + 1) by omega]

/-- **C39 is false without that condition**: part 1 holds only a list of integers (which `is_empty`
ignores); the part created after `2^16 + 1` others has the same number and silently replaces it while
the `2^16`-th is still pending. -/
theorem C39_parts_alias :
    ∃ (ops : List (PartOp Nat)) (p : Parts Nat), WellFormed 0 [] ops ∧ Parts.run ops = some p ∧
      .insert 1 ⟨[], [5]⟩ ∈ ops ∧ p.read 1 = some ⟨[9], []⟩ := by
  obtain ⟨n, hn⟩ : ∃ n : Nat, n = 65536 := ⟨_, rfl⟩
  have hid : partId (n + 1) = 1 := by rw [hn]; decide +kernel
  have hid0 : partId 0 = 0 := rfl
  have hid1 : partId 1 = 1 := rfl
  refine ⟨.new :: .insert 0 ⟨[1], []⟩ :: .new :: .insert 1 ⟨[], [5]⟩ ::
    (List.replicate n .new ++ [.insert (n + 1) ⟨[9], []⟩]),
    ⟨⟨[1], []⟩ :: ⟨[9], []⟩ :: List.replicate n ⟨[], []⟩⟩, ?_, ?_, ?_, ?_⟩
  · simp only [WellFormed, wf_news]
    refine ⟨by omega, by simp, by omega, by simp, by omega, ?_, trivial⟩
    simp only [List.mem_cons, List.not_mem_nil, or_false]
    omega
  · simp only [Parts.run, List.foldlM_cons, bind, Parts.step, Option.bind_some, hid0, hid1,
      List.nil_append, List.getElem?_cons_zero, Content.isEmpty, List.isEmpty_nil, if_true,
      List.set_cons_zero, List.cons_append, List.getElem?_cons_succ, List.set_cons_succ]
    rw [run_news]
    simp [Parts.step, hid, Content.isEmpty]
  · simp
  · simp [Parts.read, hid1]

/-! ## Id newtypes -/

/-- **C39**: an index that fits is read back, one that does not is refused; nothing else happens. -/
theorem C39_ids (bits v : Nat) :
    (idOf bits v).map idIndex = (if v < 2 ^ bits then some v else none) ∧
    (nonZeroIdOf bits v).map nonZeroIdIndex = (if v + 1 < 2 ^ bits then some v else none) := by
  constructor
  · unfold idOf; split <;> rfl
  · unfold nonZeroIdOf
    by_cases h : v < 2 ^ bits
    · rw [if_pos h]
      by_cases h' : v + 1 < 2 ^ bits
      · rw [if_pos h', Nat.mod_eq_of_lt h']; simp [nonZeroIdIndex]
      · have : v + 1 = 2 ^ bits := by omega
        rw [if_neg h', this, Nat.mod_self]; rfl
    · rw [if_neg h, if_neg (by omega)]; rfl

/-- Two different indices never give the same id. -/
theorem C39_ids_injective (bits v w : Nat) :
    (∀ i, idOf bits v = some i → idOf bits w = some i → v = w) ∧
    (∀ i, nonZeroIdOf bits v = some i → nonZeroIdOf bits w = some i → v = w) := by
  constructor
  · intro i h h'
    have h1 := (C39_ids bits v).1; have h2 := (C39_ids bits w).1
    rw [h] at h1; rw [h'] at h2
    split at h1 <;> split at h2 <;> simp_all
  · intro i h h'
    have h1 := (C39_ids bits v).2; have h2 := (C39_ids bits w).2
    rw [h] at h1; rw [h'] at h2
    split at h1 <;> split at h2 <;> simp_all

example : idOf 32 7 = some 7 ∧ nonZeroIdOf 16 65534 = some 65535 ∧ nonZeroIdOf 16 65535 = none := by
  decide +kernel

end Verif.PackedIds
