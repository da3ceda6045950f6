import Verif.Hidden.Spec

/-!
# Lemmas about hidden elements
-/

namespace Verif.Hidden

theorem set_self (m : Marks) (s : Site) (b : Bool) : m.set s b s = b := by simp [Marks.set]

theorem set_ne (m : Marks) {s t : Site} (b : Bool) (h : t ≠ s) : m.set s b t = m t := by simp [Marks.set, h]

theorem set_true_iff (m : Marks) (s t : Site) : m.set s true t = true ↔ t = s ∨ m t = true := by
  unfold Marks.set; split <;> simp_all

theorem set_mono (m : Marks) (s t : Site) (h : m t = true) : m.set s true t = true := (set_true_iff m s t).2 (.inr h)

theorem foldl_inv {α β : Type} (P : List α → β → Prop) (f : β → α → β)
    (step : ∀ a l b, P (a :: l) b → P l (f b a)) : ∀ (l : List α) (b : β), P l b → P [] (l.foldl f b)
  | [], _, h => h
  | a :: l, b, h => foldl_inv P f step l (f b a) (step a l b h)

theorem getElem?_lt {α : Type} {l : List α} {i : Nat} {a : α} (h : l[i]? = some a) : i < l.length := by
  obtain ⟨hlt, _⟩ := List.getElem?_eq_some_iff.1 h
  exact hlt

/-! ## Counting -/

/-- How many of the elements are not marked. -/
def unmarked (l : List Site) (m : Marks) : Nat := (l.filter fun s => !m s).length

theorem unmarked_set_lt : ∀ (l : List Site) (m : Marks) (s : Site), s ∈ l → m s = false →
    unmarked l (m.set s true) + 1 ≤ unmarked l m := by
  intro l m s
  have hle : ∀ l : List Site, unmarked l (m.set s true) ≤ unmarked l m := by
    intro l
    induction l with
    | nil => exact Nat.le_refl _
    | cons a l ih =>
      unfold unmarked at *
      by_cases ha : m a = true
      · have := set_mono m s a ha
        simp [List.filter_cons, ha, this]; exact ih
      · by_cases hb : (m.set s true) a = true
        · simp [List.filter_cons, ha, hb]; omega
        · simp [List.filter_cons, ha, hb]; exact ih
  induction l with
  | nil => intro h; simp at h
  | cons a l ih =>
    intro h hs
    rcases List.mem_cons.1 h with rfl | h
    · have := hle l
      unfold unmarked at *
      simp [List.filter_cons, hs, set_self]; exact this
    · have h2 := ih h hs
      unfold unmarked at *
      by_cases ha : m a = true
      · have := set_mono m s a ha
        simp [List.filter_cons, ha, this]; exact h2
      · by_cases hb : (m.set s true) a = true
        · simp [List.filter_cons, ha, hb]; omega
        · simp [List.filter_cons, ha, hb]; omega

theorem unmarked_set_of_not_mem (l : List Site) (m : Marks) (s : Site) (h : s ∉ l) : unmarked l (m.set s true) = unmarked l m := by
  unfold unmarked
  congr 1
  apply List.filter_congr
  intro t ht
  have : t ≠ s := by rintro rfl; exact h ht
  rw [set_ne m true this]

/-! ## Input values -/

/-- What holds while input values are handled: `rem` are those not seen by the first loop, `stack` the input
objects the users of which have to be seen. -/
structure InInv (S : Schema) (base : Marks) (rem : List Nat) (pend : Nat → Nat → Prop) (m : Marks) : Prop where
  sound : ∀ s, m s = true → InputHidden S base s
  mono : ∀ s, base s = true → m s = true
  same : ∀ s, (∀ n, s ≠ .value n) → (∀ n, s ≠ .field n) → (∀ n, s ≠ .input n) → m s = base s
  req : ∀ (ix : Nat) (v : ValueDef), S.values[ix]? = some v → v.required = true → v.internal = false →
    m (.value ix) = true → ix ∈ rem ∨ m v.parent = true
  int : ∀ (ix : Nat) (v : ValueDef), S.values[ix]? = some v → v.internal = true → ix ∈ rem ∨ m (.value ix) = true
  ty : ∀ (ix : Nat) (v : ValueDef), S.values[ix]? = some v → m v.ty = true →
    ix ∈ rem ∨ m (.value ix) = true ∨ ∃ i, v.ty = .input i ∧ pend i ix

/-- Hide an input value: a step of both loops. -/
theorem InInv.hide {S : Schema} {base m : Marks} {pend : Nat → Nat → Prop} (w : WF S)
    (hI : InInv S base rem pend m) {ix : Nat} {v : ValueDef} (hv : S.values[ix]? = some v)
    (hh : InputHidden S base (.value ix)) :
    InInv S base (ix :: rem) pend (m.set (.value ix) true) := by
  constructor
  · intro s hs
    rcases (set_true_iff _ _ _).1 hs with rfl | hs
    · exact hh
    · exact hI.sound s hs
  · intro s hs; exact set_mono _ _ _ (hI.mono s hs)
  · intro s h1 h2 h3
    rw [set_ne _ _ (h1 ix)]; exact hI.same s h1 h2 h3
  · intro jx u hu hr hi hm
    rcases (set_true_iff _ _ _).1 hm with he | hm
    · cases he; exact .inl (by simp)
    · rcases hI.req jx u hu hr hi hm with h | h
      · exact .inl (List.mem_cons_of_mem _ h)
      · exact .inr (set_mono _ _ _ h)
  · intro jx u hu hi
    rcases hI.int jx u hu hi with h | h
    · exact .inl (List.mem_cons_of_mem _ h)
    · exact .inr (set_mono _ _ _ h)
  · intro jx u hu ht
    rcases (set_true_iff _ _ _).1 ht with he | ht
    · rcases w.valueTy jx u hu with ⟨n, h⟩ | ⟨n, h⟩ | ⟨n, _, h⟩ <;> rw [h] at he <;> cases he
    · rcases hI.ty jx u hu ht with h | h | h
      · exact .inl (List.mem_cons_of_mem _ h)
      · exact .inr (.inl (set_mono _ _ _ h))
      · exact .inr (.inr h)

/-- Hide the parent of a required input value. -/
theorem InInv.parent {S : Schema} {base m : Marks} {pend pend' : Nat → Nat → Prop} (w : WF S)
    (hI : InInv S base rem pend m) {ix : Nat} {v : ValueDef} (hv : S.values[ix]? = some v)
    (hh : InputHidden S base v.parent) (hp : ∀ i jx, pend i jx → pend' i jx)
    (hnew : ∀ i jx, v.parent = .input i → m (.input i) = false → pend' i jx) :
    InInv S base rem pend' (m.set v.parent true) := by
  constructor
  · intro s hs
    rcases (set_true_iff _ _ _).1 hs with rfl | hs
    · exact hh
    · exact hI.sound s hs
  · intro s hs; exact set_mono _ _ _ (hI.mono s hs)
  · intro s h1 h2 h3
    have : s ≠ v.parent := by
      rcases w.valueParent ix v hv with ⟨n, h⟩ | ⟨n, _, h⟩ <;> rw [h]
      · exact h2 n
      · exact h3 n
    rw [set_ne _ _ this]; exact hI.same s h1 h2 h3
  · intro jx u hu hr hi hm
    rcases (set_true_iff _ _ _).1 hm with he | hm
    · rcases w.valueParent ix v hv with ⟨n, h⟩ | ⟨n, _, h⟩ <;> rw [h] at he <;> cases he
    · rcases hI.req jx u hu hr hi hm with h | h
      · exact .inl h
      · exact .inr (set_mono _ _ _ h)
  · intro jx u hu hi
    rcases hI.int jx u hu hi with h | h
    · exact .inl h
    · exact .inr (set_mono _ _ _ h)
  · intro jx u hu ht
    by_cases hm : m u.ty = true
    · rcases hI.ty jx u hu hm with h | h | ⟨i, h1, h2⟩
      · exact .inl h
      · exact .inr (.inl (set_mono _ _ _ h))
      · exact .inr (.inr ⟨i, h1, hp _ _ h2⟩)
    · rcases (set_true_iff _ _ _).1 ht with he | ht
      · rcases w.valueTy jx u hu with ⟨n, h⟩ | ⟨n, h⟩ | ⟨n, _, h⟩
        · rcases w.valueParent ix v hv with ⟨k, h'⟩ | ⟨k, _, h'⟩ <;> rw [h, h'] at he <;> cases he
        · rcases w.valueParent ix v hv with ⟨k, h'⟩ | ⟨k, _, h'⟩ <;> rw [h, h'] at he <;> cases he
        · refine .inr (.inr ⟨n, h, hnew n jx (by rw [← he, h]) ?_⟩)
          rw [← h]; simpa using hm
      · exact absurd ht hm

/-- An input value seen needs not be seen. -/
theorem InInv.seen {S : Schema} {base m : Marks} {pend pend' : Nat → Nat → Prop}
    (hI : InInv S base rem pend m) {rem' : List Nat}
    (hreq : ∀ (ix : Nat) (v : ValueDef), S.values[ix]? = some v → ix ∈ rem → v.required = true → v.internal = false →
      m (.value ix) = true → ix ∈ rem' ∨ m v.parent = true)
    (hint : ∀ (ix : Nat) (v : ValueDef), S.values[ix]? = some v → ix ∈ rem → v.internal = true → ix ∈ rem' ∨ m (.value ix) = true)
    (hty : ∀ (ix : Nat) (v : ValueDef), S.values[ix]? = some v → ix ∈ rem → m v.ty = true →
      ix ∈ rem' ∨ m (.value ix) = true ∨ ∃ i, v.ty = .input i ∧ pend' i ix)
    (hpend : ∀ (ix : Nat) (v : ValueDef) (i : Nat), S.values[ix]? = some v → v.ty = .input i → pend i ix →
      ix ∈ rem' ∨ m (.value ix) = true ∨ pend' i ix) :
    InInv S base rem' pend' m where
  sound := hI.sound
  mono := hI.mono
  same := hI.same
  req := fun ix v hv hr hi hm => by
    rcases hI.req ix v hv hr hi hm with h | h
    · exact hreq ix v hv h hr hi hm
    · exact .inr h
  int := fun ix v hv hi => by
    rcases hI.int ix v hv hi with h | h
    · exact hint ix v hv h hi
    · exact .inr h
  ty := fun ix v hv ht => by
    rcases hI.ty ix v hv ht with h | h | ⟨i, h1, h2⟩
    · exact hty ix v hv h ht
    · exact .inr (.inl h)
    · rcases hpend ix v i hv h1 h2 with h | h | h
      · exact .inl h
      · exact .inr (.inl h)
      · exact .inr (.inr ⟨i, h1, h⟩)

theorem markValue_inv {S : Schema} {base : Marks} (w : WF S) (a : Nat) (rem : List Nat) (m : Marks)
    (hI : InInv S base (a :: rem) (fun _ _ => True) m) : InInv S base rem (fun _ _ => True) (markValue S m a) := by
  unfold markValue
  split
  · rename_i hn
    refine hI.seen ?_ ?_ ?_ ?_
    · intro ix v hv hx hr hi hm
      rcases List.mem_cons.1 hx with rfl | hx
      · rw [hn] at hv; cases hv
      · exact .inl hx
    · intro ix v hv hx hi
      rcases List.mem_cons.1 hx with rfl | hx
      · rw [hn] at hv; cases hv
      · exact .inl hx
    · intro ix v hv hx ht
      rcases List.mem_cons.1 hx with rfl | hx
      · rw [hn] at hv; cases hv
      · exact .inl hx
    · intros; exact .inr (.inr trivial)
  · rename_i v hv
    simp only
    -- the value itself
    obtain ⟨m1, hm1⟩ : ∃ m1, m1 = (if (m v.ty || v.internal) = true then m.set (.value a) true else m) := ⟨_, rfl⟩
    rw [← hm1]
    have h1 : InInv S base (a :: rem) (fun _ _ => True) m1 := by
      rw [hm1]
      split
      · rename_i hc
        have hh : InputHidden S base (.value a) := by
          rcases Bool.or_eq_true_iff.1 hc with h | h
          · exact .valueType hv (hI.sound _ h)
          · exact .internal hv h
        have := hI.hide w hv hh
        refine this.seen ?_ ?_ ?_ (fun _ _ _ _ _ _ => .inr (.inr trivial))
        · intro ix u hu hx _ _ _
          rcases List.mem_cons.1 hx with rfl | hx
          · exact .inl (by simp)
          · exact .inl hx
        · intro ix u hu hx _
          rcases List.mem_cons.1 hx with rfl | hx
          · exact .inl (by simp)
          · exact .inl hx
        · intro ix u hu hx _
          rcases List.mem_cons.1 hx with rfl | hx
          · exact .inl (by simp)
          · exact .inl hx
      · exact hI
    have hty : m1 v.ty = true → m1 (.value a) = true := by
      intro h
      rw [hm1] at h ⊢
      split
      · exact set_self _ _ _
      · rename_i hc
        rw [if_neg hc] at h
        simp [h] at hc
    have hin : v.internal = true → m1 (.value a) = true := by
      intro h
      rw [hm1, if_pos (by simp [h])]; exact set_self _ _ _
    by_cases hp : (m1 (.value a) && v.required && !v.internal) = true
    · rw [if_pos hp]
      simp only [Bool.and_eq_true, Bool.not_eq_true'] at hp
      have h2 := h1.parent (pend' := fun _ _ => True) w hv (.required hv hp.1.2 hp.2 (h1.sound _ hp.1.1)) (fun _ _ _ => trivial)
        (fun _ _ _ _ => trivial)
      refine h2.seen ?_ ?_ ?_ (fun _ _ _ _ _ _ => .inr (.inr trivial))
      · intro ix u hu hx _ _ _
        rcases List.mem_cons.1 hx with rfl | hx
        · rw [hv] at hu; cases hu; exact .inr (set_self _ _ _)
        · exact .inl hx
      · intro ix u hu hx hi
        rcases List.mem_cons.1 hx with rfl | hx
        · exact .inr (set_mono _ _ _ hp.1.1)
        · exact .inl hx
      · intro ix u hu hx _
        rcases List.mem_cons.1 hx with rfl | hx
        · exact .inr (.inl (set_mono _ _ _ hp.1.1))
        · exact .inl hx
    · rw [if_neg hp]
      refine h1.seen ?_ ?_ ?_ (fun _ _ _ _ _ _ => .inr (.inr trivial))
      · intro ix u hu hx hr hi hm
        rcases List.mem_cons.1 hx with rfl | hx
        · rw [hv] at hu; cases hu
          simp [hm, hr, hi] at hp
        · exact .inl hx
      · intro ix u hu hx hi
        rcases List.mem_cons.1 hx with rfl | hx
        · rw [hv] at hu; cases hu; exact .inr (hin hi)
        · exact .inl hx
      · intro ix u hu hx ht
        rcases List.mem_cons.1 hx with rfl | hx
        · rw [hv] at hu; cases hu; exact .inr (.inl (hty ht))
        · exact .inl hx

theorem markValues_inv {S : Schema} (w : WF S) (base : Marks) : InInv S base [] (fun _ _ => True) (markValues S base) := by
  unfold markValues
  apply foldl_inv (fun rem m => InInv S base rem (fun _ _ => True) m) _ (fun a l b h => markValue_inv w a l b h)
  have hin : ∀ (ix : Nat) (v : ValueDef), S.values[ix]? = some v → ix ∈ List.range S.values.length :=
    fun ix v hv => List.mem_range.2 (getElem?_lt hv)
  exact ⟨fun s h => .base h, fun s h => h, fun _ _ _ _ => rfl, fun ix v hv _ _ _ => .inl (hin ix v hv),
    fun ix v hv _ => .inl (hin ix v hv), fun ix v hv _ => .inl (hin ix v hv)⟩

theorem mem_usersOf {S : Schema} {id ix : Nat} : ix ∈ usersOf S id ↔ ∃ v, S.values[ix]? = some v ∧ v.ty = .input id := by
  unfold usersOf
  rw [List.mem_filter, List.mem_range]
  constructor
  · rintro ⟨_, h⟩
    have := of_decide_eq_true h
    cases hv : S.values[ix]? with
    | none => rw [hv] at this; simp at this
    | some v => rw [hv] at this; exact ⟨v, rfl, by simpa using this⟩
  · rintro ⟨v, hv, ht⟩
    exact ⟨getElem?_lt hv, by simp [hv, ht]⟩

/-- The input objects. -/
def inputSites (S : Schema) : List Site := (List.range S.inputs.length).map Site.input

/-- What holds in a round: `id` is the input object, `rem` its users not seen. -/
structure RoundInv (S : Schema) (base : Marks) (stack : List Nat) (id : Nat) (fuel : Nat) (rem : List Nat)
    (acc : Marks × List Nat) : Prop where
  inv : InInv S base [] (fun i ix => i ∈ acc.2 ∨ i ∈ stack ∨ (i = id ∧ ix ∈ rem)) acc.1
  users : ∀ ix ∈ rem, ∃ v, S.values[ix]? = some v ∧ v.ty = .input id
  hid : acc.1 (.input id) = true
  fuel : acc.2.length + stack.length + unmarked (inputSites S) acc.1 ≤ fuel

theorem spreadValue_inv {S : Schema} {base : Marks} (w : WF S) {stack : List Nat} {id fuel : Nat} (a : Nat) (rem : List Nat)
    (acc : Marks × List Nat) (hR : RoundInv S base stack id fuel (a :: rem) acc) :
    RoundInv S base stack id fuel rem (spreadValue S acc a) := by
  obtain ⟨m, new⟩ := acc
  obtain ⟨hI, hu, hid, hf⟩ := hR
  simp only at hI hid hf
  obtain ⟨v, hv, hvt⟩ := hu a (by simp)
  have hu' : ∀ ix ∈ rem, ∃ v, S.values[ix]? = some v ∧ v.ty = .input id := fun ix hx => hu ix (List.mem_cons_of_mem _ hx)
  unfold spreadValue
  simp only
  by_cases hm : m (.value a) = true
  · rw [if_pos hm]
    refine ⟨?_, hu', hid, hf⟩
    refine hI.seen (by simp) (by simp) (by simp) ?_
    intro ix u i hui hut hp
    rcases hp with h | h | ⟨h1, h2⟩
    · exact .inr (.inr (.inl h))
    · exact .inr (.inr (.inr (.inl h)))
    · rcases List.mem_cons.1 h2 with rfl | h2
      · exact .inr (.inl hm)
      · exact .inr (.inr (.inr (.inr ⟨h1, h2⟩)))
  · rw [if_neg hm, hv]
    simp only
    have hh : InputHidden S base (.value a) := .valueType hv (by rw [hvt]; exact hI.sound _ hid)
    have h1 := hI.hide w hv hh
    have hid1 : (m.set (.value a) true) (.input id) = true := set_mono _ _ _ hid
    have hun : unmarked (inputSites S) (m.set (.value a) true) = unmarked (inputSites S) m :=
      unmarked_set_of_not_mem _ _ _ (by simp [inputSites])
    -- the value is seen when its parent is marked
    have fin : ∀ (m' : Marks) (new' : List Nat), (∀ i ∈ new, i ∈ new') →
        InInv S base [a] (fun i ix => i ∈ new' ∨ i ∈ stack ∨ (i = id ∧ ix ∈ a :: rem)) m' → m' (.value a) = true →
        (v.required = true → v.internal = false → m' v.parent = true) →
        InInv S base [] (fun i ix => i ∈ new' ∨ i ∈ stack ∨ (i = id ∧ ix ∈ rem)) m' := by
      intro m' new' _ hI' hma hpar
      refine hI'.seen ?_ ?_ ?_ ?_
      · intro ix u hui hx hr hi _
        simp only [List.mem_singleton] at hx
        subst hx
        rw [hv] at hui; cases hui
        exact .inr (hpar hr hi)
      · intro ix u hu hx _
        simp only [List.mem_singleton] at hx
        subst hx
        exact .inr hma
      · intro ix u hu hx _
        simp only [List.mem_singleton] at hx
        subst hx
        exact .inr (.inl hma)
      · intro ix u i hui hut hp
        rcases hp with h | h | ⟨h1, h2⟩
        · exact .inr (.inr (.inl h))
        · exact .inr (.inr (.inr (.inl h)))
        · rcases List.mem_cons.1 h2 with rfl | h2
          · exact .inr (.inl hma)
          · exact .inr (.inr (.inr (.inr ⟨h1, h2⟩)))
    by_cases hr : (v.required && !v.internal) = true
    · rw [if_pos hr]
      simp only [Bool.and_eq_true, Bool.not_eq_true'] at hr
      have hph : InputHidden S base v.parent := .required hv hr.1 hr.2 hh
      rcases w.valueParent a v hv with ⟨n, hpar⟩ | ⟨n, hn, hpar⟩
      · rw [hpar]
        simp only
        refine ⟨fin _ _ (fun _ h => h) ?_ (by simp [Marks.set]) (fun _ _ => by rw [hpar]; exact set_self _ _ _), hu',
          set_mono _ (.field n) _ hid1, ?_⟩
        · have := h1.parent (pend' := fun i ix => i ∈ new ∨ i ∈ stack ∨ (i = id ∧ ix ∈ a :: rem)) w hv hph (fun _ _ h => h)
            (by intro i jx he; rw [hpar] at he; cases he)
          rw [hpar] at this; exact this
        · simp only
          rw [unmarked_set_of_not_mem _ _ _ (by simp [inputSites]), hun]; exact hf
      · rw [hpar]
        simp only
        by_cases hmi : (m.set (.value a) true) (.input n) = true
        · rw [if_pos hmi]
          exact ⟨fin _ _ (fun _ h => h) h1 (set_self _ _ _) (fun _ _ => by rw [hpar]; exact hmi), hu', hid1, by simpa [hun] using hf⟩
        · rw [if_neg hmi]
          refine ⟨fin _ _ (fun _ h => by simp [h]) ?_ (by simp [Marks.set]) (fun _ _ => by rw [hpar]; exact set_self _ _ _),
            hu', set_mono _ (.input n) _ hid1, ?_⟩
          · have := h1.parent (pend' := fun i ix => i ∈ new ++ [n] ∨ i ∈ stack ∨ (i = id ∧ ix ∈ a :: rem)) w hv hph
              (by intro i jx h; rcases h with h | h | h
                  · exact .inl (by simp [h])
                  · exact .inr (.inl h)
                  · exact .inr (.inr h))
              (by intro i jx he _; rw [hpar] at he; cases he; exact .inl (by simp))
            rw [hpar] at this; exact this
          · simp only [List.length_append, List.length_singleton]
            have := unmarked_set_lt (inputSites S) (m.set (.value a) true) (.input n)
              (by simp [inputSites, hn]) (by simpa using hmi)
            omega
    · rw [if_neg hr]
      refine ⟨fin _ _ (fun _ h => h) h1 (set_self _ _ _) (fun h1 h2 => ?_), hu', hid1, by simpa [hun] using hf⟩
      simp [h1, h2] at hr

theorem spreadInputs_inv {S : Schema} {base : Marks} (w : WF S) : ∀ (n : Nat) (m : Marks) (stack : List Nat),
    InInv S base [] (fun i _ => i ∈ stack) m → (∀ i ∈ stack, m (.input i) = true) →
    stack.length + unmarked (inputSites S) m ≤ n → InInv S base [] (fun _ _ => False) (spreadInputs S n m stack) := by
  intro n
  induction n with
  | zero =>
    intro m stack hI _ hf
    have : stack = [] := by cases stack with
      | nil => rfl
      | cons _ _ => simp at hf
    subst this
    simpa [spreadInputs] using hI
  | succ n ih =>
    intro m stack hI hst hf
    cases stack with
    | nil => simpa [spreadInputs] using hI
    | cons id stack =>
      unfold spreadInputs
      have hid := hst id (by simp)
      have start : RoundInv S base stack id n (usersOf S id) (m, []) := by
        refine ⟨?_, fun ix hx => mem_usersOf.1 hx, hid, by simp at hf ⊢; omega⟩
        refine hI.seen (by simp) (by simp) (by simp) ?_
        intro ix v i hv ht hp
        rcases List.mem_cons.1 hp with rfl | hp
        · exact .inr (.inr (.inr (.inr ⟨rfl, mem_usersOf.2 ⟨v, hv, ht⟩⟩)))
        · exact .inr (.inr (.inr (.inl hp)))
      have hst0 : ∀ i ∈ stack, m (.input i) = true := fun i hi => hst i (List.mem_cons_of_mem _ hi)
      have r := foldl_inv (fun rem acc => RoundInv S base stack id n rem acc ∧
          (∀ i ∈ stack, acc.1 (.input i) = true) ∧ (∀ i ∈ acc.2, acc.1 (.input i) = true)) (spreadValue S)
        (by
          intro a l acc ⟨h1, h2, h3⟩
          refine ⟨spreadValue_inv w a l acc h1, ?_, ?_⟩
          · intro i hi
            have := h2 i hi
            obtain ⟨m, new⟩ := acc
            unfold spreadValue
            simp only
            repeat' split
            all_goals simp_all [set_true_iff]
          · obtain ⟨m, new⟩ := acc
            simp only at h3
            unfold spreadValue
            simp only
            repeat' split
            all_goals (intro i hi; simp_all [set_true_iff])
            all_goals (rcases hi with hi | hi <;> simp_all))
        (usersOf S id) (m, []) ⟨start, hst0, by simp⟩
      obtain ⟨acc, hacc⟩ : ∃ acc, acc = (usersOf S id).foldl (spreadValue S) (m, []) := ⟨_, rfl⟩
      rw [← hacc] at r ⊢
      obtain ⟨m', new⟩ := acc
      obtain ⟨⟨r1, _, _, r4⟩, r5, r6⟩ := r
      simp only at r1 r4 r5 r6 ⊢
      apply ih
      · refine r1.seen (by simp) (by simp) (by simp) ?_
        intro ix v i _ _ hp
        rcases hp with h | h | ⟨_, h⟩
        · exact .inr (.inr (by simp [h]))
        · exact .inr (.inr (by simp [h]))
        · simp at h
      · intro i hi
        rcases List.mem_append.1 hi with h | h
        · exact r6 i (by simpa using h)
        · exact r5 i h
      · simpa [Nat.add_assoc] using r4

theorem ones_unmarked (n : Nat) (m : Marks) :
    ((List.range n).filter fun i => m (.input i)).length + unmarked ((List.range n).map Site.input) m = n := by
  unfold unmarked
  rw [List.filter_map, List.length_map]
  have : ∀ (l : List Nat) (p : Nat → Bool), (l.filter p).length + (l.filter fun i => !p i).length = l.length := by
    intro l p
    induction l with
    | nil => rfl
    | cons a l ih => cases h : p a <;> simp [List.filter_cons, h] <;> omega
  have h := this (List.range n) fun i => m (.input i)
  simpa [Function.comp_def] using h

theorem markInputs_inv {S : Schema} (w : WF S) (base : Marks) :
    InInv S base [] (fun _ _ => False) (markInputs S (markValues S base)) := by
  have h := markValues_inv w base
  unfold markInputs
  simp only
  apply spreadInputs_inv w
  · refine ⟨h.sound, h.mono, h.same, h.req, h.int, ?_⟩
    intro ix v hv ht
    rcases w.valueTy ix v hv with ⟨n, hn⟩ | ⟨n, hn⟩ | ⟨n, hlt, hn⟩
    · rcases h.ty ix v hv ht with h' | h' | ⟨i, hi, _⟩
      · exact .inl h'
      · exact .inr (.inl h')
      · rw [hn] at hi; cases hi
    · rcases h.ty ix v hv ht with h' | h' | ⟨i, hi, _⟩
      · exact .inl h'
      · exact .inr (.inl h')
      · rw [hn] at hi; cases hi
    · refine .inr (.inr ⟨n, hn, ?_⟩)
      simp only [List.mem_reverse, List.mem_filter, List.mem_range]
      exact ⟨hlt, by rw [← hn]; exact ht⟩
  · intro i hi
    simp only [List.mem_reverse, List.mem_filter, List.mem_range] at hi
    exact hi.2
  · have := ones_unmarked S.inputs.length (markValues S base)
    simp only [List.length_reverse]
    unfold inputSites
    omega

theorem markInputs_iff {S : Schema} (w : WF S) (base : Marks) (s : Site) :
    markInputs S (markValues S base) s = true ↔ InputHidden S base s := by
  have h := markInputs_inv w base
  constructor
  · exact h.sound s
  · intro hh
    induction hh with
    | base hb => exact h.mono _ hb
    | internal hv hi => exact (h.int _ _ hv hi).resolve_left (by simp)
    | valueType hv _ ih =>
      rcases h.ty _ _ hv ih with h' | h' | ⟨_, _, h'⟩
      · simp at h'
      · exact h'
      · exact h'.elim
    | required hv hr hi _ ih => exact (h.req _ _ hv hr hi ih).resolve_left (by simp)

/-! ## Types without accessible elements -/

theorem kids_object {S : Schema} {n : Nat} {k : Site} (h : k ∈ S.kids (.object n)) : ∃ i, k = .field i := by
  simp only [Schema.kids] at h
  cases ho : S.objects[n]? with
  | none => rw [ho] at h; simp at h
  | some o => rw [ho] at h; simp at h; obtain ⟨i, _, rfl⟩ := h; exact ⟨i, rfl⟩

theorem kids_interface {S : Schema} {n : Nat} {k : Site} (h : k ∈ S.kids (.interface n)) : ∃ i, k = .field i := by
  simp only [Schema.kids] at h
  cases ho : S.interfaces[n]? with
  | none => rw [ho] at h; simp at h
  | some o => rw [ho] at h; simp at h; obtain ⟨i, _, rfl⟩ := h; exact ⟨i, rfl⟩

theorem kids_union {S : Schema} {n : Nat} {k : Site} (h : k ∈ S.kids (.union n)) : ∃ i, k = .object i := by
  simp only [Schema.kids] at h
  cases ho : S.unions[n]? with
  | none => rw [ho] at h; simp at h
  | some o => rw [ho] at h; simp at h; obtain ⟨i, _, rfl⟩ := h; exact ⟨i, rfl⟩

theorem kids_enum {S : Schema} {n : Nat} {k : Site} (h : k ∈ S.kids (.enum n)) : ∃ i, k = .enumValue i := by
  simp only [Schema.kids] at h
  cases ho : S.enums[n]? with
  | none => rw [ho] at h; simp at h
  | some o => rw [ho] at h; simp at h; obtain ⟨i, _, rfl⟩ := h; exact ⟨i, rfl⟩

theorem kids_input {S : Schema} {n : Nat} {k : Site} (h : k ∈ S.kids (.input n)) : ∃ i, k = .value i := by
  simp only [Schema.kids] at h
  cases ho : S.inputs[n]? with
  | none => rw [ho] at h; simp at h
  | some o => rw [ho] at h; simp at h; obtain ⟨i, _, rfl⟩ := h; exact ⟨i, rfl⟩

theorem all_congr {l : List Site} {m m' : Marks} (h : ∀ k ∈ l, m k = m' k) : l.all m = l.all m' := by
  induction l with
  | nil => rfl
  | cons a l ih =>
    rw [List.all_cons, List.all_cons, h a (by simp), ih (fun k hk => h k (List.mem_cons_of_mem _ hk))]

theorem hideEmpty_fold {S : Schema} {mk : Nat → Site} (hk : ∀ i j, mk j ∉ S.kids (mk i)) : ∀ (l : List Nat) (m : Marks) (s : Site),
    l.foldl (fun m i => if m (mk i) then m else if (S.kids (mk i)).all m then m.set (mk i) true else m) m s = true ↔
      m s = true ∨ ∃ i ∈ l, s = mk i ∧ (S.kids (mk i)).all m = true := by
  intro l
  induction l with
  | nil => intro m s; simp
  | cons a l ih =>
    intro m s
    rw [List.foldl_cons, ih]
    obtain ⟨m', hm'⟩ : ∃ m', m' = (if m (mk a) = true then m else if (S.kids (mk a)).all m = true then m.set (mk a) true else m) :=
      ⟨_, rfl⟩
    rw [← hm']
    have hsame : ∀ i, (S.kids (mk i)).all m' = (S.kids (mk i)).all m := by
      intro i
      apply all_congr
      intro k hkk
      rw [hm']
      split
      · rfl
      · split
        · rw [set_ne]; rintro rfl; exact hk i a hkk
        · rfl
    have hself : m' s = true ↔ m s = true ∨ (s = mk a ∧ (S.kids (mk a)).all m = true) := by
      rw [hm']
      split
      · rename_i h
        constructor
        · exact .inl
        · rintro (h' | ⟨rfl, _⟩)
          · exact h'
          · exact h
      · split
        · rename_i h1 h2
          rw [set_true_iff]
          constructor
          · rintro (h | h)
            · exact .inr ⟨h, h2⟩
            · exact .inl h
          · rintro (h | ⟨h, _⟩)
            · exact .inr h
            · exact .inl h
        · rename_i h1 h2
          constructor
          · exact .inl
          · rintro (h | ⟨_, h⟩)
            · exact h
            · exact absurd h h2
    rw [hself]
    constructor
    · rintro ((h | ⟨h1, h2⟩) | ⟨i, hi, h1, h2⟩)
      · exact .inl h
      · exact .inr ⟨a, by simp, h1, h2⟩
      · exact .inr ⟨i, List.mem_cons_of_mem _ hi, h1, by rw [← hsame i]; exact h2⟩
    · rintro (h | ⟨i, hi, h1, h2⟩)
      · exact .inl (.inl h)
      · rcases List.mem_cons.1 hi with rfl | hi
        · exact .inl (.inr ⟨h1, h2⟩)
        · exact .inr ⟨i, hi, h1, by rw [hsame i]; exact h2⟩

theorem hideEmpty_iff {S : Schema} {mk : Nat → Site} (hk : ∀ i j, mk j ∉ S.kids (mk i)) (n : Nat) (m : Marks) (s : Site) :
    hideEmpty S mk n m s = true ↔ m s = true ∨ ∃ i, i < n ∧ s = mk i ∧ ∀ k ∈ S.kids (mk i), m k = true := by
  unfold hideEmpty
  rw [hideEmpty_fold hk]
  simp [List.all_eq_true]

theorem no_kid_object (S : Schema) : ∀ i j, Site.object j ∉ S.kids (.object i) := by
  intro i j h; obtain ⟨_, h⟩ := kids_object h; cases h
theorem no_kid_interface (S : Schema) : ∀ i j, Site.interface j ∉ S.kids (.interface i) := by
  intro i j h; obtain ⟨_, h⟩ := kids_interface h; cases h
theorem no_kid_union (S : Schema) : ∀ i j, Site.union j ∉ S.kids (.union i) := by
  intro i j h; obtain ⟨_, h⟩ := kids_union h; cases h
theorem no_kid_enum (S : Schema) : ∀ i j, Site.enum j ∉ S.kids (.enum i) := by
  intro i j h; obtain ⟨_, h⟩ := kids_enum h; cases h
theorem no_kid_input (S : Schema) : ∀ i j, Site.input j ∉ S.kids (.input i) := by
  intro i j h; obtain ⟨_, h⟩ := kids_input h; cases h

/-- What the loops over empty types give. -/
theorem hideAllEmpty_iff (S : Schema) (m : Marks) (s : Site) :
    hideAllEmpty S m s = true ↔ m s = true ∨
      (∃ n, n < S.objects.length ∧ s = .object n ∧ ∀ k ∈ S.kids (.object n), m k = true) ∨
      (∃ n, n < S.interfaces.length ∧ s = .interface n ∧ ∀ k ∈ S.kids (.interface n), m k = true) ∨
      (∃ n, n < S.unions.length ∧ s = .union n ∧ ∀ k ∈ S.kids (.union n), hideEmpty S .object S.objects.length m k = true) ∨
      (∃ n, n < S.enums.length ∧ s = .enum n ∧ ∀ k ∈ S.kids (.enum n), m k = true) ∨
      (∃ n, n < S.inputs.length ∧ s = .input n ∧ ∀ k ∈ S.kids (.input n), m k = true) := by
  unfold hideAllEmpty
  rw [hideEmpty_iff (no_kid_input S), hideEmpty_iff (no_kid_enum S), hideEmpty_iff (no_kid_union S),
    hideEmpty_iff (no_kid_interface S), hideEmpty_iff (no_kid_object S)]
  have hO : ∀ k : Site, (∀ i, k ≠ .object i) → hideEmpty S .object S.objects.length m k = m k := by
    intro k hk
    rw [Bool.eq_iff_iff, hideEmpty_iff (no_kid_object S)]
    exact ⟨fun h => h.elim id (fun ⟨i, _, h, _⟩ => absurd h (hk i)), .inl⟩
  have hI : ∀ (m' : Marks) (k : Site), (∀ i, k ≠ .interface i) → hideEmpty S .interface S.interfaces.length m' k = m' k := by
    intro m' k hk
    rw [Bool.eq_iff_iff, hideEmpty_iff (no_kid_interface S)]
    exact ⟨fun h => h.elim id (fun ⟨i, _, h, _⟩ => absurd h (hk i)), .inl⟩
  have hU : ∀ (m' : Marks) (k : Site), (∀ i, k ≠ .union i) → hideEmpty S .union S.unions.length m' k = m' k := by
    intro m' k hk
    rw [Bool.eq_iff_iff, hideEmpty_iff (no_kid_union S)]
    exact ⟨fun h => h.elim id (fun ⟨i, _, h, _⟩ => absurd h (hk i)), .inl⟩
  have hE : ∀ (m' : Marks) (k : Site), (∀ i, k ≠ .enum i) → hideEmpty S .enum S.enums.length m' k = m' k := by
    intro m' k hk
    rw [Bool.eq_iff_iff, hideEmpty_iff (no_kid_enum S)]
    exact ⟨fun h => h.elim id (fun ⟨i, _, h, _⟩ => absurd h (hk i)), .inl⟩
  have e2 : ∀ n, (∀ k ∈ S.kids (.interface n), hideEmpty S .object S.objects.length m k = true) ↔
      ∀ k ∈ S.kids (.interface n), m k = true := by
    intro n
    constructor <;> intro h k hk <;> have := h k hk <;> obtain ⟨i, rfl⟩ := kids_interface hk
    · rwa [hO _ (by simp)] at this
    · rwa [hO _ (by simp)]
  have e3 : ∀ n, (∀ k ∈ S.kids (.union n),
      hideEmpty S .interface S.interfaces.length (hideEmpty S .object S.objects.length m) k = true) ↔
      ∀ k ∈ S.kids (.union n), hideEmpty S .object S.objects.length m k = true := by
    intro n
    constructor <;> intro h k hk <;> have := h k hk <;> obtain ⟨i, rfl⟩ := kids_union hk
    · rwa [hI _ _ (by simp)] at this
    · rwa [hI _ _ (by simp)]
  have e4 : ∀ n, (∀ k ∈ S.kids (.enum n), hideEmpty S .union S.unions.length
      (hideEmpty S .interface S.interfaces.length (hideEmpty S .object S.objects.length m)) k = true) ↔
      ∀ k ∈ S.kids (.enum n), m k = true := by
    intro n
    constructor <;> intro h k hk <;> have := h k hk <;> obtain ⟨i, rfl⟩ := kids_enum hk
    · rwa [hU _ _ (by simp), hI _ _ (by simp), hO _ (by simp)] at this
    · rwa [hU _ _ (by simp), hI _ _ (by simp), hO _ (by simp)]
  have e5 : ∀ n, (∀ k ∈ S.kids (.input n), hideEmpty S .enum S.enums.length (hideEmpty S .union S.unions.length
      (hideEmpty S .interface S.interfaces.length (hideEmpty S .object S.objects.length m))) k = true) ↔
      ∀ k ∈ S.kids (.input n), m k = true := by
    intro n
    constructor <;> intro h k hk <;> have := h k hk <;> obtain ⟨i, rfl⟩ := kids_input hk
    · rwa [hE _ _ (by simp), hU _ _ (by simp), hI _ _ (by simp), hO _ (by simp)] at this
    · rwa [hE _ _ (by simp), hU _ _ (by simp), hI _ _ (by simp), hO _ (by simp)]
  simp only [e2, e3, e4, e5]
  constructor
  · rintro (((((h | h) | h) | h) | h) | h)
    · exact .inl h
    · exact .inr (.inl h)
    · exact .inr (.inr (.inl h))
    · exact .inr (.inr (.inr (.inl h)))
    · exact .inr (.inr (.inr (.inr (.inl h))))
    · exact .inr (.inr (.inr (.inr (.inr h))))
  · rintro (h | h | h | h | h | h)
    · exact .inl (.inl (.inl (.inl (.inl h))))
    · exact .inl (.inl (.inl (.inl (.inr h))))
    · exact .inl (.inl (.inl (.inr h)))
    · exact .inl (.inl (.inr h))
    · exact .inl (.inr h)
    · exact .inr h

/-! ## Fields -/

/-- The object, interface and union types. -/
def typeSites (S : Schema) : List Site :=
  (List.range S.objects.length).map Site.object ++ (List.range S.interfaces.length).map Site.interface ++
    (List.range S.unions.length).map Site.union

/-- An object or interface of the schema. -/
inductive Entity (S : Schema) : Site → Prop where
  | object {n : Nat} (h : n < S.objects.length) : Entity S (.object n)
  | interface {n : Nat} (h : n < S.interfaces.length) : Entity S (.interface n)

theorem Entity.kid {S : Schema} {c k : Site} (h : Entity S c) (hk : k ∈ S.kids c) : ∃ i, k = .field i := by
  cases h
  · exact kids_object hk
  · exact kids_interface hk

theorem Entity.mem {S : Schema} {c : Site} (h : Entity S c) : c ∈ typeSites S := by
  cases h <;> simp [typeSites, *]

theorem fieldEntity {S : Schema} (w : WF S) {ix : Nat} {f : FieldDef} (h : S.fields[ix]? = some f) : Entity S f.parent := by
  rcases w.fieldParent ix f h with ⟨n, hn, e⟩ | ⟨n, hn, e⟩ <;> rw [e]
  · exact .object hn
  · exact .interface hn

/-- What holds while fields are handled: `m3` are the marks before, `rem` the fields not seen by the first loop,
`Q` and `QU` tell which types have to be seen. -/
structure OutInv (S : Schema) (base m3 : Marks) (F : Nat) (rem : List Nat) (Q : Site → Nat → Prop) (QU : Site → Nat → Prop)
    (acc : Marks × List Site) : Prop where
  sound : ∀ s, acc.1 s = true → Staged S base s
  mono : ∀ s, m3 s = true → acc.1 s = true
  same : ∀ s, (∀ n, s ≠ .object n) → (∀ n, s ≠ .interface n) → (∀ n, s ≠ .union n) → (∀ n, s ≠ .field n) → acc.1 s = m3 s
  ent : ∀ c, Entity S c → (∀ k ∈ S.kids c, acc.1 k = true) → acc.1 c = true
  uni : ∀ u, u < S.unions.length → (∀ k ∈ S.kids (.union u), acc.1 k = true) →
    acc.1 (.union u) = true ∨ ∃ o ∈ S.kids (.union u), o ∈ acc.2 ∨ QU o u
  ty : ∀ (ix : Nat) (f : FieldDef), S.fields[ix]? = some f → acc.1 f.ty = true →
    ix ∈ rem ∨ acc.1 (.field ix) = true ∨ f.ty ∈ acc.2 ∨ Q f.ty ix
  fuel : acc.2.length + unmarked (typeSites S) acc.1 ≤ F

theorem hideField_inv {S : Schema} {base m3 : Marks} {F : Nat} {rem : List Nat} {Q QU : Site → Nat → Prop} (w : WF S)
    (acc : Marks × List Site) (hI : OutInv S base m3 F rem Q QU acc) {ix : Nat} {f : FieldDef} (hf : S.fields[ix]? = some f)
    (hs : Staged S base (.field ix)) :
    OutInv S base m3 F rem Q QU (hideField S acc ix) ∧ (hideField S acc ix).1 (.field ix) = true ∧
      ∀ s, acc.1 s = true → (hideField S acc ix).1 s = true := by
  obtain ⟨m, new⟩ := acc
  unfold hideField
  simp only
  by_cases hm : m (.field ix) = true
  · rw [if_pos hm]; exact ⟨hI, hm, fun _ h => h⟩
  rw [if_neg hm, hf]
  simp only
  obtain ⟨h1, h2, h3, h4, h5, h6, h7⟩ := hI
  simp only at h1 h2 h3 h4 h5 h6 h7
  have hE := fieldEntity w hf
  have hne : f.parent ≠ .field ix := by
    intro h; rw [h] at hE; cases hE
  have hun : unmarked (typeSites S) (m.set (.field ix) true) = unmarked (typeSites S) m :=
    unmarked_set_of_not_mem _ _ _ (by simp [typeSites])
  have hty : ∀ (jx : Nat) (g : FieldDef), S.fields[jx]? = some g → ∀ n, g.ty ≠ .field n := by
    intro jx g hg n h
    rcases w.fieldTy jx g hg with ⟨k, e⟩ | ⟨k, e⟩ | ⟨k, e⟩ | ⟨k, e⟩ | ⟨k, e⟩ <;> rw [e] at h <;> cases h
  have s1 : ∀ s, (m.set (.field ix) true) s = true → Staged S base s := by
    intro s h
    rcases (set_true_iff _ _ _).1 h with rfl | h
    · exact hs
    · exact h1 s h
  by_cases hp : ((S.kids f.parent).all (m.set (.field ix) true) && !(m.set (.field ix) true) f.parent) = true
  · rw [if_pos hp]
    simp only [Bool.and_eq_true, Bool.not_eq_true', List.all_eq_true] at hp
    obtain ⟨hall, hpm⟩ := hp
    refine ⟨⟨?_, ?_, ?_, ?_, ?_, ?_, ?_⟩, ?_, ?_⟩
    · intro s h
      rcases (set_true_iff _ _ _).1 h with rfl | h
      · have hk : ∀ k ∈ S.kids f.parent, Staged S base k := fun k hk => s1 k (hall k hk)
        rcases w.fieldParent ix f hf with ⟨n, hn, e⟩ | ⟨n, hn, e⟩ <;> rw [e] at hk ⊢
        · exact .emptyObject hn hk
        · exact .emptyInterface hn hk
      · exact s1 s h
    · intro s h; exact set_mono _ _ _ (set_mono _ _ _ (h2 s h))
    · intro s a1 a2 a3 a4
      have : s ≠ f.parent := by
        intro e; rw [← e] at hE; cases hE
        · exact a1 _ rfl
        · exact a2 _ rfl
      simp only
      rw [set_ne _ _ this, set_ne _ _ (a4 ix)]
      exact h3 s a1 a2 a3 a4
    · intro c hc hk
      simp only at hk ⊢
      rw [set_true_iff]
      by_cases hcp : c = f.parent
      · exact .inl hcp
      · refine .inr (set_mono _ _ _ (h4 c hc ?_))
        intro k hkk
        have := hk k hkk
        obtain ⟨i, rfl⟩ := hc.kid hkk
        rw [set_ne _ _ (by intro e; rw [← e] at hE; cases hE)] at this
        rcases (set_true_iff _ _ _).1 this with he | h
        · cases he
          obtain ⟨f', hf', hpar⟩ := w.inParent c _ hkk
          rw [hf] at hf'; cases hf'
          exact absurd hpar.symm hcp
        · exact h
    · intro u hu hk
      simp only at hk ⊢
      by_cases hpu : f.parent ∈ S.kids (.union u)
      · exact .inr ⟨_, hpu, .inl (by simp)⟩
      · rcases h5 u hu (by
          intro k hkk
          have := hk k hkk
          rw [set_ne _ _ (by intro e; rw [e] at hkk; exact hpu hkk)] at this
          obtain ⟨i, rfl⟩ := kids_union hkk
          rwa [set_ne _ _ (by simp)] at this) with h | ⟨o, ho, h⟩
        · exact .inl (set_mono _ _ _ (set_mono _ _ _ h))
        · refine .inr ⟨o, ho, ?_⟩
          rcases h with h | h
          · exact .inl (by simp [h])
          · exact .inr h
    · intro jx g hg ht
      simp only at ht ⊢
      rcases (set_true_iff _ _ _).1 ht with he | ht
      · exact .inr (.inr (.inl (by simp [he])))
      · rw [set_ne _ _ (hty jx g hg ix)] at ht
        rcases h6 jx g hg ht with h | h | h | h
        · exact .inl h
        · exact .inr (.inl (set_mono _ _ _ (set_mono _ _ _ h)))
        · exact .inr (.inr (.inl (by simp [h])))
        · exact .inr (.inr (.inr h))
    · simp only [List.length_append, List.length_singleton]
      have := unmarked_set_lt (typeSites S) (m.set (.field ix) true) f.parent hE.mem hpm
      omega
    · exact set_mono _ _ _ (set_self _ _ _)
    · intro s h; exact set_mono _ _ _ (set_mono _ _ _ h)
  · rw [if_neg hp]
    refine ⟨⟨s1, ?_, ?_, ?_, ?_, ?_, ?_⟩, set_self _ _ _, fun s h => set_mono _ _ _ h⟩
    · intro s h; exact set_mono _ _ _ (h2 s h)
    · intro s a1 a2 a3 a4
      simp only
      rw [set_ne _ _ (a4 ix)]
      exact h3 s a1 a2 a3 a4
    · intro c hc hk
      simp only at hk ⊢
      by_cases hcp : c = f.parent
      · rw [hcp] at hk ⊢
        by_cases hz : (m.set (.field ix) true) f.parent = true
        · exact hz
        · exfalso
          apply hp
          simp only [Bool.and_eq_true, Bool.not_eq_true', List.all_eq_true]
          exact ⟨hk, by simpa using hz⟩
      · refine set_mono _ _ _ (h4 c hc ?_)
        intro k hkk
        have := hk k hkk
        obtain ⟨i, rfl⟩ := hc.kid hkk
        rcases (set_true_iff _ _ _).1 this with he | h
        · cases he
          obtain ⟨f', hf', hpar⟩ := w.inParent c _ hkk
          rw [hf] at hf'; cases hf'
          exact absurd hpar.symm hcp
        · exact h
    · intro u hu hk
      simp only at hk ⊢
      rcases h5 u hu (by
          intro k hkk
          have := hk k hkk
          obtain ⟨i, rfl⟩ := kids_union hkk
          rwa [set_ne _ _ (by simp)] at this) with h | h
      · exact .inl (set_mono _ _ _ h)
      · exact .inr h
    · intro jx g hg ht
      simp only at ht ⊢
      rw [set_ne _ _ (hty jx g hg ix)] at ht
      rcases h6 jx g hg ht with h | h | h | h
      · exact .inl h
      · exact .inr (.inl (set_mono _ _ _ h))
      · exact .inr (.inr (.inl h))
      · exact .inr (.inr (.inr h))
    · simp only [hun]; exact h7

theorem hideUnion_inv {S : Schema} {base m3 : Marks} {F : Nat} {rem : List Nat} {Q QU : Site → Nat → Prop}
    (acc : Marks × List Site) (hI : OutInv S base m3 F rem Q QU acc) {u : Nat} (hu : u < S.unions.length) :
    OutInv S base m3 F rem Q QU (hideUnion S acc u) ∧
      ((∀ k ∈ S.kids (.union u), (hideUnion S acc u).1 k = true) → (hideUnion S acc u).1 (.union u) = true) ∧
      ∀ s, acc.1 s = true → (hideUnion S acc u).1 s = true := by
  obtain ⟨m, new⟩ := acc
  unfold hideUnion
  simp only
  by_cases hp : ((S.kids (.union u)).all m && !m (.union u)) = true
  · rw [if_pos hp]
    simp only [Bool.and_eq_true, Bool.not_eq_true', List.all_eq_true] at hp
    obtain ⟨hall, hpm⟩ := hp
    obtain ⟨h1, h2, h3, h4, h5, h6, h7⟩ := hI
    simp only at h1 h2 h3 h4 h5 h6 h7
    refine ⟨⟨?_, ?_, ?_, ?_, ?_, ?_, ?_⟩, fun _ => set_self _ _ _, fun s h => set_mono _ _ _ h⟩
    · intro s h
      rcases (set_true_iff _ _ _).1 h with rfl | h
      · exact .emptyUnion hu (fun k hk => h1 k (hall k hk))
      · exact h1 s h
    · intro s h; exact set_mono _ _ _ (h2 s h)
    · intro s a1 a2 a3 a4
      simp only
      rw [set_ne _ _ (a3 u)]; exact h3 s a1 a2 a3 a4
    · intro c hc hk
      simp only at hk ⊢
      refine set_mono _ _ _ (h4 c hc ?_)
      intro k hkk
      have := hk k hkk
      obtain ⟨i, rfl⟩ := hc.kid hkk
      rwa [set_ne _ _ (by simp)] at this
    · intro u' hu' hk
      simp only at hk ⊢
      rcases h5 u' hu' (by
          intro k hkk
          have := hk k hkk
          obtain ⟨i, rfl⟩ := kids_union hkk
          rwa [set_ne _ _ (by simp)] at this) with h | ⟨o, ho, h⟩
      · exact .inl (set_mono _ _ _ h)
      · refine .inr ⟨o, ho, ?_⟩
        rcases h with h | h
        · exact .inl (by simp [h])
        · exact .inr h
    · intro jx g hg ht
      simp only at ht ⊢
      rcases (set_true_iff _ _ _).1 ht with he | ht
      · exact .inr (.inr (.inl (by simp [he])))
      · rcases h6 jx g hg ht with h | h | h | h
        · exact .inl h
        · exact .inr (.inl (set_mono _ _ _ h))
        · exact .inr (.inr (.inl (by simp [h])))
        · exact .inr (.inr (.inr h))
    · simp only [List.length_append, List.length_singleton]
      have := unmarked_set_lt (typeSites S) m (.union u) (by simp [typeSites, hu]) hpm
      omega
  · rw [if_neg hp]
    refine ⟨hI, ?_, fun _ h => h⟩
    intro hk
    simp only at hk
    by_cases hz : m (.union u) = true
    · exact hz
    · exfalso
      apply hp
      simp only [Bool.and_eq_true, Bool.not_eq_true', List.all_eq_true]
      exact ⟨hk, by simpa using hz⟩

theorem OutInv.weaken {S : Schema} {base m3 : Marks} {F : Nat} {rem rem' : List Nat} {Q QU Q' QU' : Site → Nat → Prop}
    {acc : Marks × List Site} (hI : OutInv S base m3 F rem Q QU acc)
    (hrem : ∀ (ix : Nat) (f : FieldDef), S.fields[ix]? = some f → ix ∈ rem → acc.1 f.ty = true →
      ix ∈ rem' ∨ acc.1 (.field ix) = true ∨ f.ty ∈ acc.2 ∨ Q' f.ty ix)
    (hQ : ∀ (ix : Nat) (f : FieldDef), S.fields[ix]? = some f → Q f.ty ix →
      ix ∈ rem' ∨ acc.1 (.field ix) = true ∨ f.ty ∈ acc.2 ∨ Q' f.ty ix)
    (hQU : ∀ u, u < S.unions.length → (∀ k ∈ S.kids (.union u), acc.1 k = true) → ∀ o ∈ S.kids (.union u), QU o u →
      acc.1 (.union u) = true ∨ ∃ o ∈ S.kids (.union u), o ∈ acc.2 ∨ QU' o u) :
    OutInv S base m3 F rem' Q' QU' acc where
  sound := hI.sound
  mono := hI.mono
  same := hI.same
  ent := hI.ent
  uni := fun u hu hk => by
    rcases hI.uni u hu hk with h | ⟨o, ho, h | h⟩
    · exact .inl h
    · exact .inr ⟨o, ho, .inl h⟩
    · exact hQU u hu hk o ho h
  ty := fun ix f hf ht => by
    rcases hI.ty ix f hf ht with h | h | h | h
    · exact hrem ix f hf h ht
    · exact .inr (.inl h)
    · exact .inr (.inr (.inl h))
    · exact hQ ix f hf h
  fuel := hI.fuel

theorem markField_inv {S : Schema} {base m3 : Marks} {F : Nat} (w : WF S) (a : Nat) (rem : List Nat) (acc : Marks × List Site)
    (hI : OutInv S base m3 F (a :: rem) (fun _ _ => False) (fun _ _ => False) acc) :
    OutInv S base m3 F rem (fun _ _ => False) (fun _ _ => False) (markField S acc a) := by
  unfold markField
  split
  · rename_i hn
    refine hI.weaken ?_ (fun _ _ _ h => h.elim) (fun _ _ _ _ _ h => h.elim)
    intro ix f hf hx _
    rcases List.mem_cons.1 hx with rfl | hx
    · rw [hn] at hf; cases hf
    · exact .inl hx
  · rename_i f hf
    split
    · rename_i ht
      obtain ⟨r1, r2, _⟩ := hideField_inv w acc hI hf (.fieldType hf (hI.sound _ ht))
      refine r1.weaken ?_ (fun _ _ _ h => h.elim) (fun _ _ _ _ _ h => h.elim)
      intro ix g hg hx _
      rcases List.mem_cons.1 hx with rfl | hx
      · exact .inr (.inl r2)
      · exact .inl hx
    · rename_i ht
      refine hI.weaken ?_ (fun _ _ _ h => h.elim) (fun _ _ _ _ _ h => h.elim)
      intro ix g hg hx hgt
      rcases List.mem_cons.1 hx with rfl | hx
      · rw [hf] at hg; cases hg; exact absurd hgt ht
      · exact .inl hx

theorem mem_fieldsOf {S : Schema} {c : Site} {ix : Nat} : ix ∈ fieldsOf S c ↔ ∃ f, S.fields[ix]? = some f ∧ f.ty = c := by
  unfold fieldsOf
  rw [List.mem_filter, List.mem_range]
  constructor
  · rintro ⟨_, h⟩
    have := of_decide_eq_true h
    cases hv : S.fields[ix]? with
    | none => rw [hv] at this; simp at this
    | some v => rw [hv] at this; exact ⟨v, rfl, by simpa using this⟩
  · rintro ⟨v, hv, ht⟩
    exact ⟨getElem?_lt hv, by simp [hv, ht]⟩

theorem mem_unionsOf {S : Schema} {m0 : Marks} {c : Site} {u : Nat} :
    u ∈ unionsOf S m0 c ↔ u < S.unions.length ∧ m0 (.union u) = false ∧ c ∈ S.kids (.union u) := by
  unfold unionsOf
  rw [List.mem_filter, List.mem_range]
  simp

theorem spreadTypes_inv {S : Schema} {base m3 : Marks} (w : WF S) : ∀ (n : Nat) (m : Marks) (stack : List Site),
    OutInv S base m3 n [] (fun _ _ => False) (fun _ _ => False) (m, stack) → (∀ c ∈ stack, m c = true) →
    OutInv S base m3 n [] (fun _ _ => False) (fun _ _ => False) (spreadTypes S m3 n m stack, []) := by
  intro n
  induction n with
  | zero =>
    intro m stack hI _
    have : stack = [] := by
      have := hI.fuel
      cases stack with
      | nil => rfl
      | cons _ _ => simp at this
    subst this
    simpa [spreadTypes] using hI
  | succ n ih =>
    intro m stack hI hst
    cases stack with
    | nil => simpa [spreadTypes] using hI
    | cons c stack =>
      unfold spreadTypes
      have hc := hst c (by simp)
      -- start of the round
      have start : OutInv S base m3 (n - stack.length) [] (fun t ix => t ∈ stack ∨ (t = c ∧ ix ∈ fieldsOf S c))
          (fun o u => o ∈ stack ∨ (o = c ∧ u ∈ unionsOf S m3 c)) (m, []) := by
        obtain ⟨h1, h2, h3, h4, h5, h6, h7⟩ := hI
        refine ⟨h1, h2, h3, h4, ?_, ?_, ?_⟩
        · intro u hu hk
          rcases h5 u hu hk with h | ⟨o, ho, h | h⟩
          · exact .inl h
          · rcases List.mem_cons.1 h with rfl | h
            · cases h0 : m3 (.union u) with
              | true => exact .inl (h2 _ h0)
              | false => exact .inr ⟨o, ho, .inr (.inr ⟨rfl, mem_unionsOf.2 ⟨hu, h0, ho⟩⟩)⟩
            · exact .inr ⟨o, ho, .inr (.inl h)⟩
          · exact h.elim
        · intro ix f hf ht
          rcases h6 ix f hf ht with h | h | h | h
          · exact .inl h
          · exact .inr (.inl h)
          · rcases List.mem_cons.1 h with rfl | h
            · exact .inr (.inr (.inr (.inr ⟨rfl, mem_fieldsOf.2 ⟨f, hf, rfl⟩⟩)))
            · exact .inr (.inr (.inr (.inl h)))
          · exact h.elim
        · simp at h7 ⊢; omega
      -- the unions
      have r1 := foldl_inv (fun remU acc => OutInv S base m3 (n - stack.length) []
          (fun t ix => t ∈ stack ∨ (t = c ∧ ix ∈ fieldsOf S c)) (fun o u => o ∈ stack ∨ (o = c ∧ u ∈ remU)) acc ∧
          (∀ u ∈ remU, u < S.unions.length) ∧ (∀ s, m s = true → acc.1 s = true) ∧ (∀ t ∈ acc.2, acc.1 t = true)) (hideUnion S)
        (by
          rintro a l acc ⟨g1, g2, g3, g4⟩
          obtain ⟨q1, q2, q3⟩ := hideUnion_inv acc g1 (g2 a (by simp))
          refine ⟨q1.weaken (by simp) (fun _ _ _ h => .inr (.inr (.inr h))) ?_, fun u hu => g2 u (List.mem_cons_of_mem _ hu),
            fun s h => q3 s (g3 s h), ?_⟩
          · intro u hu hk o ho h
            rcases h with h | ⟨h1, h2⟩
            · exact .inr ⟨o, ho, .inr (.inl h)⟩
            · rcases List.mem_cons.1 h2 with rfl | h2
              · exact .inl (q2 hk)
              · exact .inr ⟨o, ho, .inr (.inr ⟨h1, h2⟩)⟩
          · intro t ht
            obtain ⟨am, an⟩ := acc
            unfold hideUnion at ht ⊢
            simp only at ht ⊢ g4
            split
            · rename_i hcc
              rw [if_pos hcc] at ht
              simp only [List.mem_append, List.mem_singleton] at ht
              rcases ht with ht | rfl
              · exact set_mono _ _ _ (g4 t ht)
              · exact set_self _ _ _
            · rename_i hcc
              rw [if_neg hcc] at ht
              exact g4 t ht)
        (unionsOf S m3 c) (m, []) ⟨start, fun u hu => (mem_unionsOf.1 hu).1, fun _ h => h, by simp⟩
      obtain ⟨acc1, hacc1⟩ : ∃ acc1, acc1 = (unionsOf S m3 c).foldl (hideUnion S) (m, []) := ⟨_, rfl⟩
      rw [← hacc1] at r1 ⊢
      obtain ⟨r11, _, r13, r14⟩ := r1
      -- the fields
      have r2 := foldl_inv (fun remF acc => OutInv S base m3 (n - stack.length) []
          (fun t ix => t ∈ stack ∨ (t = c ∧ ix ∈ remF)) (fun o u => o ∈ stack ∨ (o = c ∧ u ∈ ([] : List Nat))) acc ∧
          (∀ ix ∈ remF, ∃ f, S.fields[ix]? = some f ∧ f.ty = c) ∧ (∀ s, m s = true → acc.1 s = true) ∧
          (∀ t ∈ acc.2, acc.1 t = true)) (hideField S)
        (by
          rintro a l acc ⟨g1, g2, g3, g4⟩
          obtain ⟨f, hf, hft⟩ := g2 a (by simp)
          obtain ⟨q1, q2, q3⟩ := hideField_inv w acc g1 hf (.fieldType hf (g1.sound _ (g3 _ (by rw [hft]; exact hc))))
          refine ⟨q1.weaken (by simp) ?_ (fun u hu hk o ho h => .inr ⟨o, ho, .inr h⟩),
            fun u hu => g2 u (List.mem_cons_of_mem _ hu), fun s h => q3 s (g3 s h), ?_⟩
          · intro ix g hg h
            rcases h with h | ⟨h1, h2⟩
            · exact .inr (.inr (.inr (.inl h)))
            · rcases List.mem_cons.1 h2 with rfl | h2
              · exact .inr (.inl q2)
              · exact .inr (.inr (.inr (.inr ⟨h1, h2⟩)))
          · intro t ht
            obtain ⟨am, an⟩ := acc
            unfold hideField at ht ⊢
            simp only at ht ⊢ g4
            by_cases hma : am (.field a) = true
            · rw [if_pos hma] at ht ⊢; exact g4 t ht
            · rw [if_neg hma, hf] at ht ⊢
              simp only at ht ⊢
              split
              · rename_i hcc
                rw [if_pos hcc] at ht
                simp only [List.mem_append, List.mem_singleton] at ht
                rcases ht with ht | rfl
                · exact set_mono _ _ _ (set_mono _ _ _ (g4 t ht))
                · exact set_self _ _ _
              · rename_i hcc
                rw [if_neg hcc] at ht
                exact set_mono _ _ _ (g4 t ht))
        (fieldsOf S c) acc1 ⟨r11, fun ix hx => mem_fieldsOf.1 hx, r13, r14⟩
      obtain ⟨acc2, hacc2⟩ : ∃ acc2, acc2 = (fieldsOf S c).foldl (hideField S) acc1 := ⟨_, rfl⟩
      simp only
      rw [← hacc2] at r2 ⊢
      obtain ⟨m', new⟩ := acc2
      obtain ⟨⟨h1, h2, h3, h4, h5, h6, h7⟩, _, r23, r24⟩ := r2
      simp only at h1 h2 h3 h4 h5 h6 h7 r23 r24 ⊢
      have hlen : stack.length + 1 ≤ n + 1 := by
        have := hI.fuel
        simp only [List.length_cons] at this
        omega
      have step : OutInv S base m3 n [] (fun _ _ => False) (fun _ _ => False) (m', new.reverse ++ stack) := by
        refine ⟨h1, h2, h3, h4, ?_, ?_, ?_⟩
        · intro u hu hk
          rcases h5 u hu hk with h | ⟨o, ho, h | h | ⟨_, h⟩⟩
          · exact .inl h
          · exact .inr ⟨o, ho, .inl (by simp [h])⟩
          · exact .inr ⟨o, ho, .inl (by simp [h])⟩
          · simp at h
        · intro ix f hf ht
          rcases h6 ix f hf ht with h | h | h | h | ⟨_, h⟩
          · exact .inl h
          · exact .inr (.inl h)
          · exact .inr (.inr (.inl (by simp [h])))
          · exact .inr (.inr (.inl (by simp [h])))
          · simp at h
        · simp only [List.length_append, List.length_reverse]; omega
      have fin := ih m' (new.reverse ++ stack) step (by
        intro t ht
        rcases List.mem_append.1 ht with h | h
        · exact r24 t (by simpa using h)
        · exact r23 t (hst t (List.mem_cons_of_mem _ h)))
      obtain ⟨k1, k2, k3, k4, k5, k6, k7⟩ := fin
      exact ⟨k1, k2, k3, k4, k5, k6, by simp only at k7 ⊢; omega⟩

theorem markFields_inv {S : Schema} {base m3 : Marks} (w : WF S) (hs : ∀ s, m3 s = true → Staged S base s)
    (hent : ∀ c, Entity S c → (∀ k ∈ S.kids c, m3 k = true) → m3 c = true)
    (huni : ∀ u, u < S.unions.length → (∀ k ∈ S.kids (.union u), m3 k = true) → m3 (.union u) = true) :
    OutInv S base m3 (S.objects.length + S.interfaces.length + S.unions.length + 1) [] (fun _ _ => False) (fun _ _ => False)
      (markFields S m3, []) := by
  unfold markFields
  have hlen : unmarked (typeSites S) m3 ≤ S.objects.length + S.interfaces.length + S.unions.length := by
    unfold unmarked
    refine Nat.le_trans (List.length_filter_le _ _) ?_
    simp [typeSites]; omega
  have start : OutInv S base m3 (S.objects.length + S.interfaces.length + S.unions.length + 1) (List.range S.fields.length)
      (fun _ _ => False) (fun _ _ => False) (m3, []) := by
    refine ⟨hs, fun _ h => h, fun _ _ _ _ _ => rfl, hent, fun u hu hk => .inl (huni u hu hk), ?_, by simp; omega⟩
    intro ix f hf _
    exact .inl (List.mem_range.2 (getElem?_lt hf))
  have r := foldl_inv (fun rem acc => OutInv S base m3 (S.objects.length + S.interfaces.length + S.unions.length + 1) rem
      (fun _ _ => False) (fun _ _ => False) acc ∧ (∀ t ∈ acc.2, acc.1 t = true)) (markField S)
    (by
      rintro a l acc ⟨g1, g4⟩
      refine ⟨markField_inv w a l acc g1, ?_⟩
      intro t ht
      obtain ⟨am, an⟩ := acc
      unfold markField at ht ⊢
      cases hf : S.fields[a]? with
      | none => rw [hf] at ht; exact g4 t ht
      | some f =>
        rw [hf] at ht
        simp only at ht ⊢ g4
        by_cases hty : am f.ty = true
        · rw [if_pos hty] at ht ⊢
          unfold hideField at ht ⊢
          simp only at ht ⊢
          by_cases hma : am (.field a) = true
          · rw [if_pos hma] at ht ⊢; exact g4 t ht
          · rw [if_neg hma, hf] at ht ⊢
            simp only at ht ⊢
            split
            · rename_i hcc
              rw [if_pos hcc] at ht
              simp only [List.mem_append, List.mem_singleton] at ht
              rcases ht with ht | rfl
              · exact set_mono _ _ _ (set_mono _ _ _ (g4 t ht))
              · exact set_self _ _ _
            · rename_i hcc
              rw [if_neg hcc] at ht
              exact set_mono _ _ _ (g4 t ht)
        · rw [if_neg hty] at ht ⊢; exact g4 t ht)
    (List.range S.fields.length) (m3, []) ⟨start, by simp⟩
  obtain ⟨acc, hacc⟩ : ∃ acc, acc = (List.range S.fields.length).foldl (markField S) (m3, []) := ⟨_, rfl⟩
  rw [← hacc] at r ⊢
  obtain ⟨m', new⟩ := acc
  obtain ⟨⟨h1, h2, h3, h4, h5, h6, h7⟩, r2⟩ := r
  simp only at h1 h2 h3 h4 h5 h6 h7 r2 ⊢
  apply spreadTypes_inv w
  · refine ⟨h1, h2, h3, h4, ?_, ?_, by simpa using h7⟩
    · intro u hu hk
      rcases h5 u hu hk with h | ⟨o, ho, h | h⟩
      · exact .inl h
      · exact .inr ⟨o, ho, .inl (by simp [h])⟩
      · exact h.elim
    · intro ix f hf ht
      rcases h6 ix f hf ht with h | h | h | h
      · exact .inl h
      · exact .inr (.inl h)
      · exact .inr (.inr (.inl (by simp [h])))
      · exact h.elim
  · intro c hc; exact r2 c (by simpa using hc)

/-- The marks before fields are handled. -/
theorem hideAllEmpty_staged {S : Schema} (w : WF S) (base : Marks) :
    (∀ s, hideAllEmpty S (markInputs S (markValues S base)) s = true → Staged S base s) ∧
    (∀ s, InputHidden S base s → hideAllEmpty S (markInputs S (markValues S base)) s = true) ∧
    (∀ c, Entity S c → (∀ k ∈ S.kids c, hideAllEmpty S (markInputs S (markValues S base)) k = true) →
      hideAllEmpty S (markInputs S (markValues S base)) c = true) ∧
    (∀ u, u < S.unions.length → (∀ k ∈ S.kids (.union u), hideAllEmpty S (markInputs S (markValues S base)) k = true) →
      hideAllEmpty S (markInputs S (markValues S base)) (.union u) = true) ∧
    (∀ n, n < S.enums.length → (∀ k ∈ S.kids (.enum n), InputHidden S base k) →
      hideAllEmpty S (markInputs S (markValues S base)) (.enum n) = true) ∧
    (∀ n, n < S.inputs.length → (∀ k ∈ S.kids (.input n), InputHidden S base k) →
      hideAllEmpty S (markInputs S (markValues S base)) (.input n) = true) ∧
    (∀ n, hideAllEmpty S (markInputs S (markValues S base)) (.value n) = true → InputHidden S base (.value n)) := by
  obtain ⟨m, hm⟩ : ∃ m, m = markInputs S (markValues S base) := ⟨_, rfl⟩
  have hi : ∀ s, m s = true ↔ InputHidden S base s := fun s => by rw [hm]; exact markInputs_iff w base s
  rw [← hm]
  have hfield : ∀ i, hideAllEmpty S m (.field i) = true → m (.field i) = true := by
    intro i h
    rw [hideAllEmpty_iff] at h
    rcases h with h | ⟨_, _, h, _⟩ | ⟨_, _, h, _⟩ | ⟨_, _, h, _⟩ | ⟨_, _, h, _⟩ | ⟨_, _, h, _⟩
    · exact h
    all_goals cases h
  have hobj : ∀ s, hideEmpty S .object S.objects.length m s = true → Staged S base s := by
    intro s h
    rw [hideEmpty_iff (no_kid_object S)] at h
    rcases h with h | ⟨n, hn, rfl, h⟩
    · exact .input ((hi s).1 h)
    · exact .emptyObject hn fun k hk => .input ((hi k).1 (h k hk))
  refine ⟨?_, ?_, ?_, ?_, ?_, ?_, ?_⟩
  · intro s h
    rw [hideAllEmpty_iff] at h
    rcases h with h | ⟨n, hn, rfl, h⟩ | ⟨n, hn, rfl, h⟩ | ⟨n, hn, rfl, h⟩ | ⟨n, hn, rfl, h⟩ | ⟨n, hn, rfl, h⟩
    · exact .input ((hi s).1 h)
    · exact .emptyObject hn fun k hk => .input ((hi k).1 (h k hk))
    · exact .emptyInterface hn fun k hk => .input ((hi k).1 (h k hk))
    · exact .emptyUnion hn fun k hk => hobj k (h k hk)
    · exact .emptyEnum hn fun k hk => (hi k).1 (h k hk)
    · exact .emptyInput hn fun k hk => (hi k).1 (h k hk)
  · intro s h
    rw [hideAllEmpty_iff]; exact .inl ((hi s).2 h)
  · intro c hc hk
    rw [hideAllEmpty_iff]
    have hk' : ∀ k ∈ S.kids c, m k = true := by
      intro k hkk
      have := hk k hkk
      obtain ⟨i, rfl⟩ := hc.kid hkk
      exact hfield i this
    cases hc with
    | object h => exact .inr (.inl ⟨_, h, rfl, hk'⟩)
    | interface h => exact .inr (.inr (.inl ⟨_, h, rfl, hk'⟩))
  · intro u hu hk
    rw [hideAllEmpty_iff]
    refine .inr (.inr (.inr (.inl ⟨u, hu, rfl, ?_⟩)))
    intro k hkk
    have := hk k hkk
    obtain ⟨i, rfl⟩ := kids_union hkk
    rw [hideAllEmpty_iff] at this
    rw [hideEmpty_iff (no_kid_object S)]
    rcases this with h | ⟨n, hn, h, h'⟩ | ⟨_, _, h, _⟩ | ⟨_, _, h, _⟩ | ⟨_, _, h, _⟩ | ⟨_, _, h, _⟩
    · exact .inl h
    · exact .inr ⟨n, hn, h, h'⟩
    all_goals cases h
  · intro n hn h
    rw [hideAllEmpty_iff]
    exact .inr (.inr (.inr (.inr (.inl ⟨n, hn, rfl, fun k hk => (hi k).2 (h k hk)⟩))))
  · intro n hn h
    rw [hideAllEmpty_iff]
    exact .inr (.inr (.inr (.inr (.inr ⟨n, hn, rfl, fun k hk => (hi k).2 (h k hk)⟩))))
  · intro n h
    rw [hideAllEmpty_iff] at h
    rcases h with h | ⟨_, _, h, _⟩ | ⟨_, _, h, _⟩ | ⟨_, _, h, _⟩ | ⟨_, _, h, _⟩ | ⟨_, _, h, _⟩
    · exact (hi _).1 h
    all_goals cases h

/-- Exactly what is hidden. -/
theorem finalize_iff {S : Schema} (w : WF S) (base : Marks) (s : Site) : finalize S base s = true ↔ Staged S base s := by
  obtain ⟨a1, a2, a3, a4, a5, a6, _⟩ := hideAllEmpty_staged w base
  have h := markFields_inv w a1 a3 a4
  obtain ⟨h1, h2, h3, h4, h5, h6, _⟩ := h
  unfold finalize
  constructor
  · exact h1 s
  · intro hs
    induction hs with
    | input hi => exact h2 _ (a2 _ hi)
    | emptyEnum hn hk => exact h2 _ (a5 _ hn hk)
    | emptyInput hn hk => exact h2 _ (a6 _ hn hk)
    | fieldType hf _ ih =>
      rcases h6 _ _ hf ih with h | h | h | h
      · simp at h
      · exact h
      · simp at h
      · exact h.elim
    | emptyObject hn _ ih => exact h4 _ (.object hn) ih
    | emptyInterface hn _ ih => exact h4 _ (.interface hn) ih
    | emptyUnion hn _ ih =>
      rcases h5 _ hn ih with h | ⟨o, _, h | h⟩
      · exact h
      · simp at h
      · exact h.elim

theorem staged_value {S : Schema} (w : WF S) {base : Marks} {ix : Nat} (h : Staged S base (.value ix)) :
    InputHidden S base (.value ix) := by
  cases h with
  | input h => exact h

end Verif.Hidden
