import Verif.OperationLimits.Spec

namespace Verif.OperationLimits

theorem exceeds_false_iff {n : Nat} {l : Option Nat} : exceeds n l = false ↔ AtMost n l := by
  cases l <;> simp [exceeds, AtMost]

theorem AtMost.mono {m n : Nat} {l : Option Nat} (h : AtMost n l) (hmn : m ≤ n) : AtMost m l :=
  fun k hk => Nat.le_trans hmn (h k hk)

namespace Forest

@[simp] theorem width_append (f g : Forest) : (f.append g).width = f.width + g.width := by
  induction f with
  | nil => simp [append, width]
  | node a s r _ ih => simp [append, width, ih]; omega

@[simp] theorem size_append (f g : Forest) : (f.append g).size = f.size + g.size := by
  induction f with
  | nil => simp [append, size]
  | node a s r _ ih => simp [append, size, ih]; omega

@[simp] theorem aliases_append (f g : Forest) : (f.append g).aliases = f.aliases + g.aliases := by
  induction f with
  | nil => simp [append, aliases]
  | node a s r _ ih => simp [append, aliases, ih]; omega

@[simp] theorem height_append (f g : Forest) : (f.append g).height = max f.height g.height := by
  induction f with
  | nil => simp [append, height]
  | node a s r _ ih => simp [append, height, ih, Nat.max_assoc]

end Forest

/-- Counters after visiting a forest at a depth. -/
def Counters.add (c : Counters) (depth : Nat) (f : Forest) : Counters :=
  ⟨c.rootFields + (if depth = 0 then f.width else 0), c.aliases + f.aliases, c.complexity + f.size⟩

structure Fits (lim : Limits) (c : Counters) (depth : Nat) : Prop where
  root : AtMost c.rootFields lim.rootFields
  al : AtMost c.aliases lim.aliases
  cx : AtMost c.complexity lim.complexity
  dp : AtMost depth lim.depth

theorem Counters.add_append (c : Counters) (d : Nat) (f g : Forest) :
    c.add d (f.append g) = (c.add d f).add d g := by
  simp only [Counters.add, Forest.width_append, Forest.size_append, Forest.aliases_append]
  split <;> simp [Nat.add_assoc]

theorem Counters.add_node (c : Counters) (d : Nat) (a : Bool) (f g : Forest) :
    c.add d (.node a f g) = (Counters.add ⟨c.rootFields + (d == 0).toNat,
      c.aliases + a.toNat, c.complexity + 1⟩ (d + 1) f).add d g := by
  simp only [Counters.add, Forest.width, Forest.size, Forest.aliases]
  rcases Nat.eq_zero_or_pos d with rfl | h
  · cases a <;> simp [Nat.add_assoc]
  · have : d ≠ 0 := by omega
    cases a <;> simp [Nat.add_assoc, this]

/-- What soundness needs of the fragment visitor. -/
def Sound (fs : Frags) (lim : Limits)
    (enter : Sels → List Nat → Nat → Counters → Except Err Counters) : Prop :=
  ∀ sels stack d c c', enter sels stack d c = .ok c' → Fits lim c d →
    ∃ f, Expands fs sels f ∧ c' = c.add d f ∧ Fits lim c' (d + f.height)

theorem visitWith_sound {fs : Frags} {lim : Limits}
    {enter : Sels → List Nat → Nat → Counters → Except Err Counters} (he : Sound fs lim enter) :
    Sound fs lim (visitWith fs lim enter) := by
  intro sels
  induction sels with
  | nil =>
    intro stack d c c' h hf
    simp only [visitWith, Except.ok.injEq] at h
    subst h
    exact ⟨.nil, .nil, by simp [Counters.add, Forest.width, Forest.aliases, Forest.size],
      by simpa [Forest.height] using hf⟩
  | field a sub rest ihs ihr =>
    intro stack d c c' h hf
    simp only [visitWith] at h
    split at h; · exact nomatch h
    rename_i h1
    split at h; · exact nomatch h
    rename_i h2
    split at h; · exact nomatch h
    rename_i h3
    split at h; · exact nomatch h
    rename_i h4
    simp only [Bool.not_eq_true, exceeds_false_iff] at h1 h2 h3 h4
    split at h; · exact nomatch h
    rename_i c1 hs
    obtain ⟨f, hf1, hc1, hfit1⟩ := ihs _ _ _ _ hs ⟨h1, h3, h2, h4⟩
    obtain ⟨g, hg1, hc2, hfit2⟩ := ihr _ _ _ _ h
      ⟨hfit1.root, hfit1.al, hfit1.cx, hfit1.dp.mono (by omega)⟩
    refine ⟨.node a f g, .field hf1 hg1, ?_, ?_⟩
    · rw [Counters.add_node, hc2, hc1]
    · refine ⟨hfit2.root, hfit2.al, hfit2.cx, ?_⟩
      simp only [Forest.height]
      rcases Nat.le_total (1 + f.height) g.height with h | h
      · rw [Nat.max_eq_right h]; exact hfit2.dp
      · rw [Nat.max_eq_left h]; exact hfit1.dp.mono (by omega)
  | spread n rest ihr =>
    intro stack d c c' h hf
    simp only [visitWith] at h
    split at h; · exact nomatch h
    split at h; · exact nomatch h
    rename_i body hb
    split at h; · exact nomatch h
    rename_i c1 hs
    obtain ⟨f, hf1, hc1, hfit1⟩ := he _ _ _ _ _ hs hf
    obtain ⟨g, hg1, hc2, hfit2⟩ := ihr _ _ _ _ h
      ⟨hfit1.root, hfit1.al, hfit1.cx, hfit1.dp.mono (by omega)⟩
    refine ⟨f.append g, .spread hb hf1 hg1, ?_, hfit2.root, hfit2.al, hfit2.cx, ?_⟩
    · rw [Counters.add_append, hc2, hc1]
    · rw [Forest.height_append]
      rcases Nat.le_total f.height g.height with h | h
      · rw [Nat.max_eq_right h]; exact hfit2.dp
      · rw [Nat.max_eq_left h]; exact hfit1.dp
  | inline sub rest ihs ihr =>
    intro stack d c c' h hf
    simp only [visitWith] at h
    split at h; · exact nomatch h
    rename_i c1 hs
    obtain ⟨f, hf1, hc1, hfit1⟩ := ihs _ _ _ _ hs hf
    obtain ⟨g, hg1, hc2, hfit2⟩ := ihr _ _ _ _ h
      ⟨hfit1.root, hfit1.al, hfit1.cx, hfit1.dp.mono (by omega)⟩
    refine ⟨f.append g, .inline hf1 hg1, ?_, hfit2.root, hfit2.al, hfit2.cx, ?_⟩
    · rw [Counters.add_append, hc2, hc1]
    · rw [Forest.height_append]
      rcases Nat.le_total f.height g.height with h | h
      · rw [Nat.max_eq_right h]; exact hfit2.dp
      · rw [Nat.max_eq_left h]; exact hfit1.dp

theorem visit_sound (fs : Frags) (lim : Limits) (fuel : Nat) : Sound fs lim (visit fs lim fuel) := by
  induction fuel with
  | zero => exact visitWith_sound (fun _ _ _ _ _ h => nomatch h)
  | succ n ih => exact visitWith_sound ih

/-! ### Expansion with a bound on the nesting of spreads -/

inductive ExpandsH (fs : Frags) : Nat → Sels → Forest → Prop where
  | nil {h} : ExpandsH fs h .nil .nil
  | field {h a sub rest f g} : ExpandsH fs h sub f → ExpandsH fs h rest g →
      ExpandsH fs h (.field a sub rest) (.node a f g)
  | spread {h n rest body f g} : fs.find n = some body → ExpandsH fs h body f →
      ExpandsH fs (h + 1) rest g → ExpandsH fs (h + 1) (.spread n rest) (f.append g)
  | inline {h sub rest f g} : ExpandsH fs h sub f → ExpandsH fs h rest g →
      ExpandsH fs h (.inline sub rest) (f.append g)

theorem ExpandsH.succ {fs : Frags} {h : Nat} {s : Sels} {f : Forest} (x : ExpandsH fs h s f) :
    ExpandsH fs (h + 1) s f := by
  induction x with
  | nil => exact .nil
  | field _ _ i j => exact .field i j
  | spread hb _ _ i j => exact .spread hb i j
  | inline _ _ i j => exact .inline i j

theorem ExpandsH.mono {fs : Frags} {h k : Nat} {s : Sels} {f : Forest} (x : ExpandsH fs h s f)
    (hk : h ≤ k) : ExpandsH fs k s f := by
  induction hk with
  | refl => exact x
  | step _ ih => exact ih.succ

theorem Expands.bounded {fs : Frags} {s : Sels} {f : Forest} (x : Expands fs s f) :
    ∃ h, ExpandsH fs h s f := by
  induction x with
  | nil => exact ⟨0, .nil⟩
  | field _ _ i j =>
    obtain ⟨h, i⟩ := i; obtain ⟨k, j⟩ := j
    exact ⟨max h k, .field (i.mono (Nat.le_max_left ..)) (j.mono (Nat.le_max_right ..))⟩
  | spread hb _ _ i j =>
    obtain ⟨h, i⟩ := i; obtain ⟨k, j⟩ := j
    exact ⟨max h k + 1, .spread hb (i.mono (Nat.le_max_left ..))
      (j.mono (Nat.le_succ_of_le (Nat.le_max_right ..)))⟩
  | inline _ _ i j =>
    obtain ⟨h, i⟩ := i; obtain ⟨k, j⟩ := j
    exact ⟨max h k, .inline (i.mono (Nat.le_max_left ..)) (j.mono (Nat.le_max_right ..))⟩

theorem ExpandsH.toExpands {fs : Frags} {h : Nat} {s : Sels} {f : Forest} (x : ExpandsH fs h s f) :
    Expands fs s f := by
  induction x with
  | nil => exact .nil
  | field _ _ i j => exact .field i j
  | spread hb _ _ i j => exact .spread hb i j
  | inline _ _ i j => exact .inline i j

theorem Expands.unique {fs : Frags} {s : Sels} {f g : Forest} (x : Expands fs s f)
    (y : Expands fs s g) : f = g := by
  induction x generalizing g with
  | nil => cases y; rfl
  | field _ _ i j => cases y with | field a b => rw [i a, j b]
  | spread hb _ _ i j =>
    cases y with
    | spread hb' a b => rw [hb] at hb'; cases hb'; rw [i a, j b]
  | inline _ _ i j => cases y with | inline a b => rw [i a, j b]

/-- Least spread nesting. -/
theorem ExpandsH.least {fs : Frags} {h : Nat} {s : Sels} {f : Forest} (x : ExpandsH fs h s f) :
    ∃ k ≤ h, ExpandsH fs k s f ∧ ∀ j < k, ∀ g, ¬ ExpandsH fs j s g := by
  induction h with
  | zero => exact ⟨0, Nat.le_refl _, x, fun j hj => absurd hj (Nat.not_lt_zero _)⟩
  | succ n ih =>
    by_cases hn : ExpandsH fs n s f
    · obtain ⟨k, hk, a, b⟩ := ih hn
      exact ⟨k, Nat.le_succ_of_le hk, a, b⟩
    · refine ⟨n + 1, Nat.le_refl _, x, fun j hj g hg => hn ?_⟩
      have := hg.toExpands.unique x.toExpands
      subst this
      exact hg.mono (Nat.le_of_lt_succ hj)

/-! ### The fragment stack -/

def keys (fs : Frags) : List Nat := fs.map (·.1)

theorem find_mem_keys {fs : Frags} {n : Nat} {b : Sels} (h : fs.find n = some b) : n ∈ keys fs := by
  unfold Frags.find at h
  induction fs with
  | nil => simp at h
  | cons p fs ih =>
    obtain ⟨k, v⟩ := p
    simp only [List.lookup_cons] at h
    split at h
    · simp_all [keys]
    · exact List.mem_cons_of_mem _ (ih h)

theorem nodup_subset_length {l m : List Nat} (hn : l.Nodup) (hs : ∀ x ∈ l, x ∈ m) :
    l.length ≤ m.length := by
  induction l generalizing m with
  | nil => simp
  | cons a l ih =>
    have ha : a ∈ m := hs a (by simp)
    have hn' := List.nodup_cons.mp hn
    have := ih (m := m.erase a) hn'.2 (fun x hx => by
      have hxa : x ≠ a := fun h => hn'.1 (h ▸ hx)
      exact (List.mem_erase_of_ne hxa).2 (hs x (List.mem_cons_of_mem _ hx)))
    rw [List.length_erase_of_mem ha] at this
    have : 0 < m.length := List.length_pos_of_mem ha
    simp only [List.length_cons]; omega

/-- The fragments on the stack are distinct and defined. -/
structure StackOk (fs : Frags) (fuel : Nat) (stack : List Nat) : Prop where
  nodup : stack.Nodup
  known : ∀ n ∈ stack, n ∈ keys fs
  enough : fs.length ≤ stack.length + fuel

theorem StackOk.push {fs : Frags} {fuel : Nat} {stack : List Nat} {n : Nat} {b : Sels}
    (h : StackOk fs (fuel + 1) stack) (hn : n ∉ stack) (hb : fs.find n = some b) :
    StackOk fs fuel (n :: stack) :=
  ⟨List.nodup_cons.2 ⟨hn, h.nodup⟩, fun m hm => by
    rcases List.mem_cons.1 hm with rfl | hm
    · exact find_mem_keys hb
    · exact h.known m hm, by simp only [List.length_cons]; have := h.enough; omega⟩

theorem StackOk.not_zero {fs : Frags} {stack : List Nat} {n : Nat} {b : Sels}
    (h : StackOk fs 0 stack) (hn : n ∉ stack) (hb : fs.find n = some b) : False := by
  have := nodup_subset_length (l := n :: stack) (m := keys fs) (List.nodup_cons.2 ⟨hn, h.nodup⟩)
    (fun m hm => by
      rcases List.mem_cons.1 hm with rfl | hm
      · exact find_mem_keys hb
      · exact h.known m hm)
  have h2 := h.enough
  simp only [keys, List.length_cons, List.length_map] at this
  omega

theorem visitWith_fuel {fs : Frags} {lim : Limits} {stackOk pushed : List Nat → Prop}
    {enter : Sels → List Nat → Nat → Counters → Except Err Counters}
    (hpush : ∀ stack n b, stackOk stack → n ∉ stack → fs.find n = some b → pushed (n :: stack))
    (he : ∀ sels stack d c, pushed stack → enter sels stack d c ≠ .error .outOfFuel)
    (sels : Sels) (stack : List Nat) (d : Nat) (c : Counters) (hst : stackOk stack) :
    visitWith fs lim enter sels stack d c ≠ .error .outOfFuel := by
  induction sels generalizing d c with
  | nil => simp [visitWith]
  | field a sub rest ihs ihr =>
    simp only [visitWith]
    split; · simp
    split; · simp
    split; · simp
    split; · simp
    split
    · rename_i e hs
      have := ihs (d + 1) ⟨c.rootFields + (d == 0).toNat, c.aliases + a.toNat, c.complexity + 1⟩
      rw [hs] at this; simpa using this
    · exact ihr _ _
  | spread n rest ihr =>
    simp only [visitWith]
    split; · simp
    rename_i hn
    split; · simp
    rename_i b hb
    have := he b (n :: stack) d c (hpush stack n b hst (by simpa using hn) hb)
    split
    · rename_i e hs; rw [hs] at this; simpa using this
    · exact ihr _ _
  | inline sub rest ihs ihr =>
    simp only [visitWith]
    split
    · rename_i e hs
      have := ihs d c; rw [hs] at this; simpa using this
    · exact ihr _ _

theorem visit_fuel {fs : Frags} {lim : Limits} (fuel : Nat) (sels : Sels) (stack : List Nat) (d : Nat)
    (c : Counters) (h : StackOk fs fuel stack) : visit fs lim fuel sels stack d c ≠ .error .outOfFuel := by
  induction fuel generalizing sels stack d c with
  | zero =>
    exact visitWith_fuel (stackOk := StackOk fs 0) (pushed := fun _ => False)
      (fun _ _ _ h hn hb => h.not_zero hn hb) (fun _ _ _ _ h => h.elim) _ _ _ _ h
  | succ n ih =>
    exact visitWith_fuel (stackOk := StackOk fs (n + 1)) (pushed := StackOk fs n)
      (fun _ _ _ h hn hb => h.push hn hb) (fun _ _ _ _ h => ih _ _ _ _ h) _ _ _ _ h

/-! ### Completeness -/

/-- An outcome agrees with the expansion `f`: success gives the counters of `f`, an error names a limit
which `f` exceeds. -/
def Explains (lim : Limits) (d : Nat) (c : Counters) (f : Forest) : Except Err Counters → Prop
  | .ok c' => c' = c.add d f
  | .error .tooDeep => ¬ AtMost (d + f.height) lim.depth
  | .error .tooManyRootFields => ¬ AtMost (c.add d f).rootFields lim.rootFields
  | .error .tooManyAliases => ¬ AtMost (c.add d f).aliases lim.aliases
  | .error .tooComplex => ¬ AtMost (c.add d f).complexity lim.complexity
  | .error _ => False

theorem Counters.add_le (c : Counters) (d : Nat) (f : Forest) :
    c.rootFields ≤ (c.add d f).rootFields ∧ c.aliases ≤ (c.add d f).aliases ∧
      c.complexity ≤ (c.add d f).complexity := by
  simp [Counters.add]

/-- An error in an initial part explains the error of the whole. -/
theorem Explains.mono {lim : Limits} {d d' : Nat} {c c' : Counters} {f g : Forest} {e : Err}
    (h : Explains lim d c f (.error e)) (hd : d + f.height ≤ d' + g.height)
    (hr : (c.add d f).rootFields ≤ (c'.add d' g).rootFields)
    (ha : (c.add d f).aliases ≤ (c'.add d' g).aliases)
    (hx : (c.add d f).complexity ≤ (c'.add d' g).complexity) :
    Explains lim d' c' g (.error e) := by
  cases e <;> simp only [Explains] at h ⊢ <;>
    first
      | exact h
      | exact fun hh => h (hh.mono hd)
      | exact fun hh => h (hh.mono hr)
      | exact fun hh => h (hh.mono ha)
      | exact fun hh => h (hh.mono hx)

/-- Nothing on the stack expands with a smaller nesting than `h`. -/
def Above (fs : Frags) (h : Nat) (stack : List Nat) : Prop :=
  ∀ s ∈ stack, ∀ b, fs.find s = some b → ∀ k < h, ∀ f, ¬ ExpandsH fs k b f

/-- Sequencing two parts of a selection set. -/
theorem Explains.seq {lim : Limits} {d1 d : Nat} {c0 c' : Counters} {f1 f2 f : Forest}
    {r1 : Except Err Counters} {k : Counters → Except Err Counters}
    (h1 : Explains lim d1 c0 f1 r1)
    (h2 : ∀ c1, c1 = c0.add d1 f1 → Explains lim d c1 f2 (k c1))
    (hc : c'.add d f = (c0.add d1 f1).add d f2)
    (hh1 : d1 + f1.height ≤ d + f.height) (hh2 : f2.height ≤ f.height) :
    Explains lim d c' f (match (motive := Except Err Counters → Except Err Counters) r1 with
      | .error e => .error e | .ok c1 => k c1) := by
  cases r1 with
  | error e =>
    have := Counters.add_le (c0.add d1 f1) d f2
    exact h1.mono hh1 (by rw [hc]; omega) (by rw [hc]; omega) (by rw [hc]; omega)
  | ok c1 =>
    replace h1 : c1 = c0.add d1 f1 := h1
    have := h2 c1 h1
    show Explains lim d c' f (k c1)
    cases hk : k c1 with
    | ok c2 =>
      rw [hk] at this
      show c2 = _
      rw [hc, this, h1]
    | error e =>
      rw [hk] at this
      exact this.mono (Nat.add_le_add_left hh2 d) (by rw [hc, h1]; exact Nat.le_refl _)
        (by rw [hc, h1]; exact Nat.le_refl _) (by rw [hc, h1]; exact Nat.le_refl _)

/-- The visitor used for fragment bodies. -/
def enterOf (fs : Frags) (lim : Limits) : Nat → Sels → List Nat → Nat → Counters → Except Err Counters
  | 0 => fun _ _ _ _ => .error .outOfFuel
  | fuel + 1 => visit fs lim fuel

theorem visit_eq (fs : Frags) (lim : Limits) (fuel : Nat) :
    visit fs lim fuel = visitWith fs lim (enterOf fs lim fuel) := by
  cases fuel <;> rfl

theorem visit_complete {fs : Frags} {lim : Limits} {h : Nat} {sels : Sels} {f : Forest}
    (x : ExpandsH fs h sels f) (fuel : Nat) (stack : List Nat) (d : Nat) (c : Counters)
    (hst : StackOk fs fuel stack) (hab : Above fs h stack) :
    Explains lim d c f (visit fs lim fuel sels stack d c) := by
  induction h using Nat.strongRecOn generalizing sels f fuel stack d c with
  | ind h ih =>
  rw [visit_eq]
  induction sels generalizing f d c with
  | nil =>
    cases x
    simp [visitWith, Explains, Counters.add, Forest.width, Forest.aliases, Forest.size]
  | field a sub rest ihs ihr =>
    cases x with
    | @field _ _ _ _ f g xf xg =>
    simp only [visitWith]
    have hle := Counters.add_le (Counters.add ⟨c.rootFields + (d == 0).toNat,
      c.aliases + a.toNat, c.complexity + 1⟩ (d + 1) f) d g
    rw [← Counters.add_node] at hle
    have hle2 := Counters.add_le ⟨c.rootFields + (d == 0).toNat,
      c.aliases + a.toNat, c.complexity + 1⟩ (d + 1) f
    have e1 {n l} : exceeds n l = true → ¬ AtMost n l := by
      intro h1 h2; rw [← exceeds_false_iff] at h2; simp [h1] at h2
    split
    · rename_i hx; exact fun hh => e1 hx (hh.mono (Nat.le_trans hle2.1 hle.1))
    split
    · rename_i hx; exact fun hh => e1 hx (hh.mono (Nat.le_trans hle2.2.2 hle.2.2))
    split
    · rename_i hx; exact fun hh => e1 hx (hh.mono (Nat.le_trans hle2.2.1 hle.2.1))
    split
    · rename_i hx; exact fun hh => e1 hx (hh.mono (by simp only [Forest.height]; omega))
    exact Explains.seq (ihs xf _ _) (fun c1 _ => ihr xg d c1) (Counters.add_node ..)
      (by simp only [Forest.height]; omega) (by simp only [Forest.height]; omega)
  | spread n rest ihr =>
    cases x with
    | @spread h0 _ _ body f g hb xf xg =>
    have hn : n ∉ stack := fun hm => hab n hm body hb h0 (Nat.lt_succ_self _) f xf
    obtain ⟨k, hk, xk, hmin⟩ := xf.least
    simp only [visitWith, hb]
    rw [if_neg (by simpa using hn)]
    refine Explains.seq (c0 := c) (d1 := d) (f1 := f) ?_ (fun c1 _ => ihr xg d c1)
      (Counters.add_append ..) (by simp only [Forest.height_append]; omega)
      (by simp only [Forest.height_append]; omega)
    cases fuel with
    | zero => exact (hst.not_zero hn hb).elim
    | succ fuel =>
      refine ih k (Nat.lt_succ_of_le hk) xk fuel (n :: stack) d c (hst.push hn hb) ?_
      intro s hs b hsb j hj g
      rcases List.mem_cons.1 hs with rfl | hs
      · rw [hb] at hsb; cases hsb; exact hmin j hj g
      · exact hab s hs b hsb j (by omega) g
  | inline sub rest ihs ihr =>
    cases x with
    | @inline _ _ _ f g xf xg =>
    simp only [visitWith]
    exact Explains.seq (ihs xf d c) (fun c1 _ => ihr xg d c1) (Counters.add_append ..)
      (by simp only [Forest.height_append]; omega) (by simp only [Forest.height_append]; omega)

theorem validate_stackOk (fs : Frags) : StackOk fs fs.length [] :=
  ⟨List.nodup_nil, by simp, by simp⟩

/-! ### Expansion and reachability -/

theorem ExpandsH.mentions {fs : Frags} {h : Nat} {s : Sels} {f : Forest} (x : ExpandsH fs h s f) {n : Nat}
    (hm : Mentions n s) : ∃ k g body, k < h ∧ fs.find n = some body ∧ ExpandsH fs k body g := by
  induction x with
  | nil => cases hm
  | field _ _ i j => cases hm with | fieldSub hm => exact i hm | fieldRest hm => exact j hm
  | @spread h0 _ _ body f g hb xf _ i j =>
    cases hm with
    | here => exact ⟨h0, f, body, Nat.lt_succ_self _, hb, xf⟩
    | spreadRest hm => exact j hm
  | inline _ _ i j => cases hm with | inlineSub hm => exact i hm | inlineRest hm => exact j hm

theorem ExpandsH.reaches {fs : Frags} {h : Nat} {s : Sels} {f : Forest} (x : ExpandsH fs h s f) {n : Nat}
    (hr : Reaches fs s n) : ∃ k g body, k < h ∧ fs.find n = some body ∧ ExpandsH fs k body g := by
  induction hr generalizing h f with
  | direct hm => exact x.mentions hm
  | step hm hb _ ih =>
    obtain ⟨k, g, body, hk, hb', xb⟩ := x.mentions hm
    rw [hb] at hb'; cases hb'
    obtain ⟨k', g', body', hk', r⟩ := ih xb
    exact ⟨k', g', body', by omega, r⟩

theorem Reaches.trans {fs : Frags} {s : Sels} {m n : Nat} {b : Sels} (h : Reaches fs s m)
    (hb : fs.find m = some b) (h2 : Reaches fs b n) : Reaches fs s n := by
  induction h with
  | direct hm => exact .step hm hb h2
  | step hm hb' _ ih => exact .step hm hb' (ih hb)

/-- The spreads mentioned by `sels` are reachable from the operation and from each fragment on the
stack. -/
structure Below (fs : Frags) (root : Sels) (stack : List Nat) (sels : Sels) : Prop where
  fromRoot : ∀ m, Mentions m sels → Reaches fs root m
  fromStack : ∀ s ∈ stack, Reaches fs root s ∧ ∃ b, fs.find s = some b ∧ ∀ m, Mentions m sels → Reaches fs b m

/-- What the two fragment errors mean. -/
def FragErr (fs : Frags) (root : Sels) : Err → Prop
  | .fragmentCycle => ∃ n b, Reaches fs root n ∧ fs.find n = some b ∧ Reaches fs b n
  | .unknownFragment => ∃ n, Reaches fs root n ∧ fs.find n = none
  | _ => True

theorem Below.sub {fs : Frags} {root : Sels} {stack : List Nat} {s s' : Sels} (h : Below fs root stack s)
    (hm : ∀ m, Mentions m s' → Mentions m s) : Below fs root stack s' :=
  ⟨fun m x => h.fromRoot m (hm m x), fun t ht => by
    obtain ⟨a, b, hb, hc⟩ := h.fromStack t ht
    exact ⟨a, b, hb, fun m x => hc m (hm m x)⟩⟩

theorem visitWith_err {fs : Frags} {lim : Limits} {root : Sels}
    {enter : Sels → List Nat → Nat → Counters → Except Err Counters}
    (he : ∀ sels stack d c e, Below fs root stack sels → enter sels stack d c = .error e →
      FragErr fs root e)
    (sels : Sels) (stack : List Nat) (d : Nat) (c : Counters) (e : Err)
    (hb : Below fs root stack sels) (h : visitWith fs lim enter sels stack d c = .error e) :
    FragErr fs root e := by
  induction sels generalizing d c with
  | nil => simp [visitWith] at h
  | field a sub rest ihs ihr =>
    simp only [visitWith] at h
    split at h; · cases h; trivial
    split at h; · cases h; trivial
    split at h; · cases h; trivial
    split at h; · cases h; trivial
    split at h
    · rename_i hs; cases h; exact ihs _ _ (hb.sub fun _ => .fieldSub) hs
    · exact ihr _ _ (hb.sub fun _ => .fieldRest) h
  | spread n rest ihr =>
    simp only [visitWith] at h
    split at h
    · rename_i hc
      cases h
      obtain ⟨hr, b, hfb, hm⟩ := hb.fromStack n (by simpa using hc)
      exact ⟨n, b, hr, hfb, hm n .here⟩
    split at h
    · rename_i hn; cases h; exact ⟨n, hb.fromRoot n .here, hn⟩
    rename_i body hbody
    split at h
    · rename_i hs
      cases h
      refine he body (n :: stack) d c e ⟨fun m hm => ?_, fun s hs => ?_⟩ hs
      · exact (hb.fromRoot n .here).trans hbody (.direct hm)
      · rcases List.mem_cons.1 hs with rfl | hs
        · exact ⟨hb.fromRoot _ .here, body, hbody, fun m hm => .direct hm⟩
        · obtain ⟨a, b, hfb, hc⟩ := hb.fromStack s hs
          exact ⟨a, b, hfb, fun m hm => (hc n .here).trans hbody (.direct hm)⟩
    · exact ihr _ _ (hb.sub fun _ => .spreadRest) h
  | inline sub rest ihs ihr =>
    simp only [visitWith] at h
    split at h
    · rename_i hs; cases h; exact ihs _ _ (hb.sub fun _ => .inlineSub) hs
    · exact ihr _ _ (hb.sub fun _ => .inlineRest) h

theorem visit_err {fs : Frags} {lim : Limits} {root : Sels} (fuel : Nat) (sels : Sels) (stack : List Nat)
    (d : Nat) (c : Counters) (e : Err) (hb : Below fs root stack sels)
    (h : visit fs lim fuel sels stack d c = .error e) : FragErr fs root e := by
  induction fuel generalizing sels stack d c e with
  | zero => exact visitWith_err (fun _ _ _ _ _ _ h => by cases h; trivial) _ _ _ _ _ hb h
  | succ n ih => exact visitWith_err (fun _ _ _ _ _ hb h => ih _ _ _ _ _ hb h) _ _ _ _ _ hb h

end Verif.OperationLimits
