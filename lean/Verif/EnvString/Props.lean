import Verif.EnvString.Model

namespace Verif.EnvString

/-! ## Specification -/

/-- A placeholder is `{{`, spaces, a key, spaces, `}}`. -/
structure Placeholder where
  left : Str
  key : Str
  right : Str

def Placeholder.text (p : Placeholder) : Str := '{' :: '{' :: (p.left ++ (p.key ++ (p.right ++ ['}', '}'])))

structure Placeholder.Ok (p : Placeholder) : Prop where
  left : ∀ c ∈ p.left, isSpace c = true
  key : ∀ c ∈ p.key, isKey c = true
  nonempty : p.key ≠ []
  right : ∀ c ∈ p.right, isSpace c = true

/-- Text without placeholders. -/
def Plain (s : Str) : Prop := ∀ p : Placeholder, p.Ok → ¬ p.text <:+: s

/-- A string: plain text, then any number of placeholders each followed by plain text. -/
structure Template where
  head : Str
  tail : List (Placeholder × Str)

def Template.text (t : Template) : Str := t.head ++ t.tail.flatMap (fun x => x.1.text ++ x.2)

structure Template.Ok (t : Template) : Prop where
  head : Plain t.head
  tail : ∀ x ∈ t.tail, x.1.Ok ∧ Plain x.2

/-- The value of a placeholder: that of the variable `NAME` if its key is `env.NAME`. -/
def Placeholder.value (env : Str → Option Str) (p : Placeholder) : Option Str :=
  match p.key with
  | 'e' :: 'n' :: 'v' :: '.' :: name => if '.' ∈ name then none else env name
  | _ => none

/-- The template with all placeholders replaced by their values, if they have one. -/
def Template.value (env : Str → Option Str) (t : Template) : Option Str :=
  (t.tail.mapM (fun (x : Placeholder × Str) => (x.1.value env).map (· ++ x.2))).map (fun l => t.head ++ l.flatten)

/-! ## Matching -/

theorem not_key_of_space {c : Char} (h : isSpace c = true) : isKey c = false := by
  rw [Bool.eq_false_iff]
  intro hk
  simp [isSpace] at h
  simp [isKey, Char.isAlphanum, Char.isAlpha, Char.isUpper, Char.isLower, Char.isDigit, UInt32.le_iff_toNat_le] at hk
  have : c.val.toNat = c.toNat := rfl
  rcases hk with (hk | hk) | hk
  · omega
  · subst hk; revert h; decide
  · subst hk; revert h; decide

theorem brace_not : isSpace '}' = false ∧ isKey '}' = false ∧ isSpace '{' = false ∧ isKey '{' = false := by decide

theorem dropWhile_append {p : Char → Bool} {a b : Str} (ha : ∀ c ∈ a, p c = true) (hb : ∀ c ∈ b.head?, p c = false) :
    (a ++ b).dropWhile p = b ∧ (a ++ b).takeWhile p = a := by
  rw [List.dropWhile_append_of_pos ha, List.takeWhile_append_of_pos ha]
  cases b with
  | nil => simp
  | cons x xs => simp at hb; simp [hb]

theorem takeWhile_mem {p : Char → Bool} {s : Str} {c : Char} (h : c ∈ s.takeWhile p) : p c = true := by
  have := List.all_takeWhile (l := s) (p := p)
  exact List.all_eq_true.1 this c h

theorem matchAt_text {p : Placeholder} (hp : p.Ok) (rest : Str) : matchAt (p.text ++ rest) = some (p.key, rest) := by
  obtain ⟨l, k, r⟩ := p
  simp only [Placeholder.text, List.cons_append, List.append_assoc, List.nil_append, matchAt]
  have hk : ∀ c ∈ (k ++ (r ++ '}' :: '}' :: rest)).head?, isSpace c = false := by
    cases k with
    | nil => exact absurd rfl hp.nonempty
    | cons x xs =>
      simp
      cases hs : isSpace x with
      | false => rfl
      | true => have := hp.key x (by simp); rw [not_key_of_space hs] at this; simp at this
  have hr : ∀ c ∈ (r ++ '}' :: '}' :: rest).head?, isKey c = false := by
    cases r with
    | nil => simp [brace_not]
    | cons x xs => simp; exact not_key_of_space (hp.right x (by simp))
  have hb : ∀ c ∈ ('}' :: '}' :: rest).head?, isSpace c = false := by simp [brace_not]
  rw [(dropWhile_append hp.left hk).1, (dropWhile_append hp.key hr).1, (dropWhile_append hp.key hr).2,
    (dropWhile_append hp.right hb).1, if_neg hp.nonempty]
  rfl

theorem matchAt_some {s k rest : Str} (h : matchAt s = some (k, rest)) :
    ∃ p : Placeholder, p.Ok ∧ p.key = k ∧ s = p.text ++ rest := by
  unfold matchAt at h
  split at h
  · rename_i r
    simp only at h
    split at h
    · simp at h
    · rename_i hne
      split at h
      · rename_i rest' hr
        simp only [Option.some.injEq, Prod.mk.injEq] at h
        obtain ⟨rfl, rfl⟩ := h
        refine ⟨⟨r.takeWhile isSpace, _, ((r.dropWhile isSpace).dropWhile isKey).takeWhile isSpace⟩,
          ⟨?_, ?_, hne, ?_⟩, rfl, ?_⟩
        · intro c hc; exact takeWhile_mem hc
        · intro c hc; exact takeWhile_mem hc
        · intro c hc; exact takeWhile_mem hc
        · simp only [Placeholder.text, List.cons_append, List.append_assoc, List.nil_append, List.cons.injEq, true_and]
          rw [← hr, List.takeWhile_append_dropWhile, List.takeWhile_append_dropWhile, List.takeWhile_append_dropWhile]
      · simp at h
  · simp at h

theorem text_length {p : Placeholder} (hp : p.Ok) : 5 ≤ p.text.length := by
  have := List.length_pos_iff.2 hp.nonempty
  simp [Placeholder.text]; omega

/-- After the first two characters of a placeholder there is no `{`. -/
theorem text_brace {p : Placeholder} (hp : p.Ok) : '{' ∉ p.text.drop 2 := by
  simp only [Placeholder.text, List.drop_succ_cons, List.drop_zero, List.mem_append, not_or]
  refine ⟨fun h => ?_, fun h => ?_, fun h => ?_, by decide⟩
  · have := hp.left _ h; simp [brace_not] at this
  · have := hp.key _ h; simp [brace_not] at this
  · have := hp.right _ h; simp [brace_not] at this

/-- No match starts in plain text and reaches into a placeholder or beyond. -/
theorem matchAt_plain {t : Str} (ht : Plain t) (hne : t ≠ []) (p : Placeholder) (rest : Str) :
    matchAt (t ++ (p.text ++ rest)) = none := by
  cases h : matchAt (t ++ (p.text ++ rest)) with
  | none => rfl
  | some m =>
    obtain ⟨k, r⟩ := m
    obtain ⟨q, hq, -, e⟩ := matchAt_some h
    exfalso
    rcases List.append_eq_append_iff.1 e with ⟨x, hx, hx'⟩ | ⟨x, hx, hx'⟩
    · -- the match reaches the placeholder
      have hq5 := text_length hq
      cases x with
      | nil => simp at hx; exact ht q hq (hx ▸ List.infix_refl _)
      | cons a x =>
        simp only [Placeholder.text, List.cons_append, List.cons.injEq] at hx'
        obtain ⟨rfl, hx'⟩ := hx'
        have hb := text_brace hq
        rw [hx] at hb
        rcases t with _ | ⟨c, _ | ⟨d, t⟩⟩
        · exact hne rfl
        · cases x with
          | nil => rw [hx] at hq5; simp at hq5
          | cons b x =>
            simp only [List.cons_append, List.cons.injEq] at hx'
            obtain ⟨rfl, -⟩ := hx'
            simp at hb
        · simp at hb
    · exact ht q hq ⟨[], x, by simp [hx]⟩

theorem Plain.suffix {s t : Str} (h : Plain s) (ht : t <:+ s) : Plain t :=
  fun p hp hi => h p hp (hi.trans ht.isInfix)

theorem findMatch_plain {t : Str} (ht : Plain t) {p : Placeholder} (hp : p.Ok) (rest : Str) :
    findMatch (t ++ (p.text ++ rest)) = some (t, p.key, rest) := by
  induction t with
  | nil =>
    have hm := matchAt_text hp rest
    have : p.text ++ rest = '{' :: ('{' :: (p.left ++ (p.key ++ (p.right ++ ['}', '}']))) ++ rest) := rfl
    rw [List.nil_append, this, findMatch, ← this, hm]
  | cons c t ih =>
    have hm := matchAt_plain ht (by simp) p rest
    rw [List.cons_append] at hm ⊢
    rw [findMatch, hm]
    simp only
    rw [ih (ht.suffix (List.suffix_cons c t))]
    rfl

theorem findMatch_none_of_plain {t : Str} (ht : Plain t) : findMatch t = none := by
  induction t with
  | nil => rfl
  | cons c t ih =>
    rw [findMatch]
    cases h : matchAt (c :: t) with
    | none => simp [ih (ht.suffix (List.suffix_cons c t))]
    | some m =>
      obtain ⟨k, r⟩ := m
      obtain ⟨q, hq, -, e⟩ := matchAt_some h
      exact absurd ⟨[], r, by simp [e]⟩ (ht q hq)

theorem findMatch_some {s b k r : Str} (h : findMatch s = some (b, k, r)) :
    ∃ p : Placeholder, p.Ok ∧ p.key = k ∧ s = b ++ (p.text ++ r) ∧
      ∀ t u, b = t ++ u → u ≠ [] → matchAt (u ++ (p.text ++ r)) = none := by
  induction s generalizing b k r with
  | nil => simp [findMatch] at h
  | cons c s ih =>
    rw [findMatch] at h
    split at h
    · rename_i k' r' hm
      simp only [Option.some.injEq, Prod.mk.injEq] at h
      obtain ⟨rfl, rfl, rfl⟩ := h
      obtain ⟨p, hp, hk, e⟩ := matchAt_some hm
      refine ⟨p, hp, hk, e, ?_⟩
      intro t u hb hu
      simp at hb
      exact absurd hb.2 hu
    · rename_i hm
      simp only [Option.map_eq_some_iff] at h
      obtain ⟨⟨b', k', r'⟩, hf, h⟩ := h
      simp only [Prod.mk.injEq] at h
      obtain ⟨rfl, rfl, rfl⟩ := h
      obtain ⟨p, hp, hk, e, hn⟩ := ih hf
      refine ⟨p, hp, hk, by rw [e]; rfl, ?_⟩
      intro t u hb hu
      cases t with
      | nil =>
        simp at hb
        subst hb
        rw [List.cons_append, ← e]; exact hm
      | cons x t =>
        simp at hb
        exact hn t u hb.2 hu

theorem plain_of_no_match {b rest : Str} (h : ∀ t u, b = t ++ u → u ≠ [] → matchAt (u ++ rest) = none) : Plain b := by
  rintro p hp ⟨x, y, e⟩
  have := h x (p.text ++ y) (by rw [← e, List.append_assoc]) (by simp [Placeholder.text])
  rw [List.append_assoc, matchAt_text hp] at this
  simp at this

theorem plain_of_findMatch_none {s : Str} (h : findMatch s = none) : Plain s := by
  induction s with
  | nil =>
    rintro p hp hi
    have h1 := hi.length_le
    have h2 := text_length hp
    rw [List.length_nil] at h1; omega
  | cons c s ih =>
    rw [findMatch] at h
    split at h
    · simp at h
    · rename_i hm
      simp only [Option.map_eq_none_iff] at h
      rintro p hp ⟨x, y, e⟩
      cases x with
      | nil =>
        rw [List.nil_append] at e
        rw [← e, matchAt_text hp] at hm
        simp at hm
      | cons a x =>
        simp at e
        exact ih h p hp ⟨x, y, by simp [e.2]⟩

/-! ## Substitution -/

theorem splitDots_ne (s : Str) : splitDots s ≠ [] := by
  cases s with
  | nil => simp [splitDots]
  | cons c cs =>
    simp only [splitDots]
    split
    · simp
    · split <;> simp

theorem splitDots_single (s : Str) : (∃ w, splitDots s = [w]) ↔ '.' ∉ s := by
  induction s with
  | nil => simp [splitDots]
  | cons c cs ih =>
    simp only [splitDots]
    split
    · rename_i hc; simp [hc, splitDots_ne]
    · rename_i hc
      split
      · rename_i w ws h
        rw [h] at ih
        simp only [List.cons.injEq, List.mem_cons, not_or] at ih ⊢
        constructor
        · rintro ⟨_, _, rfl⟩; exact ⟨fun h => hc h.symm, ih.1 ⟨w, rfl, rfl⟩⟩
        · rintro ⟨_, h2⟩
          obtain ⟨_, _, rfl⟩ := ih.2 h2
          exact ⟨_, rfl, rfl⟩
      · rename_i h; exact absurd h (splitDots_ne cs)

theorem splitDots_single_eq {s w : Str} (h : splitDots s = [w]) : w = s := by
  induction s generalizing w with
  | nil => simp [splitDots] at h; simp [h]
  | cons c cs ih =>
    simp only [splitDots] at h
    split at h
    · simp [splitDots_ne] at h
    · split at h
      · rename_i w' ws h'
        simp at h
        obtain ⟨rfl, rfl⟩ := h
        rw [ih h']
      · rename_i h'; exact absurd h' (splitDots_ne cs)

theorem splitDots_pair {s a b : Str} : splitDots s = [a, b] ↔ s = a ++ '.' :: b ∧ '.' ∉ a ∧ '.' ∉ b := by
  induction s generalizing a with
  | nil => simp [splitDots]
  | cons c cs ih =>
    simp only [splitDots]
    split
    · rename_i hc
      subst hc
      simp only [List.cons.injEq]
      constructor
      · rintro ⟨rfl, h⟩
        have := splitDots_single_eq h
        subst this
        exact ⟨by simp, by simp, (splitDots_single b).1 ⟨b, h⟩⟩
      · rintro ⟨h, ha, hb⟩
        cases a with
        | nil =>
          simp at h
          subst h
          obtain ⟨w, hw⟩ := (splitDots_single cs).2 hb
          refine ⟨rfl, ?_⟩
          rw [hw, splitDots_single_eq hw]
        | cons x a => simp at h; exact absurd (by simp [← h.1]) ha
    · rename_i hc
      split
      · rename_i w ws h
        simp only [List.cons.injEq]
        constructor
        · rintro ⟨rfl, rfl⟩
          have := (ih (a := w)).1 h
          refine ⟨by simp [this.1], ?_, this.2.2⟩
          simp [this.2.1]; exact fun h => hc h.symm
        · rintro ⟨h1, ha, hb⟩
          cases a with
          | nil => simp at h1; exact absurd h1.1 hc
          | cons x a =>
            simp at h1 ha
            obtain ⟨rfl, h1⟩ := h1
            have := (ih (a := a)).2 ⟨h1, ha.2, hb⟩
            rw [h] at this
            simp at this
            simp [this]
      · rename_i h; exact absurd h (splitDots_ne cs)

theorem substitute_value (env : Str → Option Str) (before : Str) (p : Placeholder) :
    (∀ v, p.value env = some v → substitute env before p.key = (before ++ v, [])) ∧
    (p.value env = none → (substitute env before p.key).2 ≠ []) := by
  have hval : ∀ name, splitDots p.key = [['e', 'n', 'v'], name] → p.value env = env name := by
    intro name h
    obtain ⟨h, -, h3⟩ := splitDots_pair.1 h
    simp only [Placeholder.value, h, List.cons_append, List.nil_append, h3, if_false]
  have hother : (∀ name, splitDots p.key ≠ [['e', 'n', 'v'], name]) → p.value env = none := by
    intro h
    unfold Placeholder.value
    split
    · rename_i name hk
      split
      · rfl
      · rename_i hd
        exact absurd (splitDots_pair.2 ⟨hk, by decide, hd⟩) (h name)
    · rfl
  unfold substitute
  split
  · rename_i scope name h
    split
    · rename_i he
      subst he
      rw [hval name h]
      constructor
      · intro v hv; rw [hv]
      · intro hv; rw [hv]; simp
    · rename_i he
      have : p.value env = none := hother (by intro n; rw [h]; simp [he])
      rw [this]; simp
  · rename_i h
    have : p.value env = none := hother (by intro n hn; exact h _ _ hn)
    rw [this]; simp

theorem go_template (env : Str → Option Str) (tail : List (Placeholder × Str)) :
    ∀ (head : Str) (fuel : Nat), Plain head → (∀ x ∈ tail, x.1.Ok ∧ Plain x.2) → tail.length ≤ fuel →
      (∀ v, Template.value env ⟨head, tail⟩ = some v → go env fuel (Template.text ⟨head, tail⟩) = (v, [])) ∧
      (Template.value env ⟨head, tail⟩ = none → (go env fuel (Template.text ⟨head, tail⟩)).2 ≠ []) := by
  induction tail with
  | nil =>
    intro head fuel hh _ _
    simp only [Template.value, Template.text, List.mapM_nil, List.flatMap_nil, List.append_nil]
    have : go env fuel head = (head, []) := by
      cases fuel with
      | zero => rfl
      | succ f => simp [go, findMatch_none_of_plain hh]
    simp [this]
  | cons x tail ih =>
    intro head fuel hh ht hf
    obtain ⟨p, s⟩ := x
    obtain ⟨hp, hs⟩ := ht (p, s) (by simp)
    cases fuel with
    | zero => simp at hf
    | succ fuel =>
      have ih := ih s fuel hs (fun x hx => ht x (by simp [hx])) (by simpa using hf)
      have htext : Template.text ⟨head, (p, s) :: tail⟩ = head ++ (p.text ++ Template.text ⟨s, tail⟩) := by
        simp [Template.text]
      have hgo : go env (fuel + 1) (Template.text ⟨head, (p, s) :: tail⟩) =
          ((substitute env head p.key).1 ++ (go env fuel (Template.text ⟨s, tail⟩)).1,
           (substitute env head p.key).2 ++ (go env fuel (Template.text ⟨s, tail⟩)).2) := by
        rw [htext, go, findMatch_plain hh hp]
      have hvalue : Template.value env ⟨head, (p, s) :: tail⟩ =
          (p.value env).bind (fun v => (Template.value env ⟨s, tail⟩).map (fun w => head ++ (v ++ w))) := by
        simp only [Template.value, List.mapM_cons]
        cases p.value env <;> simp
        cases List.mapM (fun x => Option.map (fun x_1 => x_1 ++ x.2) (Placeholder.value env x.1)) tail <;> simp
      obtain ⟨s1, s2⟩ := substitute_value env head p
      rw [hgo, hvalue]
      cases hv : p.value env with
      | none =>
        simp
        intro h
        exact absurd h (s2 hv)
      | some v =>
        have e1 := s1 v hv
        cases hw : Template.value env ⟨s, tail⟩ with
        | none =>
          have := ih.2 hw
          simp [this]
        | some w =>
          have := ih.1 w hw
          simp [this, e1]

theorem text_length_tail (tail : List (Placeholder × Str)) (h : ∀ x ∈ tail, x.1.Ok) :
    tail.length ≤ (tail.flatMap (fun x => x.1.text ++ x.2)).length := by
  induction tail with
  | nil => simp
  | cons x tail ih =>
    have := text_length (h x (by simp))
    have := ih (fun y hy => h y (by simp [hy]))
    simp at *; omega

/-! ## C28 -/

/-- Every template (plain text and placeholders) expands to itself with each placeholder replaced by the value of
its variable, or to an error if a placeholder has no value: the variable is not set, or the key is not
`env.NAME`. Values are inserted verbatim, they are not searched for placeholders. -/
theorem C28_expand (env : Str → Option Str) (t : Template) (ht : t.Ok) :
    match t.value env with
    | some v => expand env t.text = .ok v
    | none => ∃ e, expand env t.text = .error e := by
  have hfuel : t.tail.length ≤ t.text.length := by
    have := text_length_tail t.tail (fun x hx => (ht.tail x hx).1)
    simp [Template.text] at *; omega
  obtain ⟨h1, h2⟩ := go_template env t.tail t.head t.text.length ht.head ht.tail hfuel
  unfold expand
  split
  · rename_i v hv
    have := h1 v hv
    have e : go env t.text.length t.text = (v, []) := this
    simp [e]
  · rename_i hv
    have := h2 hv
    have e : (go env t.text.length t.text).2 ≠ [] := this
    simp only
    cases hl : (go env t.text.length t.text).2.getLast? with
    | none => rw [List.getLast?_eq_none_iff] at hl; exact absurd hl e
    | some x => exact ⟨x, rfl⟩

/-- Every string is such a template. -/
theorem C28_every_string (s : Str) : ∃ t : Template, t.Ok ∧ t.text = s := by
  have key : ∀ n (s : Str), s.length ≤ n → ∃ t : Template, t.Ok ∧ t.text = s := by
    intro n
    induction n with
    | zero =>
      intro s hs
      have : s = [] := List.length_eq_zero_iff.1 (by omega)
      subst this
      exact ⟨⟨[], []⟩, ⟨plain_of_findMatch_none rfl, by simp⟩, rfl⟩
    | succ n ih =>
      intro s hs
      cases h : findMatch s with
      | none => exact ⟨⟨s, []⟩, ⟨plain_of_findMatch_none h, by simp⟩, by simp [Template.text]⟩
      | some m =>
        obtain ⟨b, k, r⟩ := m
        obtain ⟨p, hp, -, e, hn⟩ := findMatch_some h
        have hlen := text_length hp
        obtain ⟨t, ht, htx⟩ := ih r (by rw [e] at hs; simp at hs; omega)
        refine ⟨⟨b, (p, t.head) :: t.tail⟩, ⟨plain_of_no_match hn, ?_⟩, ?_⟩
        · intro x hx
          simp at hx
          rcases hx with rfl | hx
          · exact ⟨hp, ht.head⟩
          · exact ht.tail x hx
        · rw [e, ← htx]; simp [Template.text]
  exact key s.length s (Nat.le_refl _)

/-- Text without placeholders is kept. -/
theorem C28_plain (env : Str → Option Str) (s : Str) (hs : Plain s) : expand env s = .ok s := by
  have := C28_expand env ⟨s, []⟩ ⟨hs, by simp⟩
  simpa [Template.value, Template.text] using this

/-! ## Non-vacuity -/

def sampleEnv : Str → Option Str := fun n => if n = "A".toList then some "{{ env.B }}".toList else none

/-- The value of `A` looks like a placeholder and is not expanded; the first brace stays. -/
example : expand sampleEnv "x{{{env.A}}y".toList = .ok "x{{{ env.B }}y".toList := rfl
example : expand sampleEnv "{{ env.B }}".toList = .error (.unset "B".toList) := rfl
example : expand sampleEnv "{{ foo.B }}".toList = .error (.unknownScope "foo.B".toList) := rfl
example : expand sampleEnv "{{ env.A B }}".toList = .ok "{{ env.A B }}".toList := rfl

example : Template.Ok ⟨"x{".toList, [(⟨[], "env.A".toList, " ".toList⟩, "y".toList)]⟩ where
  head := plain_of_findMatch_none rfl
  tail := by
    intro x hx
    simp at hx
    subst hx
    exact ⟨⟨by simp, by decide, by decide, by decide⟩, plain_of_findMatch_none rfl⟩

end Verif.EnvString
