import Verif.Cors.Spec

namespace Verif.Cors

/-! ## Lists of values -/

theorem parts_plain : ∀ s : Str, ',' ∉ s → parts s = [s]
  | [], _ => rfl
  | c :: s, h => by
    rw [parts, if_neg (fun e => h (by rw [e]; exact List.mem_cons_self)), parts_plain s (fun hm => h (List.mem_cons_of_mem _ hm))]

theorem parts_append : ∀ (s t : Str), ',' ∉ s → parts (s ++ ',' :: t) = s :: parts t
  | [], t, _ => by rw [List.nil_append, parts, if_pos rfl]
  | c :: s, t, h => by
    rw [List.cons_append, parts, if_neg (fun e => h (by rw [e]; exact List.mem_cons_self)),
      parts_append s t (fun hm => h (List.mem_cons_of_mem _ hm))]

theorem parts_joined : ∀ (a : Str) (l : List Str), ',' ∉ a → (∀ s ∈ l, ',' ∉ s) → parts (a ++ l.flatMap (fun s => ',' :: s)) = a :: l
  | a, [], ha, _ => by rw [List.flatMap_nil, List.append_nil, parts_plain a ha]
  | a, b :: l, ha, h => by
    rw [List.flatMap_cons, List.cons_append, parts_append a _ ha,
      parts_joined b l (h b List.mem_cons_self) (fun s hs => h s (List.mem_cons_of_mem _ hs))]

theorem values_commas (l : List Str) (h : ∀ s ∈ l, ',' ∉ s) : values (commas l) = l := by
  cases l with
  | nil => rfl
  | cons a l => exact parts_joined a l (h a List.mem_cons_self) (fun s hs => h s (List.mem_cons_of_mem _ hs))

/-! ## Names -/

theorem ofNat_toNat (c : Char) : Char.ofNat c.toNat = c := Char.ofNat_toNat c

theorem small_lower : ∀ n < 128, (lowerChar (Char.ofNat n)).toLower = (Char.ofNat n).toLower ∧
    (lowerChar (Char.ofNat n) = '*' → Char.ofNat n = '*') ∧ (lowerChar (Char.ofNat n) = ',' → Char.ofNat n = ',') := by
  decide +kernel

theorem lower_big {c : Char} (h : ¬ c.toNat < 128) : lowerChar c = c := by
  unfold lowerChar
  rw [if_neg (by omega)]

theorem lowerChar_toLower (c : Char) : (lowerChar c).toLower = c.toLower := by
  by_cases h : c.toNat < 128
  · have := (small_lower c.toNat h).1
    rwa [ofNat_toNat] at this
  · rw [lower_big h]

theorem lowerChar_star {c : Char} (e : lowerChar c = '*') : c = '*' := by
  by_cases h : c.toNat < 128
  · have := (small_lower c.toNat h).2.1
    rw [ofNat_toNat] at this
    exact this e
  · rwa [lower_big h] at e

theorem lowerChar_comma {c : Char} (e : lowerChar c = ',') : c = ',' := by
  by_cases h : c.toNat < 128
  · have := (small_lower c.toNat h).2.2
    rw [ofNat_toNat] at this
    exact this e
  · rwa [lower_big h] at e

theorem sameName_lower (s t : Str) : sameName (s.map lowerChar) t ↔ sameName s t := by
  unfold sameName
  rw [List.map_map]
  have : (Char.toLower ∘ lowerChar) = Char.toLower := funext lowerChar_toLower
  rw [this]

theorem map_lower_star {s : Str} : s.map lowerChar = ['*'] ↔ s = ['*'] := by
  constructor
  · intro h
    match s, h with
    | [c], h =>
      simp only [List.map_cons, List.map_nil, List.cons.injEq, and_true] at h
      rw [lowerChar_star h]
    | _ :: _ :: _, h => simp at h
  · rintro rfl
    rfl

theorem small_token : ∀ n < 128, tokenChar (Char.ofNat n) = true ↔
    (('a' ≤ Char.ofNat n ∧ Char.ofNat n ≤ 'z') ∨ ('A' ≤ Char.ofNat n ∧ Char.ofNat n ≤ 'Z') ∨ ('0' ≤ Char.ofNat n ∧ Char.ofNat n ≤ '9') ∨
    Char.ofNat n ∈ ['!', '#', '$', '%', '&', '\'', '*', '+', '-', '.', '^', '_', '`', '|', '~']) := by
  decide +kernel

theorem char_le {c d : Char} : c ≤ d ↔ c.toNat ≤ d.toNat := Iff.rfl

theorem tokenChar_iff (c : Char) : tokenChar c = true ↔
    (('a' ≤ c ∧ c ≤ 'z') ∨ ('A' ≤ c ∧ c ≤ 'Z') ∨ ('0' ≤ c ∧ c ≤ '9') ∨
    c ∈ ['!', '#', '$', '%', '&', '\'', '*', '+', '-', '.', '^', '_', '`', '|', '~']) := by
  by_cases h : c.toNat < 128
  · have := small_token c.toNat h
    rwa [ofNat_toNat] at this
  · have hz : 'z'.toNat = 122 := rfl
    have hZ : 'Z'.toNat = 90 := rfl
    have h9 : '9'.toNat = 57 := rfl
    have lists : ∀ d ∈ ['!', '#', '$', '%', '&', '\'', '*', '+', '-', '.', '^', '_', '`', '|', '~'], d.toNat < 128 := by decide
    have lists' : ∀ d ∈ "!#$%&'*+-.^_`|~".toList, d.toNat < 128 := by decide
    constructor
    · intro ht
      simp only [tokenChar, Bool.or_eq_true_iff, Bool.and_eq_true, decide_eq_true_eq, List.contains_iff_mem] at ht
      rcases ht with ((ht | ht) | ht) | ht
      · exact absurd (lists' c ht) h
      all_goals omega
    · intro ht
      simp only [char_le, hz, hZ, h9] at ht
      rcases ht with ht | ht | ht | ht
      · omega
      · omega
      · omega
      · exact absurd (lists c ht) h

theorem headerName_iff (s n : Str) : headerName s = some n ↔ Token s ∧ n = s.map lowerChar := by
  unfold headerName Token
  by_cases h : s ≠ [] ∧ s.all tokenChar
  · rw [if_pos h]
    have : s ≠ [] ∧ ∀ c ∈ s, _ := ⟨h.1, fun c hc => (tokenChar_iff c).mp (List.all_eq_true.mp h.2 c hc)⟩
    constructor
    · intro e; exact ⟨this, (Option.some.inj e).symm⟩
    · rintro ⟨_, rfl⟩; rfl
  · rw [if_neg h]
    constructor
    · intro e; cases e
    · rintro ⟨⟨h1, h2⟩, _⟩
      exact absurd ⟨h1, List.all_eq_true.mpr (fun c hc => (tokenChar_iff c).mpr (h2 c hc))⟩ h

theorem headerNames_ok : ∀ (l : List Str), (∀ s ∈ l, Token s) → headerNames l = .ok (l.map (fun s => s.map lowerChar))
  | [], _ => rfl
  | s :: l, h => by
    rw [headerNames, (headerName_iff s _).mpr ⟨h s List.mem_cons_self, rfl⟩]
    simp only
    rw [headerNames_ok l (fun t ht => h t (List.mem_cons_of_mem _ ht))]
    rfl

theorem headerNames_panic : ∀ (l : List Str), ¬ (∀ s ∈ l, Token s) → headerNames l = .panic
  | [], h => absurd (by intro s hs; cases hs) h
  | s :: l, h => by
    rw [headerNames]
    cases hn : headerName s with
    | none => rfl
    | some n =>
      simp only
      rw [headerNames_panic l]
      intro hl
      apply h
      intro t ht
      rcases List.mem_cons.mp ht with rfl | ht
      · exact ((headerName_iff _ _).mp hn).1
      · exact hl t ht

/-- The settings of names are fine. -/
def Fine (s : Option (AnyOr Str)) : Prop := ∀ l, s = some (.explicit l) → ∀ t ∈ l, Token t

/-- The value of the header for names. -/
def valueOf : Option (AnyOr Str) → Option Str
  | none => none
  | some .any => some ['*']
  | some (.explicit l) => commas (l.map (fun s => s.map lowerChar))

theorem headerList_ok {s : Option (AnyOr Str)} (h : Fine s) : headerList s = .ok (valueOf s) := by
  match s, h with
  | none, _ => rfl
  | some .any, _ => rfl
  | some (.explicit l), h =>
    rw [headerList, headerNames_ok l (h l rfl)]
    rfl

theorem headerList_panic {s : Option (AnyOr Str)} (h : ¬ Fine s) : headerList s = .panic := by
  match s, h with
  | none, h => exact absurd (by intro l e; cases e) h
  | some .any, h => exact absurd (by intro l e; cases e) h
  | some (.explicit l), h =>
    rw [headerList, headerNames_panic l]
    intro hl
    apply h
    intro l' e
    cases e
    exact hl

theorem token_comma {s : Str} (h : Token s) : ',' ∉ s.map lowerChar := by
  intro hm
  obtain ⟨c, hc, e⟩ := List.mem_map.mp hm
  rw [lowerChar_comma e] at hc
  have := (tokenChar_iff ',').mpr (h.2 _ hc)
  exact absurd this (by decide)

theorem values_valueOf {l : List Str} (h : ∀ s ∈ l, Token s) : values (valueOf (some (.explicit l))) = l.map (fun s => s.map lowerChar) := by
  apply values_commas
  intro s hs
  obtain ⟨t, ht, rfl⟩ := List.mem_map.mp hs
  exact token_comma (h t ht)

theorem valueOf_wild {s : Option (AnyOr Str)} (h : Fine s) : valueOf s = some ['*'] ↔ s = some .any ∨ s = some (.explicit [['*']]) := by
  match s, h with
  | none, _ => simp [valueOf]
  | some .any, _ => simp [valueOf]
  | some (.explicit l), h =>
    constructor
    · intro e
      have h1 := values_valueOf (h l rfl)
      rw [e] at h1
      have h2 : ([['*']] : List Str) = l.map (fun s => s.map lowerChar) := h1
      right
      match l, h2 with
      | [s], h2 =>
        simp only [List.map_cons, List.map_nil, List.cons.injEq, and_true] at h2
        rw [map_lower_star.mp h2.symm]
      | _ :: _ :: _, h2 => simp at h2
    · rintro (e | e)
      · cases e
      · cases e
        rfl

/-! ## Methods -/

theorem method_comma (m : Method) : ',' ∉ m.name := by cases m <;> decide

theorem values_methods (l : List Method) : values (commas (l.map Method.name)) = l.map Method.name := by
  apply values_commas
  intro s hs
  obtain ⟨m, _, rfl⟩ := List.mem_map.mp hs
  exact method_comma m

theorem method_star (m : Method) : m.name ≠ ['*'] := by cases m <;> decide

theorem methodList_wild {s : Option (AnyOr Method)} : methodList s = some ['*'] ↔ s = some .any := by
  match s with
  | none => simp [methodList]
  | some .any => simp [methodList, wildcard]
  | some (.explicit l) =>
    constructor
    · intro e
      have h1 := values_methods l
      have h0 : commas (l.map Method.name) = some ['*'] := e
      rw [h0] at h1
      have h2 : ([['*']] : List Str) = l.map Method.name := h1
      match l, h2 with
      | [m], h2 =>
        simp only [List.map_cons, List.map_nil, List.cons.injEq, and_true] at h2
        exact absurd h2.symm (method_star m)
      | _ :: _ :: _, h2 => simp at h2
    · intro e; cases e

/-! ## Origins -/

theorem special_iff (c : Char) : special c = true ↔
    (c = '?' ∨ c = '*' ∨ c = '[' ∨ c = ']' ∨ c = '{' ∨ c = '}' ∨ c = '!' ∨ c = '\\') := by
  have : "?*[]{}!\\".toList = ['?', '*', '[', ']', '{', '}', '!', '\\'] := by decide
  unfold special
  rw [this, List.contains_iff_mem]
  simp

theorem pattern_iff (o : Str) : o.any special = true ↔ Pattern o := by
  rw [List.any_eq_true]
  constructor
  · rintro ⟨c, hc, h⟩; exact ⟨c, hc, (special_iff c).mp h⟩
  · rintro ⟨c, hc, h⟩; exact ⟨c, hc, (special_iff c).mpr h⟩

theorem splitOrigins_mem : ∀ (l : List Str) (o : Str), (o ∈ (splitOrigins l).1 ↔ o ∈ l ∧ ¬ Pattern o) ∧ (o ∈ (splitOrigins l).2 ↔ o ∈ l ∧ Pattern o)
  | [], o => by simp [splitOrigins]
  | x :: l, o => by
    obtain ⟨h1, h2⟩ := splitOrigins_mem l o
    rw [splitOrigins]
    by_cases hx : x.any special
    · have hp := (pattern_iff x).mp hx
      simp only [hx, if_true, h1, h2, List.mem_cons]
      constructor
      · constructor
        · rintro ⟨a, b⟩; exact ⟨Or.inr a, b⟩
        · rintro ⟨a | a, b⟩
          · rw [a] at b; exact absurd hp b
          · exact ⟨a, b⟩
      · constructor
        · rintro (a | a)
          · rw [a]; exact ⟨Or.inl rfl, hp⟩
          · exact ⟨Or.inr a.1, a.2⟩
        · rintro ⟨a | a, b⟩
          · exact Or.inl a
          · exact Or.inr ⟨a, b⟩
    · have hp : ¬ Pattern x := fun h => hx ((pattern_iff x).mpr h)
      simp only [hx, if_false, h1, h2, List.mem_cons, Bool.false_eq_true]
      constructor
      · constructor
        · rintro (a | a)
          · rw [a]; exact ⟨Or.inl rfl, hp⟩
          · exact ⟨Or.inr a.1, a.2⟩
        · rintro ⟨a | a, b⟩
          · exact Or.inl a
          · exact Or.inr ⟨a, b⟩
      · constructor
        · rintro ⟨a, b⟩; exact ⟨Or.inr a, b⟩
        · rintro ⟨a | a, b⟩
          · rw [a] at b; exact absurd b hp
          · exact ⟨a, b⟩

/-- What is accepted of a list of origins. -/
theorem allowOrigin_explicit (glob : Str → Str → Bool) (l : List Str) (o v : Str) :
    (allowOrigin glob (.explicit l)).header (some o) = some v ↔
      v = o ∧ ((o ∈ l ∧ ¬ Pattern o) ∨ (∃ p ∈ l, Pattern p ∧ glob p o = true)) := by
  have key : ∀ (b : Bool) (P : Prop), (b = true ↔ P) → ((if b = true then some o else none) = some v ↔ v = o ∧ P) := by
    intro b P h
    by_cases hb : b = true
    · rw [if_pos hb]
      exact ⟨fun e => ⟨(Option.some.inj e).symm, h.mp hb⟩, fun e => by rw [e.1]⟩
    · rw [if_neg hb]
      exact ⟨fun e => (nomatch e), fun e => absurd (h.mpr e.2) hb⟩
  unfold allowOrigin
  have hm := splitOrigins_mem l
  cases hs : splitOrigins l with
  | mk constants globs =>
    simp only [hs] at hm ⊢
    have hc : (∃ p ∈ l, Pattern p ∧ glob p o = true) ↔ globs.any (fun g => glob g o) = true := by
      rw [List.any_eq_true]
      constructor
      · rintro ⟨p, h1, h2, h3⟩; exact ⟨p, (hm p).2.mpr ⟨h1, h2⟩, h3⟩
      · rintro ⟨p, h1, h3⟩; exact ⟨p, ((hm p).2.mp h1).1, ((hm p).2.mp h1).2, h3⟩
    split
    · rename_i hg
      rw [List.isEmpty_iff] at hg
      rw [hg] at hc
      simp only [AllowOrigin.header, Option.filter]
      apply key
      rw [List.contains_iff_mem, (hm o).1, hc]
      simp
    · split
      · rename_i hg
        rw [List.isEmpty_iff] at hg
        simp only [AllowOrigin.header, Option.filter]
        apply key
        rw [hc, ← (hm o).1, hg]
        simp
      · simp only [AllowOrigin.header, Option.filter]
        apply key
        rw [hc, ← (hm o).1, Bool.or_eq_true_iff, List.any_eq_true]
        constructor
        · rintro (⟨c, h1, h2⟩ | h)
          · rw [beq_iff_eq] at h2
            exact Or.inl (by rw [h2]; exact h1)
          · exact Or.inr h
        · rintro (h | h)
          · exact Or.inl ⟨o, h, by simp⟩
          · exact Or.inr h

end Verif.Cors
