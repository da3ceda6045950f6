import Verif.LinkNames.Lemmas

namespace Verif.LinkNames

/-! ## Two underscores -/

theorem splitOnce_some : ∀ {n p m : Text}, splitOnce n = some (p, m) → Parts n p m
  | [], p, m, h => by simp [splitOnce] at h
  | [_], p, m, h => by simp [splitOnce] at h
  | a :: b :: rest, p, m, h => by
    rw [splitOnce] at h
    split at h
    · rename_i e
      obtain ⟨rfl, rfl⟩ := e
      simp only [Option.some.injEq, Prod.mk.injEq] at h
      obtain ⟨rfl, rfl⟩ := h
      refine ⟨rfl, ?_⟩
      intro x y e
      have := congrArg List.length e
      simp at this
      omega
    · rename_i hne
      cases hs : splitOnce (b :: rest) with
      | none => rw [hs] at h; simp at h
      | some q =>
        rw [hs] at h
        simp only [Option.map_some, Option.some.injEq, Prod.mk.injEq] at h
        obtain ⟨rfl, rfl⟩ := h
        obtain ⟨q1, q2⟩ := q
        obtain ⟨e, hq⟩ := splitOnce_some hs
        refine ⟨by rw [e]; rfl, ?_⟩
        intro x y e2
        cases x with
        | nil =>
          simp only [List.cons_append, List.nil_append, List.cons.injEq] at e2
          obtain ⟨rfl, e2⟩ := e2
          cases q1 with
          | nil =>
            simp only [List.nil_append, List.cons.injEq] at e
            exact hne ⟨rfl, e.1⟩
          | cons c q1 =>
            simp only [List.cons_append, List.cons.injEq] at e2 e
            exact hne ⟨rfl, e.1.trans e2.1⟩
        | cons x0 x =>
          simp only [List.cons_append, List.cons.injEq] at e2
          exact hq x y e2.2

theorem splitOnce_none : ∀ {n : Text}, splitOnce n = none → Single n
  | [], _ => by
    intro a b e
    simp at e
  | [_], _ => by
    intro a b e
    have := congrArg List.length e
    simp at this
    omega
  | a :: b :: rest, h => by
    rw [splitOnce] at h
    split at h
    · cases h
    · rename_i hne
      have hs : splitOnce (b :: rest) = none := by simpa using h
      intro x y e
      cases x with
      | nil =>
        simp only [List.nil_append, List.cons.injEq] at e
        exact hne ⟨e.1, e.2.1⟩
      | cons x0 x =>
        simp only [List.cons_append, List.cons.injEq] at e
        exact splitOnce_none hs x y e.2

theorem parts_unique {n p m p' m' : Text} (h : Parts n p m) (h' : Parts n p' m') : p = p' ∧ m = m' := by
  obtain ⟨e, hs⟩ := h
  obtain ⟨e', hs'⟩ := h'
  rw [e] at e'
  have key : ∀ (p p' : Text), Single (p ++ ['_']) → p ++ '_' :: '_' :: m = p' ++ '_' :: '_' :: m' → Single (p' ++ ['_']) →
      p = p' ∧ m = m' := by
    intro p
    induction p with
    | nil =>
      intro p' hs e hs'
      cases p' with
      | nil => simpa using e
      | cons c q =>
        simp only [List.nil_append, List.cons_append, List.cons.injEq] at e
        obtain ⟨rfl, e⟩ := e
        cases q with
        | nil => exact absurd rfl (hs' [] [])
        | cons c2 q =>
          simp only [List.cons_append, List.cons.injEq] at e
          obtain ⟨rfl, _⟩ := e
          exact absurd rfl (hs' [] (q ++ ['_']))
    | cons c p ih =>
      intro p' hs e hs'
      cases p' with
      | nil =>
        simp only [List.nil_append, List.cons_append, List.cons.injEq] at e
        obtain ⟨rfl, e⟩ := e
        cases p with
        | nil => exact absurd rfl (hs [] [])
        | cons c2 q =>
          simp only [List.cons_append, List.cons.injEq] at e
          obtain ⟨rfl, _⟩ := e
          exact absurd rfl (hs [] (q ++ ['_']))
      | cons c' p' =>
        simp only [List.cons_append, List.cons.injEq] at e
        obtain ⟨rfl, e⟩ := e
        have tl : ∀ {q : Text}, Single (c :: q ++ ['_']) → Single (q ++ ['_']) := by
          intro q h a b e
          exact h (c :: a) b (by rw [List.cons_append, e]; rfl)
        obtain ⟨e1, e2⟩ := ih p' (tl hs) e (tl hs')
        exact ⟨by rw [e1], e2⟩
  exact key p p' hs e' hs'

theorem splitOnce_iff {n p m : Text} : splitOnce n = some (p, m) ↔ Parts n p m := by
  constructor
  · exact splitOnce_some
  · intro h
    cases hs : splitOnce n with
    | none => exact absurd h.1 (splitOnce_none hs _ _)
    | some q =>
      obtain ⟨q1, q2⟩ := q
      obtain ⟨rfl, rfl⟩ := parts_unique h (splitOnce_some hs)
      rfl

theorem splitOnce_single {n : Text} (h : Single n) : splitOnce n = none := by
  cases hs : splitOnce n with
  | none => rfl
  | some q =>
    obtain ⟨q1, q2⟩ := q
    exact absurd (splitOnce_some hs).1 (h _ _)

theorem rest_iff {n m : Text} : Rest n m ↔ (splitName n).2 = m := by
  unfold splitName
  constructor
  · rintro (⟨p, h⟩ | ⟨h, rfl⟩)
    · rw [splitOnce_iff.mpr h]
    · rw [splitOnce_single h]
  · intro h
    cases hs : splitOnce n with
    | none =>
      rw [hs] at h
      exact Or.inr ⟨splitOnce_none hs, h.symm⟩
    | some q =>
      rw [hs] at h
      obtain ⟨q1, q2⟩ := q
      have : q2 = m := h
      subst this
      exact Or.inl ⟨q1, splitOnce_some hs⟩

/-! ## Texts in texts -/

theorem contains_iff (x : Text) : ∀ (l : Text), contains x l = true ↔ ∃ a b, l = a ++ x ++ b
  | [] => by
    rw [contains, List.isPrefixOf_iff_prefix]
    constructor
    · rintro ⟨b, h⟩
      exact ⟨[], b, by simpa using h.symm⟩
    · rintro ⟨a, b, h⟩
      have : x = [] := by
        cases a <;> cases x <;> simp at h ⊢
      subst this
      exact ⟨[], rfl⟩
  | c :: l => by
    rw [contains, Bool.or_eq_true_iff, List.isPrefixOf_iff_prefix, contains_iff x l]
    constructor
    · rintro (⟨b, h⟩ | ⟨a, b, h⟩)
      · exact ⟨[], b, by simpa using h.symm⟩
      · exact ⟨c :: a, b, by rw [h]; rfl⟩
    · rintro ⟨a, b, h⟩
      cases a with
      | nil => exact Or.inl ⟨b, by simpa using h.symm⟩
      | cons a0 a =>
        simp only [List.cons_append, List.cons.injEq] at h
        exact Or.inr ⟨a, b, h.2⟩

theorem contains_of_federationUrl {u : Text} (h : federationUrl u = true) : contains "dev/federation/v2".toList u = true := by
  unfold federationUrl at h
  rw [List.isPrefixOf_iff_prefix] at h
  obtain ⟨b, rfl⟩ := h
  rw [contains_iff]
  exact ⟨"https://specs.apollo.".toList, b, rfl⟩

theorem trimAt_cons (s : Text) : trimAt ('@' :: s) = trimAt s := by
  simp [trimAt, List.dropWhile]

theorem trimAt_self {s : Text} (h : s.head? ≠ some '@') : trimAt s = s := by
  cases s with
  | nil => rfl
  | cons c s =>
    have : c ≠ '@' := by simpa using h
    rw [trimAt, List.dropWhile, show (c == '@') = false from by simpa using this]

theorem trimAt_head (s : Text) : (trimAt s).head? ≠ some '@' := by
  induction s with
  | nil => simp [trimAt]
  | cons c s ih =>
    by_cases hc : c = '@'
    · subst hc; rwa [trimAt_cons]
    · have : (c :: s).head? ≠ some '@' := by simpa using hc
      rwa [trimAt_self this]

theorem trimAt_shape (s : Text) : ∃ k, s = List.replicate k '@' ++ trimAt s := by
  induction s with
  | nil => exact ⟨0, rfl⟩
  | cons c s ih =>
    by_cases hc : c = '@'
    · subst hc
      obtain ⟨k, h⟩ := ih
      refine ⟨k + 1, ?_⟩
      rw [trimAt_cons, List.replicate_succ, List.cons_append, ← h]
    · have : (c :: s).head? ≠ some '@' := by simpa using hc
      exact ⟨0, by rw [trimAt_self this]; rfl⟩

theorem trimAt_replicate (k : Nat) {y : Text} (h : y.head? ≠ some '@') : trimAt (List.replicate k '@' ++ y) = y := by
  induction k with
  | zero => simpa using trimAt_self h
  | succ k ih => rw [List.replicate_succ, List.cons_append, trimAt_cons, ih]

/-! ## Names at the end of URLs -/

theorem mem_chars (c : Char) (l : Text) : c ∈ l ↔ c.toNat ∈ l.map Char.toNat := by
  rw [List.mem_map]
  constructor
  · intro h
    exact ⟨c, h, rfl⟩
  · rintro ⟨d, hd, e⟩
    have : c = d := by rw [← Char.ofNat_toNat c, ← e, Char.ofNat_toNat]
    rwa [this]

theorem digit_iff (c : Char) : digit c = true ↔ Digit c := by
  unfold digit Digit
  rw [Bool.and_eq_true, decide_eq_true_iff, decide_eq_true_iff, mem_chars,
    show ("0123456789".toList).map Char.toNat = List.range' 48 10 from by decide, List.mem_range'_1]
  show 48 ≤ c.toNat ∧ c.toNat ≤ 57 ↔ _
  omega

theorem letter_iff (c : Char) : letter c = true ↔ Letter c := by
  unfold letter Letter
  rw [Bool.or_eq_true_iff, Bool.and_eq_true, Bool.and_eq_true, decide_eq_true_iff, decide_eq_true_iff, decide_eq_true_iff,
    decide_eq_true_iff, mem_chars,
    show ("abcdefghijklmnopqrstuvwxyzABCDEFGHIJKLMNOPQRSTUVWXYZ".toList).map Char.toNat = List.range' 97 26 ++ List.range' 65 26
      from by decide, List.mem_append, List.mem_range'_1, List.mem_range'_1]
  show (97 ≤ c.toNat ∧ c.toNat ≤ 122) ∨ (65 ≤ c.toNat ∧ c.toNat ≤ 90) ↔ _
  omega

theorem validVersion_iff (s : Text) : validVersion s = true ↔ IsVersion s := by
  unfold IsVersion
  constructor
  · intro h
    unfold validVersion at h
    split at h
    · rename_i d rest
      rw [Bool.and_eq_true, List.all_eq_true] at h
      refine ⟨d, rest, rfl, (digit_iff d).mp h.1, fun c hc => ?_⟩
      have := h.2 c hc
      rw [Bool.or_eq_true_iff, digit_iff, beq_iff_eq] at this
      exact this
    · cases h
  · rintro ⟨d, rest, rfl, hd, hr⟩
    show (digit d && rest.all (fun c => digit c || c == '.')) = true
    rw [Bool.and_eq_true, List.all_eq_true]
    refine ⟨(digit_iff d).mpr hd, fun c hc => ?_⟩
    rw [Bool.or_eq_true_iff, digit_iff, beq_iff_eq]
    exact hr c hc

theorem validName_iff (s : Text) : validName s = true ↔ IsName s := by
  unfold IsName
  cases s with
  | nil => simp [validName]
  | cons c rest =>
    rw [validName, Bool.and_eq_true, List.all_eq_true, Bool.or_eq_true_iff, letter_iff, beq_iff_eq]
    constructor
    · rintro ⟨h, hr⟩
      refine ⟨c, rest, rfl, h, fun x hx => ?_⟩
      have := hr x hx
      rw [Bool.or_eq_true_iff, Bool.or_eq_true_iff, letter_iff, digit_iff, beq_iff_eq, or_assoc] at this
      exact this
    · rintro ⟨c', rest', e, h, hr⟩
      simp only [List.cons.injEq] at e
      obtain ⟨rfl, rfl⟩ := e
      refine ⟨h, fun x hx => ?_⟩
      rw [Bool.or_eq_true_iff, Bool.or_eq_true_iff, letter_iff, digit_iff, beq_iff_eq, or_assoc]
      exact hr x hx

theorem version_not_last {n v : Text} {a b : List Text} (h : a ++ [n, v] = b ++ [n]) (hv : IsVersion v) : IsVersion n := by
  have := congrArg List.getLast? h
  simp at this
  rwa [← this]

theorem nameAndVersion_iff (last : Text) (rest : List Text) (n : Text) :
    nameAndVersion last rest = some n ↔ EndName (rest.reverse ++ [last]) n := by
  unfold EndName
  have two : ∀ {front : List Text} {v : Text}, rest.reverse ++ [last] = front ++ [n, v] ↔ last = v ∧ rest = n :: front.reverse := by
    intro front v
    constructor
    · intro h
      have h' := congrArg List.reverse h
      simp at h'
      exact h'
    · rintro ⟨rfl, e⟩
      rw [e]
      simp
  have one : ∀ {front : List Text}, rest.reverse ++ [last] = front ++ [n] ↔ last = n ∧ rest = front.reverse := by
    intro front
    constructor
    · intro h
      have h' := congrArg List.reverse h
      simp at h'
      exact h'
    · rintro ⟨rfl, e⟩
      rw [e]
      simp
  unfold nameAndVersion
  split
  · rename_i hv
    rw [validVersion_iff] at hv
    cases rest with
    | nil =>
      simp only [reduceCtorEq, false_iff, two, one]
      rintro ⟨_, ⟨front, v, ⟨_, e⟩, _⟩ | ⟨⟨front, e, _⟩, hn⟩⟩
      · cases e
      · exact hn (e ▸ hv)
    | cons m rest =>
      simp only [two, one]
      constructor
      · intro h
        split at h
        · rename_i hm
          simp only [Option.some.injEq] at h
          subst h
          exact ⟨(validName_iff _).mp hm, Or.inl ⟨rest.reverse, last, ⟨rfl, by simp⟩, hv⟩⟩
        · cases h
      · rintro ⟨hn, ⟨front, v, ⟨rfl, e⟩, _⟩ | ⟨⟨front, rfl, _⟩, hnv⟩⟩
        · simp only [List.cons.injEq] at e
          obtain ⟨rfl, _⟩ := e
          rw [if_pos ((validName_iff _).mpr hn)]
        · exact absurd hv hnv
  · rename_i hv
    rw [validVersion_iff] at hv
    simp only [two, one]
    constructor
    · intro h
      split at h
      · rename_i hm
        simp only [Option.some.injEq] at h
        subst h
        exact ⟨(validName_iff _).mp hm, Or.inr ⟨⟨rest.reverse, rfl, by simp⟩, hv⟩⟩
      · cases h
    · rintro ⟨hn, ⟨front, v, ⟨rfl, e⟩, h⟩ | ⟨⟨front, rfl, _⟩, hnv⟩⟩
      · exact absurd h hv
      · rw [if_pos ((validName_iff _).mpr hn)]

theorem linkName_iff (u : Url) (n : Text) : linkName u = some n ↔ UrlName u n := by
  unfold linkName UrlName
  cases hs : u.segments with
  | none => simp
  | some segments =>
    simp only [Option.some.injEq, exists_eq_left']
    cases hr : segments.reverse with
    | nil =>
      have : segments = [] := by simpa using hr
      subst this
      simp only [reduceCtorEq, false_iff]
      rintro (⟨_, front, e, _⟩ | ⟨_, hn⟩)
      · simp at e
      · obtain ⟨_, ⟨front, v, e, _⟩ | ⟨⟨front, e⟩, _⟩⟩ := hn <;> simp at e
    | cons last rest =>
      have hseg : segments = rest.reverse ++ [last] := by
        have := congrArg List.reverse hr
        simpa using this
      subst hseg
      have hb : (∃ front, rest.reverse ++ [last] = front ++ ["build".toList]) ↔ last = "build".toList := by
        constructor
        · rintro ⟨front, e⟩
          have := congrArg List.getLast? e
          simpa using this
        · rintro rfl
          exact ⟨_, rfl⟩
      rw [hb]
      simp only
      split
      · rename_i hc
        have hnot : ¬ ¬ (u.scheme = "file".toList ∧ last = "build".toList) := fun h => h hc
        constructor
        · intro h
          refine Or.inl ⟨hc.1, ?_⟩
          cases rest with
          | nil => cases h
          | cons next rest =>
            refine ⟨(next :: rest).reverse, by rw [hc.2], ?_⟩
            rw [List.reverse_cons]
            exact (nameAndVersion_iff next rest n).mp h
        · rintro (⟨_, front, e, he⟩ | ⟨h, _⟩)
          · have : front = rest.reverse := by
              have h' := congrArg List.reverse e
              simp only [List.reverse_append, List.reverse_cons, List.reverse_nil, List.nil_append, List.singleton_append,
                List.reverse_reverse, List.cons.injEq] at h'
              rw [h'.2, List.reverse_reverse]
            subst this
            cases rest with
            | nil => obtain ⟨_, ⟨front, v, e, _⟩ | ⟨⟨front, e⟩, _⟩⟩ := he <;> simp at e
            | cons next rest =>
              rw [List.reverse_cons] at he
              exact (nameAndVersion_iff next rest n).mpr he
          · exact absurd hc h
      · rename_i hc
        rw [nameAndVersion_iff]
        constructor
        · intro h
          exact Or.inr ⟨hc, h⟩
        · rintro (⟨h1, front, e, _⟩ | ⟨_, h⟩)
          · exact absurd ⟨h1, hb.mp ⟨front, e⟩⟩ hc
          · exact h

end Verif.LinkNames
