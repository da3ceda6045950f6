import Verif.StoreUrls.Lemmas

/-! What a server reads of encoded names. -/
namespace Verif.StoreUrls

theorem percent_digits : ∀ b < 256, digitOf (hexDigits.getD (b / 16 % 16) '0') * 16 + digitOf (hexDigits.getD (b % 16) '0') = b := by
  decide +kernel

theorem unescape_percent {b : Nat} (h : b < 256) (r : List Char) : unescape (percent b ++ r) = b :: unescape r := by
  show unescape ('%' :: _ :: _ :: r) = _
  rw [unescape, percent_digits b h]

theorem unescape_bytes : ∀ (bs : List Nat) (r : List Char), (∀ b ∈ bs, b < 256) → unescape (bs.flatMap percent ++ r) = bs ++ unescape r
  | [], _, _ => rfl
  | b :: bs, r, h => by
    rw [List.flatMap_cons, List.append_assoc, unescape_percent (h b List.mem_cons_self),
      unescape_bytes bs r (fun x hx => h x (List.mem_cons_of_mem _ hx)), List.cons_append]

theorem unescape_char {c : Char} (h : c ≠ '%') (r : List Char) : unescape (c :: r) = c.toNat :: unescape r := by
  rw [unescape]
  intro a b r' e _
  exact h e

theorem char_bound (c : Char) : c.toNat < 0x110000 := by
  have := c.valid
  rcases this with h | h
  · have : c.toNat < 0xD800 := h
    omega
  · exact h.2

theorem utf8_bytes {n : Nat} (h : n < 0x110000) : ∀ b ∈ utf8 n, b < 256 := by
  intro b hb
  unfold utf8 at hb
  split at hb
  · simp at hb; omega
  split at hb
  · simp at hb; omega
  split at hb
  · simp at hb; omega
  · simp at hb; omega

theorem points_utf8 {n : Nat} (h : n < 0x110000) (r : List Nat) : points (utf8 n ++ r) = n :: points r := by
  unfold utf8
  split
  · simp only [List.cons_append, List.nil_append]
    rw [points.eq_def]
    simp only
    rw [if_pos (by assumption)]
  split
  · simp only [List.cons_append, List.nil_append]
    rw [points.eq_def]
    simp only
    rw [if_neg (by omega), if_pos (by omega)]
    exact List.cons_eq_cons.mpr ⟨by omega, rfl⟩
  split
  · simp only [List.cons_append, List.nil_append]
    rw [points.eq_def]
    simp only
    rw [if_neg (by omega), if_neg (by omega), if_pos (by omega)]
    exact List.cons_eq_cons.mpr ⟨by omega, rfl⟩
  · simp only [List.cons_append, List.nil_append]
    rw [points.eq_def]
    simp only
    rw [if_neg (by omega), if_neg (by omega), if_neg (by omega)]
    exact List.cons_eq_cons.mpr ⟨by omega, rfl⟩

theorem unescape_encodeChar {c : Char} (h : c ≠ '%') (r : List Char) : unescape (encodeChar c ++ r) = utf8 c.toNat ++ unescape r := by
  unfold encodeChar
  split
  · exact unescape_bytes _ r (utf8_bytes (char_bound c))
  · rename_i hm
    rw [List.cons_append, List.nil_append, unescape_char h]
    have : c.toNat < 0x7F := by
      simp only [mustEncode, Bool.or_eq_true_iff, decide_eq_true_eq, not_or] at hm
      omega
    unfold utf8
    rw [if_pos (by omega)]
    rfl

/-- A server reads the name which was encoded. -/
theorem points_encode : ∀ s : List Char, '%' ∉ s → points (unescape (encode s)) = s.map Char.toNat
  | [], _ => rfl
  | c :: s, h => by
    show points (unescape (encodeChar c ++ encode s)) = _
    rw [unescape_encodeChar (fun e => h (by rw [e]; exact List.mem_cons_self)), points_utf8 (char_bound c),
      points_encode s (fun hm => h (List.mem_cons_of_mem _ hm))]
    rfl

theorem map_toNat_inj : ∀ s t : List Char, s.map Char.toNat = t.map Char.toNat → s = t
  | [], [], _ => rfl
  | [], _ :: _, h => by cases h
  | _ :: _, [], h => by cases h
  | c :: s, d :: t, h => by
    simp only [List.map_cons, List.cons.injEq] at h
    have : c = d := Char.toNat_inj.mp h.1
    rw [this, map_toNat_inj s t h.2]

theorem encode_inj {s t : List Char} (hs : '%' ∉ s) (ht : '%' ∉ t) (h : encode s = encode t) : s = t := by
  apply map_toNat_inj
  rw [← points_encode s hs, ← points_encode t ht, h]

theorem unescapeForm_byte : ∀ b < 256, ∃ t, formByte b = t ∧ ((t = '%' :: t.tail ∧ t = percent b) ∨ (t = ['+'] ∧ b = 0x20) ∨
    (t = [Char.ofNat b] ∧ Char.ofNat b ≠ '%' ∧ Char.ofNat b ≠ '+' ∧ (Char.ofNat b).toNat = b)) := by
  intro b hb
  refine ⟨_, rfl, ?_⟩
  revert b
  decide +kernel

/-- A server reads the name of the branch. -/
theorem unescapeForm_form : ∀ b : List Nat, (∀ x ∈ b, x < 256) → unescapeForm (form b) = b
  | [], _ => rfl
  | x :: b, h => by
    show unescapeForm (formByte x ++ form b) = _
    have ih := unescapeForm_form b (fun y hy => h y (List.mem_cons_of_mem _ hy))
    have hx := h x List.mem_cons_self
    obtain ⟨t, e, ht⟩ := unescapeForm_byte x hx
    rw [e]
    rcases ht with ⟨_, g⟩ | ⟨g, hb⟩ | ⟨g, h1, h2, h3⟩
    · rw [g]
      show unescapeForm ('%' :: _ :: _ :: form b) = _
      rw [unescapeForm, percent_digits x hx, ih]
    · rw [g, hb]
      show unescapeForm ('+' :: form b) = _
      rw [unescapeForm, ih]
    · rw [g]
      show unescapeForm (Char.ofNat x :: form b) = _
      rw [unescapeForm, h3, ih]
      · intro a b r e _; exact h1 e
      · exact h2

end Verif.StoreUrls
