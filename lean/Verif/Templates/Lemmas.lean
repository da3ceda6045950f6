import Verif.Templates.Spec
import Verif.StoreUrls.Told

namespace Verif.Templates

/-! ## Strings -/

theorem readStr_short {x c : Char} (h : shortEscape x = some c) (r : Str) : readStr ('\\' :: x :: r) = consTo c (readStr r) := by
  have hu : x ≠ 'u' := by
    intro e
    have hn : shortEscape 'u' = none := by decide
    rw [e, hn] at h
    cases h
  rw [readStr]
  · rw [h]
  · intro a b c d r' e _
    exact hu e

theorem readStr_long (a b c d : Char) (r : Str) : readStr ('\\' :: 'u' :: a :: b :: c :: d :: r) =
    consTo (Char.ofNat (hexOf a * 4096 + hexOf b * 256 + hexOf c * 16 + hexOf d)) (readStr r) := by
  rw [readStr]

theorem readStr_plain {c : Char} (h1 : c ≠ '"') (h2 : c ≠ '\\') (h3 : ¬ c.toNat < 32) (r : Str) : readStr (c :: r) = consTo c (readStr r) := by
  rw [readStr.eq_def]
  split
  · rename_i e; cases e
  · rename_i e
    simp only [List.cons.injEq] at e
    exact absurd e.1 h1
  · rename_i e
    simp only [List.cons.injEq] at e
    exact absurd e.1 h2
  · rename_i e
    simp only [List.cons.injEq] at e
    exact absurd e.1 h2
  · rename_i e
    simp only [List.cons.injEq] at e
    rw [← e.1, ← e.2, if_neg h3]

theorem control_shape : ∀ n < 32, (∃ x, x ∈ ['b', 't', 'n', 'f', 'r'] ∧ jsonChar (Char.ofNat n) = ['\\', x] ∧ shortEscape x = some (Char.ofNat n)) ∨
    (∃ a, a ∈ hexLower ∧ ∃ b, b ∈ hexLower ∧ jsonChar (Char.ofNat n) = ['\\', 'u', '0', '0', a, b] ∧
      Char.ofNat (hexOf '0' * 4096 + hexOf '0' * 256 + hexOf a * 16 + hexOf b) = Char.ofNat n) := by
  decide +kernel

theorem readStr_char (c : Char) (r : Str) : readStr (jsonChar c ++ r) = consTo c (readStr r) := by
  by_cases h : c.toNat < 32
  · have hs := control_shape c.toNat h
    rw [Char.ofNat_toNat] at hs
    rcases hs with ⟨x, _, e, hx⟩ | ⟨a, _, b, _, e, hx⟩
    · rw [e]
      exact readStr_short hx r
    · rw [e]
      show readStr ('\\' :: 'u' :: '0' :: '0' :: a :: b :: r) = _
      rw [readStr_long, hx]
  · unfold jsonChar
    split
    · rename_i e
      rw [e]
      exact readStr_short (by decide) r
    split
    · rename_i e
      rw [e]
      exact readStr_short (by decide) r
    rename_i h1 h2
    repeat rw [if_neg (by omega)]
    exact readStr_plain h1 h2 h r

theorem readStr_json : ∀ (s r : Str), readStr (s.flatMap jsonChar ++ '"' :: r) = some (s, r)
  | [], r => by simp [readStr]
  | c :: s, r => by
    rw [List.flatMap_cons, List.append_assoc, readStr_char, readStr_json s r]
    rfl

/-! ## Values -/

mutual
def size : Json → Nat
  | .null => 1
  | .bool _ => 1
  | .num _ => 1
  | .str _ => 1
  | .arr l => 1 + sizeElems l
  | .obj l => 1 + sizeFields l
def sizeElems : List Json → Nat
  | [] => 1
  | v :: vs => 1 + size v + sizeElems vs
def sizeFields : List (Str × Json) → Nat
  | [] => 1
  | (_, v) :: fs => 2 + size v + sizeFields fs
end

theorem takeWhile_num : ∀ (t rest : Str), (∀ c ∈ t, numberChar c = true) → Ends rest →
    (t ++ rest).takeWhile numberChar = t ∧ (t ++ rest).dropWhile numberChar = rest
  | [], rest, _, h => by
    cases rest with
    | nil => exact ⟨rfl, rfl⟩
    | cons c r =>
      have := h c rfl
      simp [this]
  | c :: t, rest, hc, h => by
    obtain ⟨h1, h2⟩ := takeWhile_num t rest (fun x hx => hc x (List.mem_cons_of_mem _ hx)) h
    have := hc c List.mem_cons_self
    simp [this, h1, h2]

theorem read_num (n : Nat) {t : Str} (h : t ≠ [] ∧ ∀ c ∈ t, numberChar c = true) (rest : Str) (he : Ends rest) :
    read (n + 1) (t ++ rest) = some (.num t, rest) := by
  obtain ⟨h0, hc⟩ := h
  have hr : readNum (t ++ rest) = some (.num t, rest) := by
    obtain ⟨h1, h2⟩ := takeWhile_num t rest hc he
    unfold readNum
    rw [h1, h2, if_neg (by simp [h0])]
  cases t with
  | nil => exact absurd rfl h0
  | cons c t =>
    have hn := hc c List.mem_cons_self
    rw [← hr, List.cons_append]
    rw [read.eq_def]
    simp only
    split
    all_goals first
      | rfl
      | (rename_i e
         simp only [List.cons.injEq, reduceCtorEq] at e
         try (rw [e.1] at hn; exact absurd hn (by decide)))

theorem ends_of {c : Char} (h : numberChar c = false) (r : Str) : Ends (c :: r) := by
  intro d hd
  simp only [List.head?_cons, Option.some.injEq] at hd
  rw [← hd]
  exact h

theorem ends_elems (vs : List Json) (rest : Str) : Ends (toElems vs ++ rest) := by
  cases vs with
  | nil => exact ends_of (by decide) _
  | cons v vs => rw [toElems]; exact ends_of (by decide) _

theorem ends_fields (fs : List (Str × Json)) (rest : Str) : Ends (toFields fs ++ rest) := by
  cases fs with
  | nil => exact ends_of (by decide) _
  | cons f fs => obtain ⟨k, v⟩ := f; rw [toFields]; exact ends_of (by decide) _

theorem written_number {c : Char} (h : writtenChar c) : numberChar c = true := by
  unfold writtenChar at h
  unfold numberChar
  rcases h with h | rfl | rfl | rfl
  · have h1 : decide ('0'.toNat ≤ c.toNat) = true := decide_eq_true h.1
    have h2 : decide (c.toNat ≤ '9'.toNat) = true := decide_eq_true h.2
    rw [h1, h2]
    rfl
  all_goals decide

theorem fine_num {t : Str} (h : Fine (.num t)) : t ≠ [] ∧ ∀ c ∈ t, numberChar c = true := by
  rw [Fine] at h
  exact ⟨h.1, fun c hc => written_number (h.2 c hc)⟩

theorem head_value {v : Json} (h : Fine v) : ∃ c t, toJson v = c :: t ∧ c ≠ ']' := by
  cases v with
  | null => exact ⟨_, _, by rw [toJson]; rfl, by decide⟩
  | bool b => cases b <;> exact ⟨_, _, by rw [toJson]; rfl, by decide⟩
  | num t =>
    have h := fine_num h
    cases t with
    | nil => exact absurd rfl h.1
    | cons c t =>
      refine ⟨c, t, by rw [toJson], ?_⟩
      intro e
      have := h.2 c List.mem_cons_self
      rw [e] at this
      exact absurd this (by decide)
  | str s => exact ⟨_, _, by rw [toJson]; rfl, by decide⟩
  | arr l =>
    cases l with
    | nil => exact ⟨_, _, by rw [toJson], by decide⟩
    | cons v vs => exact ⟨_, _, by rw [toJson], by decide⟩
  | obj l =>
    cases l with
    | nil => exact ⟨_, _, by rw [toJson], by decide⟩
    | cons f fs => obtain ⟨k, v⟩ := f; exact ⟨_, _, by rw [toJson], by decide⟩

theorem read_arr (n : Nat) {c : Char} {t : Str} (h : c ≠ ']') : read (n + 1) ('[' :: c :: t) =
    match read n (c :: t) with
      | some (v, r) =>
        match readElems n r with
        | some (vs, r) => some (.arr (v :: vs), r)
        | none => none
      | none => none := by
  rw [read]
  · rfl
  · intro r e
    simp only [List.cons.injEq] at e
    exact h e.1

theorem read_obj (n : Nat) (t : Str) : read (n + 1) ('{' :: '"' :: t) =
    match readField n ('"' :: t) with
      | some (f, r) =>
        match readFields n r with
        | some (fs, r) => some (.obj (f :: fs), r)
        | none => none
      | none => none := by
  rw [read]
  · rfl
  · intro r e
    simp at e

theorem jsonStr_append (k r : Str) : jsonStr k ++ r = '"' :: (k.flatMap jsonChar ++ '"' :: r) := by
  unfold jsonStr
  simp

theorem read_field (n : Nat) (k : Str) (v : Json) (r rest : Str) (h : read n r = some (v, rest)) :
    readField (n + 1) (jsonStr k ++ ':' :: r) = some ((k, v), rest) := by
  rw [jsonStr_append, readField.eq_def]
  simp only [readStr_json, h]

mutual
theorem read_toJson : ∀ (v : Json), Fine v → ∀ (m : Nat), size v ≤ m → ∀ rest, Ends rest → read m (toJson v ++ rest) = some (v, rest)
  | .null, _, m, hm, rest, _ => by
    rw [size] at hm
    obtain ⟨n, rfl⟩ : ∃ n, m = n + 1 := ⟨m - 1, by omega⟩
    rw [toJson]
    rfl
  | .bool b, _, m, hm, rest, _ => by
    rw [size] at hm
    obtain ⟨n, rfl⟩ : ∃ n, m = n + 1 := ⟨m - 1, by omega⟩
    rw [toJson]
    cases b <;> rfl
  | .num t, h, m, hm, rest, he => by
    rw [size] at hm
    obtain ⟨n, rfl⟩ : ∃ n, m = n + 1 := ⟨m - 1, by omega⟩
    rw [toJson]
    exact read_num n (fine_num h) rest he
  | .str s, _, m, hm, rest, _ => by
    rw [size] at hm
    obtain ⟨n, rfl⟩ : ∃ n, m = n + 1 := ⟨m - 1, by omega⟩
    rw [toJson, jsonStr_append, read.eq_def]
    simp only [readStr_json]
  | .arr [], _, m, hm, rest, _ => by
    rw [size] at hm
    obtain ⟨n, rfl⟩ : ∃ n, m = n + 1 := ⟨m - 1, by omega⟩
    rw [toJson]
    rfl
  | .arr (v :: vs), h, m, hm, rest, he => by
    rw [Fine, FineElems] at h
    rw [size, sizeElems] at hm
    obtain ⟨n, rfl⟩ : ∃ n, m = n + 1 := ⟨m - 1, by omega⟩
    obtain ⟨c, t, hv, hc⟩ := head_value h.1
    have h1 := read_toJson v h.1 n (by omega) (toElems vs ++ rest) (ends_elems vs rest)
    have h2 := read_elems vs h.2 n (by omega) rest
    rw [hv] at h1
    rw [toJson, hv, List.cons_append, List.append_assoc, List.cons_append, read_arr n hc]
    rw [List.cons_append] at h1
    rw [h1]
    simp only [h2]
  | .obj [], _, m, hm, rest, _ => by
    rw [size] at hm
    obtain ⟨n, rfl⟩ : ∃ n, m = n + 1 := ⟨m - 1, by omega⟩
    rw [toJson]
    rfl
  | .obj ((k, v) :: fs), h, m, hm, rest, he => by
    rw [Fine, FineFields] at h
    rw [size, sizeFields] at hm
    obtain ⟨n, rfl⟩ : ∃ n, m = n + 2 := ⟨m - 2, by omega⟩
    have h1 := read_toJson v h.1 n (by omega) (toFields fs ++ rest) (ends_fields fs rest)
    have h2 := read_fields fs h.2 (n + 1) (by omega) rest
    have h3 := read_field n k v _ _ h1
    rw [toJson]
    have e : '{' :: (jsonStr k ++ ':' :: (toJson v ++ toFields fs)) ++ rest =
        '{' :: '"' :: (k.flatMap jsonChar ++ '"' :: ':' :: (toJson v ++ (toFields fs ++ rest))) := by
      unfold jsonStr
      simp
    rw [e, read_obj, ← jsonStr_append, h3]
    simp only [h2]
theorem read_elems : ∀ (vs : List Json), FineElems vs → ∀ (m : Nat), sizeElems vs ≤ m → ∀ rest, readElems m (toElems vs ++ rest) = some (vs, rest)
  | [], _, m, hm, rest => by
    rw [sizeElems] at hm
    obtain ⟨n, rfl⟩ : ∃ n, m = n + 1 := ⟨m - 1, by omega⟩
    rw [toElems]
    rfl
  | v :: vs, h, m, hm, rest => by
    rw [FineElems] at h
    rw [sizeElems] at hm
    obtain ⟨n, rfl⟩ : ∃ n, m = n + 1 := ⟨m - 1, by omega⟩
    have h1 := read_toJson v h.1 n (by omega) (toElems vs ++ rest) (ends_elems vs rest)
    have h2 := read_elems vs h.2 n (by omega) rest
    rw [toElems, List.cons_append, List.append_assoc, readElems.eq_def]
    simp only [h1, h2]
theorem read_fields : ∀ (fs : List (Str × Json)), FineFields fs → ∀ (m : Nat), sizeFields fs ≤ m → ∀ rest,
    readFields m (toFields fs ++ rest) = some (fs, rest)
  | [], _, m, hm, rest => by
    rw [sizeFields] at hm
    obtain ⟨n, rfl⟩ : ∃ n, m = n + 1 := ⟨m - 1, by omega⟩
    rw [toFields]
    rfl
  | (k, v) :: fs, h, m, hm, rest => by
    rw [FineFields] at h
    rw [sizeFields] at hm
    obtain ⟨n, rfl⟩ : ∃ n, m = n + 2 := ⟨m - 2, by omega⟩
    have h1 := read_toJson v h.1 n (by omega) (toFields fs ++ rest) (ends_fields fs rest)
    have h2 := read_fields fs h.2 (n + 1) (by omega) rest
    have h3 := read_field n k v _ _ h1
    rw [toFields]
    have e : ',' :: (jsonStr k ++ ':' :: (toJson v ++ toFields fs)) ++ rest =
        ',' :: (jsonStr k ++ ':' :: (toJson v ++ (toFields fs ++ rest))) := by simp
    rw [e, readFields.eq_def]
    simp only [h3, h2]
end

/-- JSON is read as the value it was made of. -/
theorem isJson_toJson {v : Json} (h : Fine v) : IsJson (toJson v) v :=
  ⟨size v, fun m hm rest he => read_toJson v h m hm rest he⟩

/-! ## URLs -/

open StoreUrls (unescape points percent utf8)

theorem urlByte_shape : ∀ b < 256, (urlByte b = percent b) ∨ (urlByte b = [Char.ofNat b] ∧ Char.ofNat b ≠ '%' ∧ (Char.ofNat b).toNat = b) := by
  decide +kernel

theorem urlByte_safe : ∀ b < 256, ∀ c ∈ urlByte b, c = '%' ∨ ('a'.toNat ≤ c.toNat ∧ c.toNat ≤ 'z'.toNat) ∨ ('A'.toNat ≤ c.toNat ∧ c.toNat ≤ 'Z'.toNat) ∨
    ('0'.toNat ≤ c.toNat ∧ c.toNat ≤ '9'.toNat) ∨ c = '-' ∨ c = '.' ∨ c = '_' ∨ c = '~' := by
  decide +kernel

theorem unescape_url : ∀ (bs : List Nat), (∀ b ∈ bs, b < 256) → unescape (bs.flatMap urlByte) = bs
  | [], _ => rfl
  | b :: bs, h => by
    have hb := h b List.mem_cons_self
    have ih := unescape_url bs (fun x hx => h x (List.mem_cons_of_mem _ hx))
    rw [List.flatMap_cons]
    rcases urlByte_shape b hb with e | ⟨e, h1, h2⟩
    · rw [e, StoreUrls.unescape_percent hb, ih]
    · rw [e, List.cons_append, List.nil_append, StoreUrls.unescape_char h1, h2, ih]

theorem points_all : ∀ s : Str, points (s.flatMap (fun c => utf8 c.toNat)) = s.map Char.toNat
  | [] => rfl
  | c :: s => by rw [List.flatMap_cons, StoreUrls.points_utf8 (StoreUrls.char_bound c), points_all s]; rfl

theorem bytes_all (s : Str) : ∀ b ∈ s.flatMap (fun c => utf8 c.toNat), b < 256 := by
  intro b hb
  obtain ⟨c, _, h⟩ := List.mem_flatMap.mp hb
  exact StoreUrls.utf8_bytes (StoreUrls.char_bound c) b h

theorem urlText_urlencode (s : Str) : urlText (urlencode s) = s.map Char.toNat := by
  unfold urlText urlencode
  rw [unescape_url _ (bytes_all s), points_all]

theorem urlencode_harmless (s : Str) : ∀ c ∈ urlencode s, Harmless c := by
  intro c hc
  obtain ⟨b, hb, h⟩ := List.mem_flatMap.mp hc
  rcases urlByte_safe b (bytes_all s b hb) c h with h | h
  · exact Or.inr h
  · exact Or.inl h

end Verif.Templates
