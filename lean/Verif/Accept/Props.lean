import Verif.Accept.Model

namespace Verif.Accept

/-! ## Specification -/

/-- The media type of a format. -/
def Format.essence : Format → Essence
  | .json => applicationJson
  | .graphqlResponseJson => applicationGraphqlResponseJson
  | .incrementalDelivery => multipartMixed
  | .sse => textEventStream

/-- An entry of the header names a format. -/
def Names (m : MediaType) (f : Format) : Prop := m.essence = f.essence

/-- An entry is a wildcard that a format matches. -/
def Wildcard (m : MediaType) (f : Format) : Prop :=
  m.essence = ⟨['*'], ['*'], none⟩ ∨ m.essence = ⟨f.essence.ty, ['*'], none⟩

/-- An entry excludes what it names: its quality is zero. -/
def Excludes (parse : Str → Option Nat) (m : MediaType) : Prop := quality parse m = 0

/-- The absolute value of a finite `f32` with these bits, in units of 2^-149: the exponent is in bits 23 to 30, the
mantissa in the bits below, with a leading one unless the exponent is zero. -/
def magnitude (bits : Nat) : Nat :=
  let e := bits / 8388608
  let m := bits % 8388608
  if e = 0 then m else (8388608 + m) * 2 ^ (e - 1)

/-- The number, in units of 2^-149; bit 31 is the sign. -/
def value (bits : Nat) : Int :=
  if bits < 2147483648 then magnitude bits else - (magnitude (bits - 2147483648) : Int)

/-- The quality a client gives to an entry: the number after the first `q`, one if there is none. -/
def Quality (parse : Str → Option Nat) (m : MediaType) (v : Int) : Prop :=
  (∃ pre p post n, m.params = pre ++ p :: post ∧ (∀ x ∈ pre, lower x.1 ≠ ['q']) ∧ lower p.1 = ['q'] ∧
    parse p.2 = some n ∧ v = value n) ∨
  ((∀ x ∈ m.params, lower x.1 ≠ ['q']) ∧ v = 2 ^ 149)

instance (m : MediaType) (f : Format) : Decidable (Names m f) := inferInstanceAs (Decidable (_ = _))
instance (parse : Str → Option Nat) (m : MediaType) : Decidable (Excludes parse m) :=
  inferInstanceAs (Decidable (_ = _))

/-! ## Lemmas -/

theorem foldl_max (xs : List (MediaType × Nat)) : ∀ (x : MediaType × Nat),
    let r := xs.foldl (fun best y => if key y.2 < key best.2 then best else y) x
    r ∈ x :: xs ∧ ∀ y ∈ x :: xs, key y.2 ≤ key r.2 := by
  induction xs with
  | nil => intro x; simp
  | cons z xs ih =>
    intro x
    simp only [List.foldl_cons]
    split
    · rename_i h
      have := ih x
      simp only [List.mem_cons] at this ⊢
      refine ⟨by rcases this.1 with h | h <;> simp [h], ?_⟩
      rintro y (rfl | rfl | hy)
      · exact this.2 _ (.inl rfl)
      · have := this.2 x (.inl rfl); omega
      · exact this.2 y (.inr hy)
    · rename_i h
      have := ih z
      simp only [List.mem_cons] at this ⊢
      refine ⟨by rcases this.1 with h | h <;> simp [h], ?_⟩
      rintro y (rfl | rfl | hy)
      · have := this.2 z (.inl rfl); omega
      · exact this.2 _ (.inl rfl)
      · exact this.2 y (.inr hy)

theorem maxBy_some {l : List (MediaType × Nat)} {r : MediaType × Nat} (h : maxBy l = some r) :
    r ∈ l ∧ ∀ y ∈ l, key y.2 ≤ key r.2 := by
  cases l with
  | nil => simp [maxBy] at h
  | cons x xs =>
    simp only [maxBy, Option.some.injEq] at h
    have := foldl_max xs x
    rw [h] at this
    exact this

theorem formatOf_some {e : Essence} {f : Format} (h : formatOf e = some f) :
    e = f.essence ∨ (f = .json ∧ (e = starStar ∨ e = applicationStar)) := by
  unfold formatOf at h
  repeat' split at h
  all_goals simp at h
  all_goals (subst h)
  all_goals simp_all [Format.essence]

theorem formatOf_supported {e : Essence} (h : e ∈ supported) : (formatOf e).isSome := by
  simp only [supported, List.mem_cons, List.not_mem_nil, or_false] at h
  rcases h with rfl | rfl | rfl | rfl | rfl | rfl <;> decide

theorem supported_of_names {m : MediaType} {f : Format} (h : Names m f) : m.essence ∈ supported := by
  unfold Names at h
  rw [h]; cases f <;> decide

theorem extract_some {parse : Str → Option Nat} {l : List MediaType} {f : Format}
    (h : extractFrom parse (some l) = some f) :
    ∃ m ∈ l, formatOf m.essence = some f ∧
      ∀ m' ∈ l, m'.essence ∈ supported → key (quality parse m') ≤ key (quality parse m) := by
  simp only [extractFrom] at h
  split at h
  · simp at h
  · rename_i best hb
    obtain ⟨h1, h2⟩ := maxBy_some hb
    simp only [List.mem_map, List.mem_filter, decide_eq_true_eq] at h1 h2
    obtain ⟨m, ⟨hm, hs⟩, rfl⟩ := h1
    refine ⟨m, hm, h, ?_⟩
    intro m' hm' hs'
    exact h2 (m', quality parse m') ⟨m', ⟨hm', hs'⟩, rfl⟩

/-! ## The order of qualities -/

theorem magnitude_succ (n : Nat) : magnitude n < magnitude (n + 1) := by
  unfold magnitude
  simp only
  by_cases hm : n % 8388608 + 1 < 8388608
  · have e1 : (n + 1) / 8388608 = n / 8388608 := by omega
    have e2 : (n + 1) % 8388608 = n % 8388608 + 1 := by omega
    rw [e1, e2]
    split
    · omega
    · exact Nat.mul_lt_mul_of_pos_right (by omega) (Nat.two_pow_pos _)
  · have e1 : (n + 1) / 8388608 = n / 8388608 + 1 := by omega
    have e2 : (n + 1) % 8388608 = 0 := by omega
    have e3 : n % 8388608 = 8388607 := by omega
    rw [e1, e2, e3]
    rcases Nat.eq_zero_or_pos (n / 8388608) with h | h
    · rw [h]; decide
    · obtain ⟨k, hk⟩ := Nat.exists_eq_add_of_lt h
      rw [show n / 8388608 = k + 1 by omega, if_neg (by omega), if_neg (by omega), Nat.add_sub_cancel,
        Nat.add_sub_cancel, Nat.pow_succ]
      have := Nat.two_pow_pos k
      generalize 2 ^ k = t at *
      omega

theorem magnitude_mono {a b : Nat} (h : a ≤ b) : magnitude a ≤ magnitude b := by
  induction h with
  | refl => exact Nat.le_refl _
  | step _ ih => exact Nat.le_of_lt (Nat.lt_of_le_of_lt ih (magnitude_succ _))

/-- `total_cmp` agrees with the order of the numbers. -/
theorem value_mono {a b : Nat} (h : key a ≤ key b) : value a ≤ value b := by
  unfold key at h
  unfold value
  split at h <;> split at h
  · rw [if_pos (by assumption), if_pos (by assumption)]
    have := magnitude_mono (a := a) (b := b) (by omega)
    omega
  · omega
  · rw [if_neg (by assumption), if_pos (by assumption)]
    omega
  · rw [if_neg (by assumption), if_neg (by assumption)]
    have := magnitude_mono (a := b - 2147483648) (b := a - 2147483648) (by omega)
    omega

theorem value_one : value one = 2 ^ 149 := by decide +kernel

theorem quality_value {parse : Str → Option Nat} {m : MediaType} {v : Int} (h : Quality parse m v) :
    v = value (quality parse m) := by
  rcases h with ⟨pre, p, post, n, e, hpre, hp, hn, rfl⟩ | ⟨hq, rfl⟩
  · have : m.params.find? (fun p => lower p.1 == ['q']) = some p := by
      rw [e, List.find?_append, List.find?_eq_none.2 (by simpa using hpre)]
      simp [hp]
    simp [quality, this, hn]
  · have : m.params.find? (fun p => lower p.1 == ['q']) = none := by
      rw [List.find?_eq_none]; simpa using hq
    simp [quality, this, value_one]

/-! ## C36 -/

/-- The format chosen is named by an entry of the header or matched by a wildcard in it, and no entry that names a
format, and none that is a supported wildcard, has a higher quality than that one. -/
theorem C36_listed (parse : Str → Option Nat) (l : List MediaType) (f : Format)
    (h : extractFrom parse (some l) = some f) :
    ∃ m ∈ l, (Names m f ∨ Wildcard m f) ∧
      ∀ m' ∈ l, (∀ f', Names m' f' → key (quality parse m') ≤ key (quality parse m)) ∧
        (m'.essence = starStar → key (quality parse m') ≤ key (quality parse m)) := by
  obtain ⟨m, hm, hf, hq⟩ := extract_some h
  refine ⟨m, hm, ?_, fun m' hm' => ⟨fun f' hn => hq m' hm' (supported_of_names hn),
    fun hs => hq m' hm' (by rw [hs]; decide)⟩⟩
  rcases formatOf_some hf with h | ⟨rfl, h | h⟩
  · exact .inl h
  · exact .inr (.inl h)
  · exact .inr (.inr h)

/-- The request is refused iff no entry names a format and none is `*/*` or `application/*`. -/
theorem C36_refused (parse : Str → Option Nat) (l : List MediaType) :
    extractFrom parse (some l) = none ↔
      ∀ m ∈ l, (∀ f, ¬ Names m f) ∧ m.essence ≠ starStar ∧ m.essence ≠ applicationStar := by
  have hsup : ∀ m : MediaType, m.essence ∈ supported ↔
      ((∃ f, Names m f) ∨ m.essence = starStar ∨ m.essence = applicationStar) := by
    intro m
    constructor
    · intro h
      have h1 := formatOf_supported h
      obtain ⟨f, hf⟩ := Option.isSome_iff_exists.1 h1
      rcases formatOf_some hf with h | ⟨-, h⟩
      · exact .inl ⟨f, h⟩
      · exact .inr h
    · rintro (⟨f, h⟩ | h | h)
      · exact supported_of_names h
      · rw [h]; decide
      · rw [h]; decide
  constructor
  · intro h m hm
    simp only [extractFrom] at h
    have : ¬ m.essence ∈ supported := by
      intro hs
      split at h
      · rename_i hb
        have : (m, quality parse m) ∈ (l.filter (fun m => m.essence ∈ supported)).map (fun m => (m, quality parse m)) := by
          simp only [List.mem_map, List.mem_filter, decide_eq_true_eq]
          exact ⟨m, ⟨hm, hs⟩, rfl⟩
        cases hl : (l.filter (fun m => m.essence ∈ supported)).map (fun m => (m, quality parse m)) with
        | nil => rw [hl] at this; simp at this
        | cons x xs => rw [hl] at hb; simp [maxBy] at hb
      · rename_i best hb
        obtain ⟨h1, -⟩ := maxBy_some hb
        simp only [List.mem_map, List.mem_filter, decide_eq_true_eq] at h1
        obtain ⟨x, ⟨-, hx⟩, rfl⟩ := h1
        have := formatOf_supported hx
        rw [h] at this; simp at this
    rw [hsup] at this
    simp only [not_or, not_exists] at this
    exact ⟨this.1, this.2⟩
  · intro h
    have : l.filter (fun m => m.essence ∈ supported) = [] := by
      rw [List.filter_eq_nil_iff]
      intro m hm hs
      simp only [decide_eq_true_eq] at hs
      rw [hsup] at hs
      rcases hs with ⟨f, hf⟩ | hs | hs
      · exact (h m hm).1 f hf
      · exact (h m hm).2.1 hs
      · exact (h m hm).2.2 hs
    simp [extractFrom, this, maxBy]

/-- By the numbers the client wrote: the entry the format comes from has a quality at least that of every entry that
names a format or is `*/*` or `application/*`. -/
theorem C36_highest (parse : Str → Option Nat) (l : List MediaType) (f : Format)
    (h : extractFrom parse (some l) = some f) :
    ∃ m ∈ l, (Names m f ∨ Wildcard m f) ∧
      ∀ m' ∈ l, ((∃ f', Names m' f') ∨ m'.essence = starStar ∨ m'.essence = applicationStar) →
        ∀ v v', Quality parse m v → Quality parse m' v' → v' ≤ v := by
  obtain ⟨m, hm, hf, hq⟩ := extract_some h
  refine ⟨m, hm, ?_, ?_⟩
  · rcases formatOf_some hf with h | ⟨rfl, h | h⟩
    · exact .inl h
    · exact .inr (.inl h)
    · exact .inr (.inr h)
  · intro m' hm' hs v v' hv hv'
    rw [quality_value hv, quality_value hv']
    apply value_mono
    apply hq m' hm'
    rcases hs with ⟨f', hn⟩ | hs | hs
    · exact supported_of_names hn
    · rw [hs]; decide
    · rw [hs]; decide

/-- Without a header the answer is JSON. -/
theorem C36_default (parse : Str → Option Nat) : extractFrom parse none = some .json := rfl

/-- With no wildcards and no entry of quality zero: the format chosen is named by the client with the highest
quality of all formats it names, and not excluded by the client. What is missing: wildcards and exclusions, see the
counterexamples. -/
theorem C36_partial (parse : Str → Option Nat) (l : List MediaType) (f : Format)
    (hw : ∀ m ∈ l, m.essence ≠ starStar ∧ m.essence ≠ applicationStar)
    (h0 : ∀ m ∈ l, ¬ Excludes parse m)
    (h : extractFrom parse (some l) = some f) :
    (∃ m ∈ l, Names m f ∧ ∀ m' ∈ l, ∀ f', Names m' f' → key (quality parse m') ≤ key (quality parse m)) ∧
    ∀ m ∈ l, Names m f → ¬ Excludes parse m := by
  obtain ⟨m, hm, hf, hq⟩ := extract_some h
  refine ⟨⟨m, hm, ?_, fun m' hm' f' hn => hq m' hm' (supported_of_names hn)⟩, fun m hm _ => h0 m hm⟩
  rcases formatOf_some hf with h | ⟨-, h | h⟩
  · exact h
  · exact absurd h (hw m hm).1
  · exact absurd h (hw m hm).2

/-- An entry of quality zero is chosen only if no supported entry has a positive one. -/
theorem C36_excluded_last (parse : Str → Option Nat) (l : List MediaType) (f : Format)
    (h : extractFrom parse (some l) = some f) (m : MediaType) (hm : m ∈ l) (hs : m.essence ∈ supported)
    (hpos : 0 < key (quality parse m)) :
    ∃ m' ∈ l, (Names m' f ∨ Wildcard m' f) ∧ ¬ Excludes parse m' := by
  obtain ⟨m', hm', hf, hq⟩ := extract_some h
  refine ⟨m', hm', ?_, ?_⟩
  · rcases formatOf_some hf with h | ⟨rfl, h | h⟩
    · exact .inl h
    · exact .inr (.inl h)
    · exact .inr (.inr h)
  · intro he
    have := hq m hm hs
    rw [he] at this
    simp [key] at this
    have h2 : (key 0) = 0 := by decide
    simp [key] at hpos
    omega

def sampleParse : Str → Option Nat := fun s => if s = ['0'] then some 0 else if s = ['1'] then some one else none

/-- `Accept: application/json;q=0` is answered with JSON. -/
theorem C36_excluded_counterexample : ∃ (m : MediaType), Names m .json ∧ Excludes sampleParse m ∧
    extractFrom sampleParse (some [m]) = some .json :=
  ⟨⟨"application".toList, "json".toList, none, [(['q'], ['0'])]⟩, by decide, by decide, by decide⟩

/-- `Accept: application/json;q=0, */*` too, although other formats are acceptable. -/
theorem C36_wildcard_counterexample : ∃ (m w : MediaType), Names m .json ∧ Excludes sampleParse m ∧
    Wildcard w .sse ∧ ¬ Excludes sampleParse w ∧ extractFrom sampleParse (some [m, w]) = some .json :=
  ⟨⟨"application".toList, "json".toList, none, [(['q'], ['0'])]⟩, ⟨['*'], ['*'], none, []⟩,
    by decide, by decide, .inl rfl, by decide, by decide⟩

/-- The order is that of `total_cmp`: a quality that is not a number (bits 0x7fc00000) wins over 1.0. -/
theorem C36_nan_counterexample : ∃ (parse : Str → Option Nat) (a b : MediaType), quality parse a = 0x7fc00000 ∧
    quality parse b = one ∧ Names a .sse ∧ Names b .json ∧ extractFrom parse (some [a, b]) = some .sse :=
  ⟨fun _ => some 0x7fc00000, ⟨"text".toList, "event-stream".toList, none, [(['q'], "NaN".toList)]⟩,
    ⟨"application".toList, "json".toList, none, []⟩, by decide, by decide, by decide, by decide, by decide⟩

/-! ## Non-vacuity -/

def sampleList : List MediaType :=
  [⟨"text".toList, "html".toList, none, []⟩, ⟨"Application".toList, "JSON".toList, none, [(['q'], ['1'])]⟩,
   ⟨"multipart".toList, "mixed".toList, none, []⟩]

/-- Of equals the last is taken. -/
example : extractFrom sampleParse (some sampleList) = some .incrementalDelivery := by decide
example : (∀ m ∈ sampleList, m.essence ≠ starStar ∧ m.essence ≠ applicationStar) ∧
    ∀ m ∈ sampleList, ¬ Excludes sampleParse m := by
  constructor
  · decide
  · intro m hm; simp [sampleList] at hm; rcases hm with rfl | rfl | rfl <;> (unfold Excludes; decide)
example : Quality sampleParse ⟨"a".toList, "b".toList, none, [(['v'], ['0']), (['Q'], ['1'])]⟩ (2 ^ 149) :=
  .inl ⟨[(['v'], ['0'])], (['Q'], ['1']), [], one, rfl, by decide, by decide, by decide, value_one.symm⟩
example : extractFrom sampleParse (some [⟨"text".toList, "html".toList, none, []⟩]) = none := by decide

end Verif.Accept
