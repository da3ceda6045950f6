import Verif.SdlText.Values

/-! # Reading what is written: descriptions -/
namespace Verif.SdlText

/-! ## Three quotes -/

theorem holds_cons (d : Char) (t : Text) : HoldsQuotes (d :: t) ↔ (d :: t).take 3 = ['"', '"', '"'] ∨ HoldsQuotes t := by
  constructor
  · rintro ⟨a, b, h⟩
    cases a with
    | nil =>
      left
      rw [h]
      simp
    | cons x a =>
      right
      simp only [List.cons_append, List.cons.injEq] at h
      exact ⟨a, b, h.2⟩
  · rintro (h | ⟨a, b, rfl⟩)
    · refine ⟨[], (d :: t).drop 3, ?_⟩
      rw [List.nil_append, ← h, List.take_append_drop]
    · exact ⟨d :: a, b, rfl⟩

theorem holds_split {a b : Text} {c : Char} (hc : c ≠ '"') (h : HoldsQuotes (a ++ c :: b)) : HoldsQuotes a ∨ HoldsQuotes b := by
  induction a with
  | nil =>
    rw [List.nil_append, holds_cons] at h
    rcases h with h | h
    · exfalso
      simp only [List.take_succ_cons, List.cons.injEq] at h
      exact hc h.1
    · exact Or.inr h
  | cons d a ih =>
    rw [List.cons_append, holds_cons] at h
    rcases h with h | h
    · left
      rw [holds_cons]
      left
      simp only [List.take_succ_cons, List.cons.injEq] at h ⊢
      refine ⟨h.1, ?_⟩
      have h2 := h.2
      cases a with
      | nil =>
        simp only [List.nil_append, List.take_succ_cons, List.cons.injEq] at h2
        exact absurd h2.1 hc
      | cons x a =>
        simp only [List.cons_append, List.take_succ_cons, List.cons.injEq] at h2 ⊢
        refine ⟨h2.1, ?_⟩
        have h3 := h2.2
        cases a with
        | nil =>
          simp only [List.nil_append, List.take_succ_cons, List.cons.injEq] at h3
          exact absurd h3.1 hc
        | cons y a => simpa using h3
    · rcases ih h with h | h
      · exact Or.inl ((holds_cons d a).mpr (Or.inr h))
      · exact Or.inr h

theorem HoldsQuotes.mono {s t a b : Text} (h : HoldsQuotes s) (ht : t = a ++ s ++ b) : HoldsQuotes t := by
  obtain ⟨x, y, rfl⟩ := h
  exact ⟨a ++ x, y ++ b, by rw [ht]; simp⟩

theorem holds_of_no_quote {s : Text} (h : '"' ∉ s) : ¬HoldsQuotes s := by
  rintro ⟨a, b, rfl⟩
  exact h (by simp)

/-! ## The raw text of a block string -/

theorem lexBlock_raw (raw r : Text) (h1 : ¬HoldsQuotes raw) (h2 : raw.getLast? ≠ some '"') (h3 : raw.getLast? ≠ some '\\') :
    lexBlock 0 (raw ++ '"' :: '"' :: '"' :: r) = some (raw, r) := by
  induction raw with
  | nil => simp [lexBlock]
  | cons c s ih =>
    have hq : ¬ (c = '"' ∧ (s ++ '"' :: '"' :: '"' :: r).take 2 = ['"', '"']) := by
      rintro ⟨rfl, h⟩
      match s, h with
      | [], _ => simp at h2
      | [x], h =>
        simp only [List.cons_append, List.nil_append, List.take_succ_cons, List.take_zero, List.cons.injEq, and_true] at h
        rw [h] at h2
        simp at h2
      | x :: y :: s, h =>
        simp only [List.cons_append, List.take_succ_cons, List.take_zero, List.cons.injEq, and_true] at h
        obtain ⟨rfl, rfl⟩ := h
        exact h1 ⟨[], s, rfl⟩
    have hb : ¬ (c = '\\' ∧ (s ++ '"' :: '"' :: '"' :: r).take 3 = ['"', '"', '"']) := by
      rintro ⟨rfl, h⟩
      match s, h with
      | [], _ => simp at h3
      | [x], h =>
        simp only [List.cons_append, List.nil_append, List.take_succ_cons, List.take_zero, List.cons.injEq, and_true] at h
        rw [h] at h2
        simp at h2
      | [x, y], h =>
        simp only [List.cons_append, List.nil_append, List.take_succ_cons, List.take_zero, List.cons.injEq, and_true] at h
        rw [h.2] at h2
        simp at h2
      | x :: y :: z :: s, h =>
        simp only [List.cons_append, List.take_succ_cons, List.take_zero, List.cons.injEq, and_true] at h
        obtain ⟨rfl, rfl, rfl⟩ := h
        exact h1 ⟨['\\'], s, rfl⟩
    have hs : ¬HoldsQuotes s := fun h => h1 ((holds_cons c s).mpr (Or.inr h))
    have hl : ∀ x, (c :: s).getLast? ≠ some x → s.getLast? ≠ some x := by
      intro x hx e
      apply hx
      cases s with
      | nil => simp at e
      | cons y s => rw [List.getLast?_cons_cons]; exact e
    rw [List.cons_append, lexBlock, if_neg (by omega), if_neg hq, if_neg hb, ih hs (hl _ h2) (hl _ h3)]
    rfl

/-! ## Lines -/

/-- Nothing in the line ends it. -/
def LineOk (l : Text) : Prop := '\n' ∉ l ∧ '\r' ∉ l

theorem blockLines_line {l : Text} (hl : LineOk l) (cur r : Text) :
    blockLines false cur (l ++ '\n' :: r) = (cur ++ l) :: blockLines false [] r := by
  induction l generalizing cur with
  | nil => simp [blockLines]
  | cons c l ih =>
    have h1 : c ≠ '\n' := fun e => hl.1 (by rw [e]; exact List.mem_cons_self)
    have h2 : c ≠ '\r' := fun e => hl.2 (by rw [e]; exact List.mem_cons_self)
    rw [List.cons_append, blockLines, if_neg h1, if_neg h2,
      ih ⟨fun h => hl.1 (List.mem_cons_of_mem _ h), fun h => hl.2 (List.mem_cons_of_mem _ h)⟩]
    simp

theorem blockLines_end {l : Text} (hl : LineOk l) (cur : Text) : blockLines false cur l = [cur ++ l] := by
  induction l generalizing cur with
  | nil => simp [blockLines]
  | cons c l ih =>
    have h1 : c ≠ '\n' := fun e => hl.1 (by rw [e]; exact List.mem_cons_self)
    have h2 : c ≠ '\r' := fun e => hl.2 (by rw [e]; exact List.mem_cons_self)
    rw [blockLines, if_neg h1, if_neg h2,
      ih ⟨fun h => hl.1 (List.mem_cons_of_mem _ h), fun h => hl.2 (List.mem_cons_of_mem _ h)⟩]
    simp

theorem blockLines_body {ind : Text} (hi : LineOk ind) (K : List Text) (hK : ∀ l ∈ K, LineOk l) :
    blockLines false [] (K.flatMap (fun l => ind ++ l ++ ['\n']) ++ ind) = K.map (fun l => ind ++ l) ++ [ind] := by
  induction K with
  | nil => simpa using blockLines_end hi []
  | cons l K ih =>
    have hl : LineOk (ind ++ l) := by
      have := hK l List.mem_cons_self
      constructor
      · simp only [List.mem_append, not_or]; exact ⟨hi.1, this.1⟩
      · simp only [List.mem_append, not_or]; exact ⟨hi.2, this.2⟩
    have e : List.flatMap (fun l => ind ++ l ++ ['\n']) (l :: K) ++ ind =
        (ind ++ l) ++ '\n' :: (K.flatMap (fun l => ind ++ l ++ ['\n']) ++ ind) := by simp
    rw [e, blockLines_line hl, ih (fun x hx => hK x (List.mem_cons_of_mem _ hx))]
    simp

theorem blockLines_join (L : List Text) (hne : L ≠ []) (hL : ∀ l ∈ L, LineOk l) : blockLines false [] (joinLines L) = L := by
  induction L with
  | nil => exact absurd rfl hne
  | cons l L ih =>
    cases L with
    | nil => simpa [joinLines] using blockLines_end (hL l List.mem_cons_self) []
    | cons m L =>
      rw [joinLines]
      · rw [blockLines_line (hL l List.mem_cons_self), ih (by simp) (fun x hx => hL x (List.mem_cons_of_mem _ hx))]
        rfl
      · simp

/-! ## Lines that are blank or start with something -/

theorem white_eq : White = isSpace := by
  funext c
  rw [Bool.eq_iff_iff]
  simp only [White, isSpace, List.contains_cons, List.contains_nil, Bool.or_false, Bool.or_eq_true, beq_iff_eq, Bool.and_eq_true,
    decide_eq_true_eq]
  omega

theorem strippedEnd_eq (l : Text) : strippedEnd l = trimEnd l := by
  unfold strippedEnd trimEnd
  rw [white_eq]


/-- A line without white space around it. -/
def Tight (l : Text) : Prop := l = [] ∨ ∃ c t, l = c :: t ∧ isSpace c = false

theorem blank_isSpace {c : Char} (h : isBlank c = true) : isSpace c = true := by
  simp only [isBlank, Bool.or_eq_true_iff, beq_iff_eq] at h
  rcases h with rfl | rfl <;> decide

theorem tight_blank {l : Text} (h : Tight l) : blankLine l = true ↔ l = [] := by
  rcases h with rfl | ⟨c, t, rfl, hc⟩
  · simp [blankLine]
  · have : isBlank c = false := by
      cases hb : isBlank c with
      | false => rfl
      | true => rw [blank_isSpace hb] at hc; cases hc
    simp [blankLine, this]

theorem stripped_tight (l : Text) : Tight (stripped l) := by
  unfold stripped
  rw [white_eq]
  have key : ∀ (x : Text), (∃ c t, x = c :: t ∧ isSpace c = false) → Tight (x.reverse.dropWhile isSpace).reverse := by
    rintro x ⟨c, t, rfl, hc⟩
    right
    rw [List.reverse_cons]
    have : ((t.reverse ++ [c]).dropWhile isSpace) = t.reverse.dropWhile isSpace ++ [c] := by
      rw [List.dropWhile_append]
      split
      · rename_i h
        have h' : t.reverse.dropWhile isSpace = [] := by simpa using h
        rw [h']
        simp [hc]
      · rfl
    rw [this]
    exact ⟨c, _, by simp; rfl, hc⟩
  cases hd : l.dropWhile isSpace with
  | nil => left; simp
  | cons c t =>
    refine key _ ⟨c, t, rfl, ?_⟩
    have := List.head_dropWhile_not (p := isSpace) (l := l) (by rw [hd]; simp)
    simpa [hd] using this

theorem stripped_infix (l : Text) : ∃ a b, l = a ++ stripped l ++ b := by
  refine ⟨l.takeWhile isSpace, ((l.dropWhile isSpace).reverse.takeWhile isSpace).reverse, ?_⟩
  unfold stripped
  rw [white_eq]
  rw [List.append_assoc, ← List.reverse_append, List.takeWhile_append_dropWhile, List.reverse_reverse,
    List.takeWhile_append_dropWhile]

theorem stripped_ok {l : Text} (h : LineOk l) : LineOk (stripped l) := by
  obtain ⟨a, b, e⟩ := stripped_infix l
  constructor
  · intro hm; apply h.1; rw [e]; simp [hm]
  · intro hm; apply h.2; rw [e]; simp [hm]

/-! ## The value of the block string -/

theorem indentOf_append {ind l : Text} (hi : ∀ c ∈ ind, isBlank c = true) (hl : ∃ c t, l = c :: t ∧ isSpace c = false) :
    indentOf (ind ++ l) = ind.length := by
  obtain ⟨c, t, rfl, hc⟩ := hl
  have hb : isBlank c = false := by
    cases hb : isBlank c with
    | false => rfl
    | true => rw [blank_isSpace hb] at hc; cases hc
  unfold indentOf
  rw [(takeWhile_all (p := isBlank) hi (by
    intro x hx
    simp only [List.head?_cons, Option.some.injEq] at hx
    subst hx; exact hb)).1]

theorem blankLine_append {ind l : Text} (hi : ∀ c ∈ ind, isBlank c = true) : blankLine (ind ++ l) = blankLine l := by
  unfold blankLine
  rw [List.all_append]
  have : ind.all isBlank = true := List.all_eq_true.mpr hi
  rw [this, Bool.true_and]

theorem commonIndent_body {ind : Text} (hi : ∀ c ∈ ind, isBlank c = true) (K : List Text) (hK : ∀ l ∈ K, Tight l) :
    commonIndent (K.map (fun l => ind ++ l) ++ [ind]) = if K.all (fun l => l.isEmpty) then none else some ind.length := by
  induction K with
  | nil =>
    have : blankLine ind = true := List.all_eq_true.mpr hi
    simp [commonIndent, this]
  | cons l K ih =>
    have ih := ih (fun x hx => hK x (List.mem_cons_of_mem _ hx))
    simp only [List.map_cons, List.cons_append, commonIndent, blankLine_append hi]
    rcases hK l List.mem_cons_self with rfl | hl
    · simp only [blankLine, List.all_nil, if_true, ih, List.all_cons, List.isEmpty_nil, Bool.true_and]
    · have hb : blankLine l = false := by
        obtain ⟨c, t, rfl, hc⟩ := hl
        cases hbl : blankLine (c :: t) with
        | false => rfl
        | true => exact absurd ((tight_blank (Or.inr ⟨c, t, rfl, hc⟩)).mp hbl) (by simp)
      have hne : l.isEmpty = false := by obtain ⟨c, t, rfl, _⟩ := hl; rfl
      simp only [hb, Bool.false_eq_true, if_false, ih, indentOf_append hi hl, List.all_cons, hne, Bool.false_and]
      split
      · rename_i h; split at h <;> simp_all
      · rename_i m h
        split at h
        · cases h
        · injection h with h; subst h; simp

theorem dropWhile_all {p : Text → Bool} {ls : List Text} (h : ∀ l ∈ ls, p l = true) : ls.dropWhile p = [] := by
  induction ls with
  | nil => rfl
  | cons l ls ih =>
    rw [List.dropWhile_cons, if_pos (h l List.mem_cons_self)]
    exact ih (fun x hx => h x (List.mem_cons_of_mem _ hx))

theorem takeWhile_mem {p : Text → Bool} {ls : List Text} : ∀ l ∈ ls.takeWhile p, p l = true := by
  induction ls with
  | nil => intro l h; simp at h
  | cons x ls ih =>
    intro l h
    rw [List.takeWhile_cons] at h
    split at h
    · rename_i hx
      rcases List.mem_cons.mp h with h | h
      · rw [h]; exact hx
      · exact ih l h
    · simp at h

theorem dropWhile_blank_cons (ls : List Text) : ([] :: ls).dropWhile blankLine = ls.dropWhile blankLine := by
  rw [List.dropWhile_cons, if_pos (show blankLine [] = true from rfl)]

theorem dropBlank_of_blank {ls : List Text} (h : ∀ l ∈ ls, blankLine l = true) : dropBlank ls = [] := by
  unfold dropBlank
  have : ls.dropWhile blankLine = [] := by
    exact dropWhile_all h
  rw [this]
  rfl

theorem dropBlank_around (K : List Text) : dropBlank ([] :: K ++ [[]]) = dropBlank K := by
  unfold dropBlank
  have e1 : ([] :: K ++ [[]]).dropWhile blankLine = (K ++ [[]]).dropWhile blankLine := by
    rw [List.cons_append, dropWhile_blank_cons]
  rw [e1, List.dropWhile_append]
  split
  · rename_i h
    have h' : K.dropWhile blankLine = [] := by simpa using h
    rw [h', dropWhile_blank_cons]
    rfl
  · rw [List.reverse_append, List.reverse_singleton, List.singleton_append, dropWhile_blank_cons]

theorem blockValue_body {ind : Text} (hi : ∀ c ∈ ind, isBlank c = true) (hio : LineOk ind) (K : List Text)
    (hK : ∀ l ∈ K, LineOk l ∧ Tight l) :
    blockValue ('\n' :: (K.flatMap (fun l => ind ++ l ++ ['\n']) ++ ind)) = joinLines (dropBlank K) := by
  unfold blockValue
  have h1 : blockLines false [] ('\n' :: (K.flatMap (fun l => ind ++ l ++ ['\n']) ++ ind)) =
      [] :: (K.map (fun l => ind ++ l) ++ [ind]) := by
    rw [blockLines]
    simp only [if_true, Bool.false_eq_true, if_false]
    rw [blockLines_body hio K (fun l hl => (hK l hl).1)]
  rw [h1]
  simp only
  rw [commonIndent_body hi K (fun l hl => (hK l hl).2)]
  by_cases ha : K.all (fun l => l.isEmpty) = true
  · simp only [ha, if_true, Option.getD_none, List.drop_zero, List.map_id']
    have hbl : blankLine ind = true := List.all_eq_true.mpr hi
    rw [dropBlank_of_blank, dropBlank_of_blank]
    · intro l hl
      have := List.all_eq_true.mp ha l hl
      have hl0 : l = [] := by simpa using this
      rw [hl0]; rfl
    · intro l hl
      rcases List.mem_cons.mp hl with rfl | hl
      · rfl
      · rcases List.mem_append.mp hl with hl | hl
        · obtain ⟨x, hx, rfl⟩ := List.mem_map.mp hl
          have := List.all_eq_true.mp ha x hx
          have hx0 : x = [] := by simpa using this
          rw [hx0, List.append_nil]; exact hbl
        · rw [List.mem_singleton.mp hl]; exact hbl
  · simp only [ha, Bool.false_eq_true, if_false, Option.getD_some, List.map_append, List.map_map, List.map_cons, List.map_nil]
    have e1 : (K.map ((fun l => List.drop ind.length l) ∘ fun l => ind ++ l)) = K := by
      conv => rhs; rw [← List.map_id K]
      apply List.map_congr_left
      intro l _
      simp
    rw [e1]
    have e2 : ind.drop ind.length = [] := List.drop_length
    rw [e2, ← List.cons_append, dropBlank_around]

/-! ## Paragraphs -/

theorem paragraphs_nil_cons (ls : List Text) : paragraphs ([] :: ls) = paragraphs ls := by simp [paragraphs]

theorem paragraphs_empty {E : List Text} (h : ∀ l ∈ E, l = []) : paragraphs E = [] := by
  induction E with
  | nil => rfl
  | cons l E ih =>
    rw [h l List.mem_cons_self, paragraphs_nil_cons]
    exact ih (fun x hx => h x (List.mem_cons_of_mem _ hx))

/-- The paragraphs of a line with something in it and of what follows. -/
theorem paragraphs_cons {l : Text} (hl : l ≠ []) (X : List Text) :
    paragraphs (l :: X) =
      if X.head? = none ∨ X.head? = some [] then [l] :: paragraphs X
      else match paragraphs X with | [] => [[l]] | p :: ps => (l :: p) :: ps := by
  have hl' : l.isEmpty = false := by cases l with | nil => exact absurd rfl hl | cons => rfl
  cases X with
  | nil => simp [paragraphs, hl']
  | cons m X =>
    by_cases hm : m = []
    · subst hm
      rw [paragraphs]
      simp [hl']
    · have hm' : m.isEmpty = false := by cases m with | nil => exact absurd rfl hm | cons => rfl
      rw [paragraphs]
      simp only [hl', hm', Bool.false_eq_true, if_false, List.head?_cons, reduceCtorEq, Option.some.injEq, hm, or_self]
      cases paragraphs (m :: X) <;> rfl

theorem paragraphs_append_empty (M E : List Text) (h : ∀ l ∈ E, l = []) : paragraphs (M ++ E) = paragraphs M := by
  induction M with
  | nil => rw [List.nil_append, paragraphs_empty h]; rfl
  | cons m M ih =>
    by_cases hm : m = []
    · subst hm
      rw [List.cons_append, paragraphs_nil_cons, paragraphs_nil_cons, ih]
    · rw [List.cons_append, paragraphs_cons hm, paragraphs_cons hm, ih]
      cases M with
      | nil =>
        cases E with
        | nil => rfl
        | cons e E =>
          have := h e List.mem_cons_self
          subst this
          simp
      | cons x M => simp

theorem paragraphs_dropBlank (K : List Text) (hK : ∀ l ∈ K, Tight l) : paragraphs (dropBlank K) = paragraphs K := by
  have front : ∀ (K : List Text), (∀ l ∈ K, Tight l) → paragraphs (K.dropWhile blankLine) = paragraphs K := by
    intro K
    induction K with
    | nil => intro _; rfl
    | cons l K ih =>
      intro hK
      rw [List.dropWhile_cons]
      split
      · rename_i hb
        rw [(tight_blank (hK l List.mem_cons_self)).mp hb, paragraphs_nil_cons]
        exact ih (fun x hx => hK x (List.mem_cons_of_mem _ hx))
      · rfl
  rw [← front K hK]
  unfold dropBlank
  generalize hD : K.dropWhile blankLine = D
  have hDK : ∀ l ∈ D, Tight l := by
    intro l hl
    rw [← hD] at hl
    exact hK l ((List.dropWhile_sublist _).mem hl)
  have e : D = (D.reverse.dropWhile blankLine).reverse ++ (D.reverse.takeWhile blankLine).reverse := by
    rw [← List.reverse_append, List.takeWhile_append_dropWhile, List.reverse_reverse]
  conv => rhs; rw [e]
  rw [paragraphs_append_empty]
  intro l hl
  have hm := List.mem_reverse.mp hl
  have hb : blankLine l = true := takeWhile_mem l hm
  have : l ∈ D := List.mem_reverse.mp ((List.takeWhile_sublist _).mem hm)
  exact (tight_blank (hDK l this)).mp hb

theorem trim_eq (l : Text) : trim l = stripped l := by
  unfold stripped
  rw [white_eq]
  rfl

theorem kept_head : ∀ (rest : List Text) (m : Text), stripped m = [] →
    (kept (m :: rest)).head? = none ∨ (kept (m :: rest)).head? = some []
  | [], m, hm => by
    left
    simp [kept, trim_eq, hm, nextEmpty]
  | e :: rest, m, hm => by
    by_cases he : e.isEmpty = true
    · have h0 : e = [] := by simpa using he
      subst h0
      have : kept (m :: [] :: rest) = kept ([] :: rest) := by
        rw [kept]
        simp [trim_eq, hm, nextEmpty]
      rw [this]
      exact kept_head rest [] rfl
    · right
      rw [kept]
      simp [trim_eq, hm, he, nextEmpty]

theorem paragraphs_kept : ∀ (ls : List Text), paragraphs (kept ls) = paragraphs (ls.map stripped)
  | [] => rfl
  | l :: rest => by
    have ih := paragraphs_kept rest
    by_cases hl : stripped l = []
    · have e1 : paragraphs (kept (l :: rest)) = paragraphs (kept rest) := by
        rw [kept]
        split
        · rfl
        · rw [trim_eq, hl, paragraphs_nil_cons]
      rw [e1, List.map_cons, hl, paragraphs_nil_cons, ih]
    · have e1 : kept (l :: rest) = stripped l :: kept rest := by
        rw [kept]
        have : (trim l).isEmpty = false := by
          rw [trim_eq]
          cases h : stripped l with
          | nil => exact absurd h hl
          | cons => rfl
        rw [this, Bool.false_and, if_neg (by simp), trim_eq]
      rw [e1, List.map_cons, paragraphs_cons hl, paragraphs_cons hl, ih]
      have hh : ((kept rest).head? = none ∨ (kept rest).head? = some []) ↔
          ((rest.map stripped).head? = none ∨ (rest.map stripped).head? = some []) := by
        cases rest with
        | nil => simp [kept]
        | cons m rest =>
          by_cases hm : stripped m = []
          · simp only [kept_head rest m hm, List.map_cons, List.head?_cons, hm, or_true]
          · have e2 : kept (m :: rest) = stripped m :: kept rest := by
              rw [kept]
              have : (trim m).isEmpty = false := by
                rw [trim_eq]
                cases h : stripped m with
                | nil => exact absurd h hm
                | cons => rfl
              rw [this, Bool.false_and, if_neg (by simp), trim_eq]
            simp [e2]
      simp only [hh]

theorem kept_mem : ∀ (ls : List Text) (x : Text), x ∈ kept ls → ∃ l ∈ ls, x = stripped l
  | [], x, h => by simp [kept] at h
  | l :: rest, x, h => by
    rw [kept] at h
    split at h
    · obtain ⟨y, hy, e⟩ := kept_mem rest x h
      exact ⟨y, List.mem_cons_of_mem _ hy, e⟩
    · rcases List.mem_cons.mp h with h | h
      · exact ⟨l, List.mem_cons_self, h.trans (trim_eq l)⟩
      · obtain ⟨y, hy, e⟩ := kept_mem rest x h
        exact ⟨y, List.mem_cons_of_mem _ hy, e⟩

/-! ## The lines of the description -/

theorem dropCr_of {l : Text} (h : '\r' ∉ l) : dropCr l = l := by
  unfold dropCr
  split
  · rename_i h'
    exact absurd (List.mem_of_getLast? h') h
  · rfl

theorem linesFrom_eq : ∀ (s cur : Text), '\r' ∉ s → '\r' ∉ cur →
    ∃ E, (E = [] ∨ E = [[]]) ∧ blockLines false cur s = linesFrom cur s ++ E
  | [], cur, _, _ => by
    cases cur with
    | nil => exact ⟨[[]], Or.inr rfl, rfl⟩
    | cons c cur => exact ⟨[], Or.inl rfl, by simp [blockLines, linesFrom]⟩
  | c :: s, cur, hs, hc => by
    have hcr : c ≠ '\r' := fun e => hs (by rw [e]; exact List.mem_cons_self)
    have hs' : '\r' ∉ s := fun h => hs (List.mem_cons_of_mem _ h)
    by_cases hn : c = '\n'
    · obtain ⟨E, hE, e⟩ := linesFrom_eq s [] hs' (by simp)
      refine ⟨E, hE, ?_⟩
      rw [blockLines, linesFrom, if_pos hn, if_pos hn, dropCr_of hc]
      simp [e]
    · obtain ⟨E, hE, e⟩ := linesFrom_eq s (cur ++ [c]) hs' (by simp [hc, Ne.symm hcr])
      refine ⟨E, hE, ?_⟩
      rw [blockLines, linesFrom, if_neg hn, if_neg hn, if_neg hcr, e]

theorem linesFrom_mem : ∀ (s cur : Text), '\r' ∉ s → LineOk cur → ∀ l ∈ linesFrom cur s,
    LineOk l ∧ ∃ a b, cur ++ s = a ++ l ++ b
  | [], cur, _, hc, l, hl => by
    rw [linesFrom] at hl
    split at hl
    · simp at hl
    · rw [List.mem_singleton.mp hl]
      exact ⟨hc, [], [], by simp⟩
  | c :: s, cur, hs, hc, l, hl => by
    have hs' : '\r' ∉ s := fun h => hs (List.mem_cons_of_mem _ h)
    have hcr : c ≠ '\r' := fun e => hs (by rw [e]; exact List.mem_cons_self)
    rw [linesFrom] at hl
    split at hl
    · rename_i hn
      rw [dropCr_of hc.2] at hl
      rcases List.mem_cons.mp hl with h | h
      · rw [h]
        exact ⟨hc, [], c :: s, by simp⟩
      · obtain ⟨h1, a, b, e⟩ := linesFrom_mem s [] hs' ⟨by simp, by simp⟩ l h
        rw [List.nil_append] at e
        exact ⟨h1, cur ++ c :: a, b, by rw [e]; simp⟩
    · rename_i hn
      obtain ⟨h1, a, b, e⟩ := linesFrom_mem s (cur ++ [c]) hs'
        ⟨by simp [hc.1, Ne.symm hn], by simp [hc.2, Ne.symm hcr]⟩ l hl
      exact ⟨h1, a, b, by rw [← e]; simp⟩

theorem paragraphs_dropWhile (ls : List Text) :
    paragraphs ((ls.dropWhile List.isEmpty).map stripped) = paragraphs (ls.map stripped) := by
  induction ls with
  | nil => rfl
  | cons l ls ih =>
    rw [List.dropWhile_cons]
    split
    · rename_i h
      have : l = [] := by simpa using h
      subst this
      rw [ih, List.map_cons]
      exact (paragraphs_nil_cons _).symm
    · rfl

/-- The lines written of a description. -/
theorem kept_lines {s : Text} (hs : '\r' ∉ s) (hq : ¬HoldsQuotes s) : ∀ l ∈ kept ((linesOf s).dropWhile List.isEmpty),
    LineOk l ∧ Tight l ∧ ¬HoldsQuotes l := by
  intro x hx
  obtain ⟨l, hl, rfl⟩ := kept_mem _ x hx
  have hl' : l ∈ linesOf s := (List.dropWhile_sublist _).mem hl
  obtain ⟨h1, a, b, e⟩ := linesFrom_mem s [] hs ⟨by simp, by simp⟩ l hl'
  refine ⟨stripped_ok h1, stripped_tight l, ?_⟩
  intro h
  obtain ⟨a', b', e'⟩ := stripped_infix l
  exact hq ((h.mono e').mono (by simpa using e))

theorem body_no_quotes {ind : Text} (hi : '"' ∉ ind) (K : List Text) (hK : ∀ l ∈ K, ¬HoldsQuotes l) :
    ¬HoldsQuotes (K.flatMap (fun l => ind ++ l ++ ['\n']) ++ ind) := by
  induction K with
  | nil => simpa using holds_of_no_quote hi
  | cons l K ih =>
    have e : List.flatMap (fun l => ind ++ l ++ ['\n']) (l :: K) ++ ind =
        (ind ++ l) ++ '\n' :: (K.flatMap (fun l => ind ++ l ++ ['\n']) ++ ind) := by simp
    rw [e]
    intro h
    rcases holds_split (by decide) h with h | h
    · have key : ∀ (ind l : Text), '"' ∉ ind → HoldsQuotes (ind ++ l) → HoldsQuotes l := by
        intro ind
        induction ind with
        | nil => intro l _ h; exact h
        | cons c ind ih =>
          intro l hc h
          rw [List.cons_append, holds_cons] at h
          rcases h with h | h
          · simp only [List.take_succ_cons, List.cons.injEq] at h
            exact absurd (by rw [h.1]; exact List.mem_cons_self) hc
          · exact ih l (fun h => hc (List.mem_cons_of_mem _ h)) h
      exact hK l List.mem_cons_self (key ind l hi h)
    · exact ih (fun x hx => hK x (List.mem_cons_of_mem _ hx)) h

theorem getLast_body {ind : Text} (hi : ∀ c ∈ ind, c = ' ') (K : List Text) (x : Char) (hx : x ≠ ' ') (hn : x ≠ '\n') :
    ('\n' :: (K.flatMap (fun l => ind ++ l ++ ['\n']) ++ ind)).getLast? ≠ some x := by
  intro h
  by_cases hind : ind = []
  · subst hind
    simp only [List.nil_append, List.append_nil] at h
    have key : ∀ (K : List Text) (pre : Text), pre.getLast? = some '\n' → (pre ++ K.flatMap (fun l => l ++ ['\n'])).getLast? = some '\n' := by
      intro K
      induction K with
      | nil => intro pre h; simpa using h
      | cons l K ih =>
        intro pre _
        have e : pre ++ List.flatMap (fun l => l ++ ['\n']) (l :: K) = (pre ++ (l ++ ['\n'])) ++ K.flatMap (fun l => l ++ ['\n']) := by simp
        rw [e]
        exact ih _ (by simp)
    have := key K ['\n'] rfl
    rw [List.singleton_append, h] at this
    injection this with this
    exact hn this
  · rw [← List.cons_append, List.getLast?_append] at h
    cases hl : ind.getLast? with
    | none => exact hind (List.getLast?_eq_none_iff.mp hl)
    | some y =>
      rw [hl] at h
      injection h with h
      subst h
      exact hx (hi y (List.mem_of_getLast? hl))

theorem skip_spaces {ind : Text} (hi : ∀ c ∈ ind, c = ' ') (r : Text) : skip false (ind ++ r) = skip false r := by
  induction ind with
  | nil => rfl
  | cons c ind ih =>
    rw [hi c List.mem_cons_self, List.cons_append, skip]
    simp only [Bool.false_eq_true, if_false]
    rw [if_pos (by decide)]
    exact ih (fun x hx => hi x (List.mem_cons_of_mem _ hx))

theorem lexToken_block {raw r : Text} (h : lexBlock 0 (raw ++ '"' :: '"' :: '"' :: r) = some (raw, r)) :
    lexToken (skip false ('"' :: '"' :: '"' :: (raw ++ '"' :: '"' :: '"' :: r))) = some (.str (blockValue raw), r) := by
  rw [skip_starts (by constructor <;> decide)]
  have h1 : isPunct '"' = false := by decide
  have h2 : isLetter '"' = false := by decide
  have h3 : isDigit '"' = false := by decide
  have h4 : ('"' : Char) ≠ '-' := by decide
  simp only [lexToken, h1, h2, h3, h4, if_false, Bool.false_eq_true, if_true, h]

theorem lex_description {ind s : Text} (hi : ∀ c ∈ ind, c = ' ') (hq : ¬HoldsQuotes s) (hs : '\r' ∉ s) :
    lex (description ind s) = some [.str (joinLines (dropBlank (kept ((linesOf s).dropWhile List.isEmpty))))] := by
  have hK := kept_lines hs hq
  generalize hKe : kept ((linesOf s).dropWhile List.isEmpty) = K at hK
  have hb : ∀ c ∈ ind, isBlank c = true := by intro c hc; rw [hi c hc]; decide
  have hio : LineOk ind := ⟨fun h => absurd (hi _ h) (by decide), fun h => absurd (hi _ h) (by decide)⟩
  have hv := blockValue_body hb hio K (fun l hl => ⟨(hK l hl).1, (hK l hl).2.1⟩)
  have hnq : ¬HoldsQuotes ('\n' :: (K.flatMap (fun l => ind ++ l ++ ['\n']) ++ ind)) := by
    rw [holds_cons]
    rintro (h | h)
    · simp only [List.take_succ_cons, List.cons.injEq] at h
      exact absurd h.1 (by decide)
    · exact body_no_quotes (fun h => absurd (hi _ h) (by decide)) K (fun l hl => (hK l hl).2.2) h
  have hlb := lexBlock_raw _ ['\n'] hnq (getLast_body hi K _ (by decide) (by decide)) (getLast_body hi K _ (by decide) (by decide))
  have ht := lexToken_block hlb
  rw [hv] at ht
  refine Lexes.lex (.tok (r := ['\n']) ?_ (.done rfl))
  have e : description ind s = ind ++ ('"' :: '"' :: '"' :: ('\n' :: (K.flatMap (fun l => ind ++ l ++ ['\n']) ++ ind) ++
      '"' :: '"' :: '"' :: ['\n'])) := by
    unfold description
    rw [hKe]
    simp
  rw [e, skip_spaces hi]
  exact ht

theorem joinLines_paragraphs (K : List Text) (hK : ∀ l ∈ K, LineOk l ∧ Tight l) :
    paragraphs (blockLines false [] (joinLines (dropBlank K))) = paragraphs K := by
  rw [← paragraphs_dropBlank K (fun l hl => (hK l hl).2)]
  have hsub : ∀ l ∈ dropBlank K, l ∈ K := by
    intro l hl
    unfold dropBlank at hl
    have h1 := List.mem_reverse.mp hl
    have h2 := List.mem_reverse.mp ((List.dropWhile_sublist _).mem h1)
    exact (List.dropWhile_sublist _).mem h2
  by_cases hne : dropBlank K = []
  · rw [hne]
    rfl
  · rw [blockLines_join _ hne (fun l hl => (hK l (hsub l hl)).1)]

theorem lines_paragraphs {s : Text} (hs : '\r' ∉ s) :
    paragraphs ((linesOf s).map stripped) = paragraphs ((blockLines false [] s).map stripped) := by
  obtain ⟨E, hE, e⟩ := linesFrom_eq s [] hs (by simp)
  rw [e, List.map_append, paragraphs_append_empty]
  · rfl
  · rcases hE with rfl | rfl
    · intro l hl; simp at hl
    · intro l hl
      rw [List.map_cons, List.map_nil, List.mem_singleton] at hl
      rw [hl]; rfl

/-! ## The descriptions of the tools -/

theorem lexString_plain (t r : Text) (h1 : '\n' ∉ t) (h2 : '\r' ∉ t) (h3 : '\\' ∉ t) :
    lexString (quotesEscaped t ++ '"' :: r) = some (t, r) := by
  induction t with
  | nil => simp only [quotesEscaped, List.flatMap_nil, List.nil_append]; rw [lexString.eq_def]; simp
  | cons c t ih =>
    have ih := ih (fun h => h1 (List.mem_cons_of_mem _ h)) (fun h => h2 (List.mem_cons_of_mem _ h))
      (fun h => h3 (List.mem_cons_of_mem _ h))
    have c1 : c ≠ '\n' := fun e => h1 (by rw [e]; exact List.mem_cons_self)
    have c2 : c ≠ '\r' := fun e => h2 (by rw [e]; exact List.mem_cons_self)
    have c3 : c ≠ '\\' := fun e => h3 (by rw [e]; exact List.mem_cons_self)
    unfold quotesEscaped at ih ⊢
    rw [List.flatMap_cons, List.append_assoc]
    by_cases hq : c = '"'
    · subst hq
      rw [if_pos rfl]
      simp only [List.cons_append, List.nil_append]
      rw [lexString.eq_def]
      simp [isNewline, escaped, ih, cons1]
    · rw [if_neg hq]
      simp only [List.cons_append, List.nil_append]
      rw [lexString.eq_def]
      simp [isNewline, hq, c1, c2, c3, ih, cons1]

theorem lex_tool {ind s : Text} (hi : ∀ c ∈ ind, c = ' ') (h1 : '\n' ∉ s) (h2 : '\r' ∉ s) (h3 : '\\' ∉ s) :
    lex (descriptionTool ind s) = some [.str (trimEnd s)] := by
  have hsub : ∀ c, c ∈ trimEnd s → c ∈ s := by
    intro c hc
    unfold trimEnd at hc
    exact List.mem_reverse.mp ((List.dropWhile_sublist _).mem (List.mem_reverse.mp hc))
  have hl := lexString_plain (trimEnd s) ['\n'] (fun h => h1 (hsub _ h)) (fun h => h2 (hsub _ h)) (fun h => h3 (hsub _ h))
  have hc : s.contains '\n' = false := by
    cases hc : s.contains '\n' with
    | false => rfl
    | true => exact absurd (by simpa using hc) h1
  refine Lexes.lex (.tok (r := ['\n']) ?_ (.done rfl))
  have e : descriptionTool ind s = ind ++ '"' :: (quotesEscaped (trimEnd s) ++ '"' :: ['\n']) := by
    unfold descriptionTool
    rw [hc]
    simp
  rw [e, skip_spaces hi, skip_starts (by constructor <;> decide)]
  have g1 : isPunct '"' = false := by decide
  have g2 : isLetter '"' = false := by decide
  have g3 : isDigit '"' = false := by decide
  have g4 : ('"' : Char) ≠ '-' := by decide
  simp only [lexToken, g1, g2, g3, g4, if_false, Bool.false_eq_true, if_true]
  generalize hw : quotesEscaped (trimEnd s) ++ '"' :: ['\n'] = w at hl
  split
  · rename_i s'
    exfalso
    cases ht : trimEnd s with
    | nil =>
      rw [ht] at hw
      simp [quotesEscaped] at hw
    | cons c t =>
      rw [ht] at hw
      unfold quotesEscaped at hw
      rw [List.flatMap_cons] at hw
      by_cases hq : c = '"'
      · rw [if_pos hq] at hw
        simp at hw
      · rw [if_neg hq] at hw
        simp only [List.cons_append, List.nil_append, List.cons.injEq] at hw
        exact hq hw.1
  · rw [hl]

end Verif.SdlText
