import Verif.SdlText.Describe

/-!
# Nothing written is a control character

What is written of values and of selections is made of plain characters, so a field set in a string is read as itself.
-/
namespace Verif.SdlText

mutual
theorem plain_display : ∀ (v : Value), v.Ok → ∀ c ∈ display composed v, Plain c
  | .null, _ => by unfold display; intro c hc hcc; revert hcc; revert c; decide
  | .str s, _ => by
    intro c hc hcc
    exfalso
    rw [← isControl_iff] at hcc
    simp only [display, quote, List.cons_append, List.mem_cons, List.mem_append, List.mem_flatMap, List.not_mem_nil, or_false] at hc
    rcases hc with rfl | ⟨x, _, hx⟩ | rfl
    · revert hcc; decide
    · unfold escape at hx
      split at hx
      · simp only [List.mem_cons, List.not_mem_nil, or_false] at hx
        rcases hx with rfl | rfl <;> revert hcc <;> decide
      split at hx
      · simp only [List.mem_cons, List.not_mem_nil, or_false] at hx
        rcases hx with rfl | rfl <;> revert hcc <;> decide
      split at hx
      · simp only [List.mem_cons, List.not_mem_nil, or_false] at hx
        rcases hx with rfl | rfl <;> revert hcc <;> decide
      split at hx
      · simp only [List.mem_cons, List.not_mem_nil, or_false] at hx
        rcases hx with rfl | rfl <;> revert hcc <;> decide
      split at hx
      · simp only [List.mem_cons, List.not_mem_nil, or_false] at hx
        rcases hx with rfl | rfl <;> revert hcc <;> decide
      split at hx
      · simp only [List.mem_cons, pad4, List.mem_append, List.mem_replicate] at hx
        rcases hx with rfl | rfl | ⟨_, rfl⟩ | hx
        · revert hcc; decide
        · revert hcc; decide
        · revert hcc; decide
        · rw [(digit_facts (decimal_digits _ c hx)).2.2.2.2.2.2] at hcc; cases hcc
      · rename_i hn
        rw [List.mem_singleton.mp hx] at hcc
        exact hn hcc
    · revert hcc; decide
  | .int i, _ => by
    intro c hc hcc
    exfalso
    rw [← isControl_iff] at hcc
    cases i with
    | ofNat n => rw [(digit_facts (decimal_digits n c hc)).2.2.2.2.2.2] at hcc; cases hcc
    | negSucc n =>
      rcases List.mem_cons.mp hc with rfl | hc
      · revert hcc; decide
      · rw [(digit_facts (decimal_digits _ c hc)).2.2.2.2.2.2] at hcc; cases hcc
  | .float d, hv => by
    intro c hc hcc
    exfalso
    rw [← isControl_iff] at hcc
    simp only [display, showDec, List.mem_append] at hc
    rcases hc with (hc | hc) | hc
    · split at hc
      · rw [List.mem_singleton.mp hc] at hcc; revert hcc; decide
      · simp at hc
    · rw [(digit_facts (decimal_digits _ c hc)).2.2.2.2.2.2] at hcc; cases hcc
    · split at hc
      · simp at hc
      · rcases List.mem_cons.mp hc with rfl | hc
        · revert hcc; decide
        · obtain ⟨x, hx, rfl⟩ := List.mem_map.mp hc
          rw [(digit_facts (digit_spec x (hv x hx)).1).2.2.2.2.2.2] at hcc; cases hcc
  | .bool true, _ => by unfold display; intro c hc hcc; revert hcc; revert c; decide
  | .bool false, _ => by unfold display; intro c hc hcc; revert hcc; revert c; decide
  | .enum n, hv => fun c hc => plain_name hv.1 c hc
  | .list vs, hv => by
    intro c hc
    simp only [display, List.cons_append, List.mem_cons, List.mem_append, List.not_mem_nil, or_false] at hc
    rcases hc with rfl | hc | rfl
    · intro h; revert h; decide
    · exact plain_list vs hv c hc
    · intro h; revert h; decide
  | .object fs, hv => by
    intro c hc
    simp only [display, List.cons_append, List.mem_cons, List.mem_append, List.not_mem_nil, or_false] at hc
    rcases hc with rfl | hc | rfl
    · intro h; revert h; decide
    · exact plain_fields fs hv c hc
    · intro h; revert h; decide
theorem plain_list : ∀ (vs : List Value), OkList vs → ∀ c ∈ displayList composed vs, Plain c
  | [], _ => by intro c hc; simp [displayList] at hc
  | v :: vs, hv => by
    intro c hc
    simp only [displayList, List.mem_append] at hc
    rcases hc with hc | hc
    · exact plain_display v hv.1 c hc
    · split at hc
      · simp at hc
      · rcases List.mem_append.mp hc with hc | hc
        · intro h
          exfalso
          simp only [composed, List.mem_cons, List.not_mem_nil, or_false] at hc
          rcases hc with rfl | rfl <;> revert h <;> decide
        · exact plain_list vs hv.2 c hc
theorem plain_fields : ∀ (fs : List (Text × Value)), OkFields fs → ∀ c ∈ displayFields composed fs, Plain c
  | [], _ => by intro c hc; simp [displayFields] at hc
  | (k, v) :: fs, hv => by
    intro c hc
    simp only [displayFields, List.mem_append] at hc
    rcases hc with ((hc | hc) | hc) | hc
    · exact plain_name hv.1 c hc
    · intro h
      exfalso
      simp only [composed, List.mem_cons, List.not_mem_nil, or_false] at hc
      rcases hc with rfl | rfl <;> revert h <;> decide
    · exact plain_display v hv.2.1 c hc
    · split at hc
      · simp at hc
      · rcases List.mem_append.mp hc with hc | hc
        · intro h
          exfalso
          simp only [composed, List.mem_cons, List.not_mem_nil, or_false] at hc
          rcases hc with rfl | rfl <;> revert h <;> decide
        · exact plain_fields fs hv.2.2 c hc
theorem plain_name {n : Text} (hn : IsName n) : ∀ c ∈ n, Plain c := by
  obtain ⟨x, s, rfl, hx, hs⟩ := hn
  intro c hc h
  exfalso
  rw [← isControl_iff] at h
  rcases List.mem_cons.mp hc with rfl | hc
  · rw [(letter_facts hx).2.2.2.2.2.2] at h; cases h
  · rw [(nameChar_facts (hs c hc)).2.2.2.2.2.2] at h; cases h
end

theorem plain_args (args : List (Text × Value)) (h : OkFields args) : ∀ c ∈ displayArgs args, Plain c := by
  intro c hc
  unfold displayArgs at hc
  split at hc
  · simp at hc
  · simp only [List.cons_append, List.mem_cons, List.mem_append, List.not_mem_nil, or_false] at hc
    rcases hc with rfl | hc | rfl
    · intro h; revert h; decide
    · exact plain_fields args h c hc
    · intro h; revert h; decide

mutual
theorem plain_sel : ∀ (s : Sel), s.Ok → ∀ c ∈ displaySel s, Plain c
  | .field n args sub, hv => by
    intro c hc
    simp only [displaySel, List.mem_append] at hc
    rcases hc with (hc | hc) | hc
    · exact plain_name hv.1 c hc
    · exact plain_args args hv.2.2.1 c hc
    · split at hc
      · simp at hc
      · simp only [List.mem_append] at hc
        rcases hc with (hc | hc) | hc
        · intro h
          exfalso
          simp only [List.mem_cons, List.not_mem_nil, or_false] at hc
          rcases hc with rfl | rfl | rfl <;> revert h <;> decide
        · exact plain_sels sub hv.2.2.2.2 c hc
        · intro h
          exfalso
          simp only [List.mem_cons, List.not_mem_nil, or_false] at hc
          rcases hc with rfl | rfl <;> revert h <;> decide
  | .fragment on sub, hv => by
    intro c hc
    simp only [displaySel, List.mem_append] at hc
    rcases hc with (((hc | hc) | hc) | hc) | hc
    · intro h
      exfalso
      revert h; revert c; decide
    · exact plain_name hv.1 c hc
    · intro h
      exfalso
      revert h; revert c; decide
    · exact plain_sels sub hv.2.2 c hc
    · intro h
      exfalso
      revert h; revert c; decide
  | .typename, _ => by
    intro c hc h
    simp only [displaySel] at hc
    exfalso
    revert h; revert c; decide
theorem plain_sels : ∀ (ss : List Sel), OkSels ss → ∀ c ∈ displaySels ss, Plain c
  | [], _ => by intro c hc; simp [displaySels] at hc
  | s :: ss, hv => by
    intro c hc
    simp only [displaySels, List.mem_append] at hc
    rcases hc with hc | hc
    · exact plain_sel s hv.1 c hc
    · split at hc
      · simp at hc
      · rcases List.mem_cons.mp hc with rfl | hc
        · intro h; revert h; decide
        · exact plain_sels ss hv.2 c hc
end

end Verif.SdlText
