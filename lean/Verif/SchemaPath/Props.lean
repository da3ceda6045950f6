import Verif.SchemaPath.Lemmas
/-!
# C29: schema paths round-trip through their text form
-/
namespace Verif.SchemaPath

/-- Every path made of GraphQL names and `usize` indices is read back from its text. -/
theorem C29_roundtrip (p : Path) (h : p.Valid) : parse p.write = .ok p := by
  cases p with
  | schema => decide +kernel
  | schemaExt i =>
    have hd : '.' ∉ schemaLit ++ writeIndex i := by
      intro hc
      rcases List.mem_append.1 hc with hc | hc
      · revert hc; decide
      · exact writeIndex_dot i hc
    have hs : stripPrefix schemaLit (schemaLit ++ writeIndex i) = some (writeIndex i) := by
      unfold stripPrefix
      rw [if_pos (List.isPrefixOf_iff_prefix.2 (List.prefix_append _ _)), List.drop_left]
    have hw : writeIndex i ≠ [] := by simp [writeIndex]
    have hne : schemaLit ++ writeIndex i ≠ [] := by simp [writeIndex]
    have hi : parseIndex (writeIndex i) = .ok i := parseIndex_write h
    unfold parse Path.write
    rw [splitDot_plain hd]
    simp only [if_neg hne, hs, if_neg hw, hi, Res.bind]
    rfl
  | type n t =>
    cases t with
    | none =>
      have hs := strip_name h []
      simp only [List.append_nil] at hs
      simp only [parse, Path.write, splitDot_plain (name_dot h), if_neg hs.1, hs.2.1, hs.2.2.2, nameIndex_plain h,
        Res.bind, parseInType]
    | some t =>
      obtain ⟨h1, h2⟩ := h
      have hs := strip_name h1 []
      simp only [List.append_nil] at hs
      simp only [parse, Path.write, splitDot_append (name_dot h1), if_neg hs.1, hs.2.1, hs.2.2.2, nameIndex_plain h1,
        Res.bind, inType_write h2]
  | typeExt n i t =>
    cases t with
    | none =>
      obtain ⟨h1, h2⟩ := h
      have hs := strip_name h1 (writeIndex i)
      have hd : '.' ∉ n ++ writeIndex i := by
        intro hc
        rcases List.mem_append.1 hc with hc | hc
        · exact name_dot h1 hc
        · exact writeIndex_dot i hc
      simp only [parse, Path.write, splitDot_plain hd, if_neg hs.1, hs.2.1, hs.2.2.2, nameIndex_write h1 h2,
        Res.bind, parseInType]
    | some t =>
      obtain ⟨h1, h2, h3⟩ := h
      have hs := strip_name h1 (writeIndex i)
      have hd : '.' ∉ n ++ writeIndex i := by
        intro hc
        rcases List.mem_append.1 hc with hc | hc
        · exact name_dot h1 hc
        · exact writeIndex_dot i hc
      simp only [parse, Path.write, splitDot_append hd, if_neg hs.1, hs.2.1, hs.2.2.2, nameIndex_write h1 h2,
        Res.bind, inType_write h3]
  | directiveDef n =>
    have hd : '.' ∉ '@' :: n := by
      intro hc
      rcases List.mem_cons.1 hc with hc | hc
      · revert hc; decide
      · exact name_dot h hc
    have hs : stripPrefix schemaLit ('@' :: n) = none := by
      unfold stripPrefix
      rw [if_neg]
      simp [schemaLit, List.isPrefixOf]
    simp only [parse, Path.write, splitDot_plain hd, hs, stripPrefix_eq, (validName_iff n).2 h]
    simp

/-- Distinct paths have distinct texts. -/
theorem C29_injective (p q : Path) (hp : p.Valid) (hq : q.Valid) (h : p.write = q.write) : p = q := by
  have := C29_roundtrip p hp
  rw [h, C29_roundtrip q hq] at this
  exact (Res.ok.inj this).symm

/-- Whatever text is read, the path that comes out is made of GraphQL names and `usize` indices. -/
theorem C29_parse_valid (s : Str) (p : Path) (h : parse s = .ok p) : p.Valid := by
  have hfield : ∀ l f, parseInField l = .ok (some f) → f.Valid := by
    intro l f hl
    unfold parseInField at hl
    split at hl
    · cases hl
    · split at hl
      · cases hl
      · split at hl
        · cases hl
        · split at hl
          · obtain ⟨⟨n, i⟩, h1, h2⟩ := bind_ok hl
            obtain ⟨g1, g2⟩ := nameIndex_valid h1
            cases i with
            | none => cases h2
            | some i => cases h2; exact ⟨g1, g2 i rfl⟩
          · split at hl
            · cases hl
            · rename_i hv
              cases hl
              exact (validName_iff _).1 (by simpa using hv)
  have htype : ∀ l t, parseInType l = .ok (some t) → t.Valid := by
    intro l t hl
    unfold parseInType at hl
    split at hl
    · cases hl
    · split at hl
      · cases hl
      · split at hl
        · obtain ⟨⟨n, i⟩, h1, h2⟩ := bind_ok hl
          obtain ⟨g1, g2⟩ := nameIndex_valid h1
          simp only at h2
          split at h2
          · cases h2
          · cases i with
            | none => cases h2
            | some i => cases h2; exact ⟨g1, g2 i rfl⟩
        · split at hl
          · split at hl
            · cases hl
            · rename_i hv
              split at hl
              · cases hl
              · cases hl; exact (validName_iff _).1 (by simpa using hv)
          · split at hl
            · cases hl
            · rename_i hv
              have hv := (validName_iff _).1 (by simpa using hv)
              obtain ⟨f, h1, h2⟩ := bind_ok hl
              cases h2
              cases f with
              | none => exact hv
              | some f => exact ⟨hv, hfield _ f h1⟩
  unfold parse at h
  split at h
  · cases h
  · split at h
    · cases h
    · split at h
      · split at h
        · cases h
        · split at h
          · cases h; trivial
          · obtain ⟨n, h1, h2⟩ := bind_ok h
            cases h2
            exact parseIndex_lt h1
      · split at h
        · split at h
          · cases h
          · rename_i hv
            split at h
            · cases h
            · cases h; exact (validName_iff _).1 (by simpa using hv)
        · obtain ⟨⟨n, i⟩, h1, h2⟩ := bind_ok h
          obtain ⟨g1, g2⟩ := nameIndex_valid h1
          cases i with
          | some i =>
            obtain ⟨t, h3, h4⟩ := bind_ok h2
            cases h4
            cases t with
            | none => exact ⟨g1, g2 i rfl⟩
            | some t => exact ⟨g1, g2 i rfl, htype _ t h3⟩
          | none =>
            obtain ⟨t, h3, h4⟩ := bind_ok h2
            cases h4
            cases t with
            | none => exact g1
            | some t => exact ⟨g1, htype _ t h3⟩

/-- Text that is read as a path is that path's text, up to a `+` and leading zeros in an index: nothing in
the text is ignored. -/
theorem C29_parse_text (s : Str) (p : Path) (h : parse s = .ok p) : p.Spells s := by
  have hfield : ∀ u f, parseInField (splitDot u) = .ok (some f) → f.Spells u := by
    intro u f hl
    unfold parseInField at hl
    split at hl
    · cases hl
    · rename_i seg rest he
      split at hl
      · cases hl
      · split at hl
        · cases hl
        · rename_i hr
          rcases splitDot_cons he with ⟨-, rfl⟩ | ⟨b, -, hb⟩
          · split at hl
            · rename_i suffix hs
              obtain ⟨⟨n, i⟩, h1, h2⟩ := bind_ok hl
              have := nameIndex_text h1
              cases i with
              | none => cases h2
              | some i =>
                cases h2
                obtain ⟨t, ht, rfl⟩ := this
                exact ⟨t, ht, stripPrefix_some hs⟩
            · split at hl
              · cases hl
              · cases hl; rfl
          · exact absurd (hb ▸ splitDot_ne b) (by simpa using hr)
  have htype : ∀ u t, parseInType (splitDot u) = .ok (some t) → t.Spells u := by
    intro u t hl
    unfold parseInType at hl
    split at hl
    · cases hl
    · rename_i seg rest he
      split at hl
      · cases hl
      · split at hl
        · rename_i suffix hs
          obtain ⟨⟨n, i⟩, h1, h2⟩ := bind_ok hl
          have := nameIndex_text h1
          simp only at h2
          split at h2
          · cases h2
          · rename_i hr
            rcases splitDot_cons he with ⟨-, rfl⟩ | ⟨b, -, hb⟩
            · cases i with
              | none => cases h2
              | some i =>
                cases h2
                obtain ⟨t, ht, rfl⟩ := this
                exact ⟨t, ht, stripPrefix_some hs⟩
            · exact absurd (hb ▸ splitDot_ne b) (by simpa using hr)
        · split at hl
          · rename_i suffix hs
            split at hl
            · cases hl
            · split at hl
              · cases hl
              · rename_i hr
                rcases splitDot_cons he with ⟨-, rfl⟩ | ⟨b, -, hb⟩
                · cases hl; exact stripPrefix_some hs
                · exact absurd (hb ▸ splitDot_ne b) (by simpa using hr)
          · split at hl
            · cases hl
            · obtain ⟨f, h1, h2⟩ := bind_ok hl
              cases h2
              rcases splitDot_cons he with ⟨rfl, rfl⟩ | ⟨b, rfl, rfl⟩
              · cases h1; rfl
              · cases f with
                | none =>
                  cases hb : splitDot b with
                  | nil => exact absurd hb (splitDot_ne b)
                  | cons x y =>
                    rw [hb] at h1
                    unfold parseInField at h1
                    simp only at h1
                    split at h1
                    · cases h1
                    · split at h1
                      · cases h1
                      · split at h1
                        · obtain ⟨⟨n, i⟩, -, h2⟩ := bind_ok h1
                          cases i <;> cases h2
                        · split at h1 <;> cases h1
                | some f => exact ⟨b, hfield b f h1, rfl⟩
  have htype0 : ∀ b, parseInType (splitDot b) ≠ .ok none := by
    intro b h1
    cases hb : splitDot b with
    | nil => exact absurd hb (splitDot_ne b)
    | cons x y =>
      rw [hb] at h1
      unfold parseInType at h1
      simp only at h1
      split at h1
      · cases h1
      · split at h1
        · obtain ⟨⟨n, i⟩, -, h2⟩ := bind_ok h1
          simp only at h2
          split at h2
          · cases h2
          · cases i <;> cases h2
        · split at h1
          · split at h1
            · cases h1
            · split at h1 <;> cases h1
          · split at h1
            · cases h1
            · obtain ⟨f, -, h2⟩ := bind_ok h1
              cases h2
  unfold parse at h
  split at h
  · cases h
  · rename_i first rest he
    split at h
    · cases h
    · split at h
      · rename_i suffix hs
        split at h
        · cases h
        · rename_i hr
          rcases splitDot_cons he with ⟨-, rfl⟩ | ⟨b, -, hb⟩
          · split at h
            · rename_i hn
              cases h
              rw [stripPrefix_some hs, hn]
              simp [Path.Spells, schemaLit]
            · obtain ⟨n, h1, h2⟩ := bind_ok h
              cases h2
              exact ⟨suffix, parseIndex_text h1, by rw [stripPrefix_some hs]; simp [schemaLit]⟩
          · exact absurd (hb ▸ splitDot_ne b) (by simpa using hr)
      · split at h
        · rename_i suffix hs
          split at h
          · cases h
          · split at h
            · cases h
            · rename_i hr
              rcases splitDot_cons he with ⟨-, rfl⟩ | ⟨b, -, hb⟩
              · cases h; exact stripPrefix_some hs
              · exact absurd (hb ▸ splitDot_ne b) (by simpa using hr)
        · obtain ⟨⟨n, i⟩, h1, h2⟩ := bind_ok h
          have ht := nameIndex_text h1
          cases i with
          | some i =>
            obtain ⟨t, ht, hf⟩ := ht
            obtain ⟨t', h3, h4⟩ := bind_ok h2
            cases h4
            rcases splitDot_cons he with ⟨rfl, rfl⟩ | ⟨b, rfl, rfl⟩
            · cases h3; exact ⟨t, ht, hf⟩
            · cases t' with
              | none => exact absurd h3 (htype0 b)
              | some t' => exact ⟨t, b, ht, htype b t' h3, by rw [hf]⟩
          | none =>
            simp only at ht
            obtain ⟨t', h3, h4⟩ := bind_ok h2
            cases h4
            rcases splitDot_cons he with ⟨rfl, rfl⟩ | ⟨b, rfl, rfl⟩
            · cases h3; exact ht
            · cases t' with
              | none => exact absurd h3 (htype0 b)
              | some t' => exact ⟨b, htype b t' h3, by rw [ht]⟩

/-- Reading never crashes on ASCII text. -/
theorem C29_no_crash_partial (s : Str) (h : ∀ c ∈ s, c.toNat < 128) : parse s ≠ .panic := by
  have hname : ∀ seg : Str, (∀ c ∈ seg, c.toNat < 128) → nameIndex seg ≠ .panic := fun seg => nameIndex_ascii
  have hfield : ∀ l : List Str, (∀ seg ∈ l, ∀ c ∈ seg, c.toNat < 128) → parseInField l ≠ .panic := by
    intro l hl
    unfold parseInField
    split
    · simp
    · rename_i seg rest
      split
      · simp
      · split
        · simp
        · split
          · rename_i suffix hs
            apply bind_ne_panic (hname suffix fun c hc => hl seg (by simp) c (stripPrefix_mem hs c hc))
            rintro ⟨n, i⟩
            cases i <;> simp
          · split <;> simp
  have htype : ∀ l : List Str, (∀ seg ∈ l, ∀ c ∈ seg, c.toNat < 128) → parseInType l ≠ .panic := by
    intro l hl
    unfold parseInType
    split
    · simp
    · rename_i seg rest
      split
      · simp
      · split
        · rename_i suffix hs
          apply bind_ne_panic (hname suffix fun c hc => hl seg (by simp) c (stripPrefix_mem hs c hc))
          rintro ⟨n, i⟩
          simp only
          split
          · simp
          · cases i <;> simp
        · split
          · split
            · simp
            · split <;> simp
          · split
            · simp
            · exact bind_ne_panic (hfield rest fun s hs => hl s (by simp [hs])) (by simp)
  have hseg : ∀ seg ∈ splitDot s, ∀ c ∈ seg, c.toNat < 128 := fun seg hs c hc => h c (splitDot_mem seg hs c hc)
  unfold parse
  split
  · simp
  · rename_i first rest he
    rw [he] at hseg
    have hr := htype rest fun s hs => hseg s (by simp [hs])
    split
    · simp
    · split
      · split
        · simp
        · split
          · simp
          · exact bind_ne_panic (parseIndex_ne_panic _) (by simp)
      · split
        · split
          · simp
          · split <;> simp
        · apply bind_ne_panic (hname first (hseg first (by simp)))
          rintro ⟨n, i⟩
          cases i with
          | none => exact bind_ne_panic hr (by simp)
          | some i => exact bind_ne_panic hr (by simp)

/-- **The claim is false**: the position of `[` counts characters but is used as a byte offset, so a
character of more than one byte before it makes the parser crash. -/
theorem C29_false : parse "é[0]".toList = .panic ∧ parse "a.@é[0]".toList = .panic := by
  decide +kernel

/-- Two texts may be read as the same path. -/
theorem C29_not_unique : parse "a[+3]".toList = parse "a[3]".toList ∧ parse "a[03]".toList = parse "a[3]".toList := by
  decide +kernel

/-! Paths that are valid, and their texts. -/
example : (Path.typeExt "A".toList 10 (some (.field "id_1".toList (some (.directive "key".toList 3))))).Valid := by
  refine ⟨(validName_iff _).1 (by decide), by decide, (validName_iff _).1 (by decide),
    (validName_iff _).1 (by decide), by decide⟩
example : (Path.typeExt "A".toList 10 (some (.field "id_1".toList (some (.directive "key".toList 3))))).write =
    "A[10].id_1.@key[3]".toList := by
  decide +kernel
example : parse "a.&B".toList = .ok (.type "a".toList (some (.interface "B".toList))) ∧ parse "a.&B.c".toList = .err := by
  decide +kernel

end Verif.SchemaPath
