import Verif.SdlText.Plain

/-!
# C78: what is written into SDL is read as what it was

The values, directives, field sets and descriptions written into the SDL of the federated graph, of the API, of the schema of
the engine and of its tools.

The full claim is false (`Demo`). The theorems say exactly which strings and values are read as themselves, and what is
kept of descriptions.
-/
namespace Verif.SdlText

/-- A string is read as itself exactly when its control characters, but for those with an escape of their own, have codes
below ten. Partial: the others are written with their code in decimal and read as other characters. -/
theorem C78_string_partial (s : Text) : lex (quote s) = some [.str s] ↔ ∀ c ∈ s, Plain c := by
  have h := (Lexes.quote (s := s) (r := []) (ts := []) rfl (.done rfl)).lex
  rw [List.append_nil] at h
  rw [h, ← map_misChar_iff]
  simp

/-- A value is read as itself exactly when its strings are, and its numbers of type `f64` are not whole; both writers.
Partial: the others are read as other values. -/
theorem C78_value_partial (st : Style) (hst : st = composed ∨ st = engine) (v : Value) (hv : v.Ok) :
    readValue (display st v) = some v ↔ v.Faithful := by
  rw [readValue_display hst v hv, ← misread_iff]
  simp

/-- Every value written is a value: nothing else is read, in place of a string there is a string of the same length, in place
of a whole number of type `f64` the integer. -/
theorem C78_value_reads (st : Style) (hst : st = composed ∨ st = engine) (v : Value) (hv : v.Ok) :
    readValue (display st v) = some (misread v) := readValue_display hst v hv

/-- A directive is read as itself exactly when the values of its arguments are. Partial as above. -/
theorem C78_directive_partial (n : Text) (args : List (Text × Value)) (hn : IsName n) (ha : OkFields args) :
    readDirective (directive n args) = some (n, args) ↔ FaithfulFields args := by
  rw [readDirective_directive hn ha, ← misreadFields_iff]
  simp

/-- A field set is written as a string in which the selections are read as themselves. -/
theorem C78_field_set (ss : List Sel) (h : OkSels ss) :
    readFieldSet (displaySels ss) = some ss ∧ readValue (fieldSet ss) = some (.str (displaySels ss)) := by
  refine ⟨?_, ?_⟩
  · have hl := (lexes_sels ss h [] [] rfl (.done rfl)).lex
    rw [List.append_nil, List.append_nil] at hl
    have hp := parse_sels ss h ((toksSels ss).length + 1) [] (Or.inl rfl) (Nat.lt_succ_self _)
    rw [List.append_nil] at hp
    unfold readFieldSet
    rw [hl]
    simp only [hp]
  · exact (C78_value_partial composed (Or.inl rfl) (.str (displaySels ss)) trivial).mpr (plain_sels ss h)

/-- The description of a definition in the schema of the engine is a string, read as itself exactly when its characters are
plain. Partial as above. -/
theorem C78_quoted_description_partial (ind s : Text) (hi : ∀ c ∈ ind, c = ' ') :
    lex (descriptionQuoted ind s) = some [.str s] ↔ ∀ c ∈ s, Plain c := by
  have h := (Lexes.of_skip (skip_spaces hi _) (Lexes.quote (s := s) (r := ['\n']) (ts := []) rfl (.done rfl))).lex
  have e : descriptionQuoted ind s = ind ++ (quote s ++ ['\n']) := by unfold descriptionQuoted; simp
  rw [e, h, ← map_misChar_iff]
  simp

/-- A description in the federated graph is one string, with the paragraphs of the description: the lines without the white
space around them, and where there is an empty one between them. Partial: the description holds no three quotes and no
carriage return; the indentation of its lines and how many empty lines there are is lost. -/
theorem C78_description_partial (ind s : Text) (hi : ∀ c ∈ ind, c = ' ') (hq : ¬HoldsQuotes s) (hs : '\r' ∉ s) :
    ∃ v, lex (description ind s) = some [.str v] ∧
      paragraphs (blockLines false [] v) = paragraphs ((blockLines false [] s).map stripped) := by
  refine ⟨_, lex_description hi hq hs, ?_⟩
  rw [joinLines_paragraphs _ (fun l hl => ⟨(kept_lines hs hq l hl).1, (kept_lines hs hq l hl).2.1⟩), paragraphs_kept,
    paragraphs_dropWhile, lines_paragraphs hs]

/-- A description of one line in the SDL of the tools is read as itself, without the white space at its end. Partial: it holds
no backslash and no carriage return. -/
theorem C78_tool_description_partial (ind s : Text) (hi : ∀ c ∈ ind, c = ' ') (hn : '\n' ∉ s) (hr : '\r' ∉ s)
    (hb : '\\' ∉ s) : lex (descriptionTool ind s) = some [.str (strippedEnd s)] := by
  rw [strippedEnd_eq]
  exact lex_tool hi hn hr hb

namespace Demo

/-- A string, a list, an object and a number are read as they were. -/
def value : Value := .object [("a".toList, .list [.str "say \"x\"\n".toList, .int (-12), .float ⟨true, 0, [5]⟩]),
  ("b".toList, .enum "RED".toList), ("c".toList, .null), ("d".toList, .bool true)]

theorem value_ok : value.Ok := by
  refine ⟨⟨'a', [], rfl, rfl, by simp⟩, ⟨trivial, trivial, by simp [Value.Ok], trivial⟩, ⟨'b', [], rfl, rfl, by simp⟩,
    ⟨⟨'R', ['E', 'D'], rfl, rfl, by decide⟩, by decide, by decide, by decide⟩, ⟨'c', [], rfl, rfl, by simp⟩, trivial,
    ⟨'d', [], rfl, rfl, by simp⟩, trivial, trivial⟩

theorem value_faithful : value.Faithful := by
  refine ⟨⟨?_, trivial, by simp [Value.Faithful], trivial⟩, trivial, trivial, trivial, trivial⟩
  show ∀ c ∈ "say \"x\"\n".toList, Plain c
  unfold Plain
  decide

theorem value_read : readValue (display composed value) = some value ∧ readValue (display engine value) = some value :=
  ⟨(C78_value_partial _ (Or.inl rfl) _ value_ok).mpr value_faithful, (C78_value_partial _ (Or.inr rfl) _ value_ok).mpr value_faithful⟩

theorem value_text : display composed (.object [("a".toList, .list [.str "x\"y".toList, .int (-12)]), ("b".toList, .float ⟨true, 0, [5]⟩)]) =
    "{a: [\"x\\\"y\", -12], b: -0.5}".toList := by rfl

theorem directive_read : readDirective (directive "join__type".toList [("graph".toList, .enum "A".toList), ("key".toList, .str "id".toList)]) =
    some ("join__type".toList, [("graph".toList, .enum "A".toList), ("key".toList, .str "id".toList)]) := by
  refine (C78_directive_partial _ [(_, .enum _), (_, .str _)] ⟨'j', _, rfl, rfl, by decide⟩ ⟨⟨'g', _, rfl, rfl, by decide⟩,
    ⟨⟨'A', [], rfl, rfl, by simp⟩, by decide, by decide, by decide⟩, ⟨'k', _, rfl, rfl, by decide⟩, trivial, trivial⟩).mpr ⟨trivial, ?_, trivial⟩
  show ∀ c ∈ "id".toList, Plain c
  unfold Plain
  decide

/-- `id owner(first: 1) { ... on User { __typename name } }`. -/
def selections : List Sel := [.field "id".toList [] [],
  .field "owner".toList [("first".toList, .int 1)] [.fragment "User".toList [.typename, .field "name".toList [] []]]]

theorem selections_ok : OkSels selections :=
  ⟨⟨⟨'i', _, rfl, rfl, by decide⟩, by decide, trivial, trivial, trivial⟩,
   ⟨⟨'o', _, rfl, rfl, by decide⟩, by decide, ⟨⟨'f', _, rfl, rfl, by decide⟩, trivial, trivial⟩, ⟨trivial, trivial⟩,
    ⟨⟨⟨'U', _, rfl, rfl, by decide⟩, by simp, trivial, ⟨⟨'n', _, rfl, rfl, by decide⟩, by decide, trivial, trivial, trivial⟩, trivial⟩, trivial⟩⟩,
   trivial⟩

theorem selections_text : displaySels selections = "id owner(first: 1) { ... on User { __typename name } }".toList := by rfl

theorem selections_read : readFieldSet (displaySels selections) = some selections := (C78_field_set _ selections_ok).1

theorem description_read : lex (description "  ".toList "A b\n\n  c\nd".toList) = some [.str "A b\n\nc\nd".toList] := by rfl

theorem description_hypotheses : (¬HoldsQuotes "A b\n\n  c\nd".toList) ∧ '\r' ∉ "A b\n\n  c\nd".toList := by
  refine ⟨?_, by decide⟩
  rintro ⟨a, b, h⟩
  have : '"' ∈ "A b\n\n  c\nd".toList := by rw [h]; simp
  revert this
  decide

theorem tool_read : lex (descriptionTool "  ".toList "the \"id\" ".toList) = some [.str "the \"id\"".toList] := by decide +kernel

/-- A control character is written as another one: the code is in decimal, and read in hexadecimal. -/
theorem C78_string_false : readValue (quote [Char.ofNat 31]) = some (.str ['1']) := by rfl

/-- A description ends the string it is in, and the rest of it is read as definitions. -/
theorem C78_injection_false : lex (description [] "\"\"\" scalar X \"\"\"".toList) =
    some [.str [], .name "scalar".toList, .name "X".toList, .str []] := by rfl

/-- A description with quotes in the middle of a word: the SDL is not read. -/
theorem C78_unreadable_false : lex (description [] "a \"\"\" b".toList) = none := by rfl

/-- A number with an empty fraction is read as an integer. -/
theorem C78_float_false : readValue (display composed (.float ⟨false, 1, []⟩)) = some (.int 1) := by rfl

/-- The indentation of lines is lost. -/
theorem C78_indentation_false : lex (description [] "list:\n  - a\n    - b".toList) = some [.str "list:\n- a\n- b".toList] := by rfl

/-- A description for the tools that ends with a backslash ends no string. -/
theorem C78_tool_false : lex (descriptionTool [] "a \\".toList) = none := by rfl

/-- One with a backslash and an `n` is read with a newline. -/
theorem C78_tool_escape_false : lex (descriptionTool [] "a\\nb".toList) = some [.str "a\nb".toList] := by rfl

/-- One of two lines with quotes is read with backslashes. -/
theorem C78_tool_quotes_false : lex (descriptionTool [] "\"a\"\nb".toList) = some [.str "\\\"a\\\"\nb".toList] := by rfl

end Demo

end Verif.SdlText
