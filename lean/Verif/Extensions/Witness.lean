import Verif.Extensions.Lemmas

/-!
# Some versions

Five versions with their texts and their order. A requirement is an interval.
-/
namespace Verif.Extensions.Witness

open Verif.Extensions

def texts : List Text := ["0.1.0".toList, "0.1.2".toList, "0.20.0".toList, "1.0.0-1.2.3".toList, "1.2.3".toList]

def parseIn : List Text → Text → Option Nat
  | [], _ => none
  | x :: rest, t => if x = t then some 0 else (parseIn rest t).map (· + 1)

def parse (t : Text) : Option (Fin 5) :=
  (parseIn texts t).bind (fun i => if h : i < 5 then some ⟨i, h⟩ else none)

/-- `^0.1.0`, `^0.20.0`, `^1.0.0` -/
def caret (t : Text) : Option (Fin 6 × Fin 6) :=
  if t = "0.1.0".toList then some (0, 2)
  else if t = "0.20.0".toList then some (2, 3)
  else if t = "1.0.0".toList then some (4, 5)
  else none

/-- A part of `semver`. -/
def some5 : Semver (Fin 5) (Fin 6 × Fin 6) where
  parse := parse
  text v := (texts[v.val]?).getD []
  lt a b := decide (a < b)
  caret := caret
  satisfies r v := decide (r.1.val ≤ v.val) && decide (v.val < r.2.val)

theorem parseIn_sound (xs : List Text) (t : Text) : ∀ i, parseIn xs t = some i → xs[i]? = some t := by
  induction xs with
  | nil => intro i h; cases h
  | cons x rest ih =>
    intro i h
    simp only [parseIn] at h
    by_cases hx : x = t
    · rw [if_pos hx] at h; cases h; rw [hx]; rfl
    · rw [if_neg hx] at h
      obtain ⟨j, hj, rfl⟩ := Option.map_eq_some_iff.1 h
      exact ih j hj

theorem laws : some5.Laws where
  irrefl := by decide
  trans := by decide
  total := by decide
  parse_text := by decide
  text_parse := by
    intro t v h
    have h' : parse t = some v := h
    unfold parse at h'
    obtain ⟨i, hi, hv⟩ := Option.bind_eq_some_iff.1 h'
    by_cases hl : i < 5
    · rw [dif_pos hl] at hv
      cases hv
      show (texts[i]?).getD [] = t
      rw [parseIn_sound _ _ _ hi]; rfl
    · rw [dif_neg hl] at hv; cases hv

/-- The files of the test `with_versions_existing`: the manifests have the version 0.1.0, whatever the directory. -/
def disk : Disk (Fin 5) where
  versions p :=
    if p = ["home".toList, "grafbase_extensions".toList, "one".toList] then
      some [some ⟨some "0.1.0".toList, true⟩, some ⟨some "0.1.2".toList, true⟩, some ⟨some "0.20.0".toList, true⟩,
        some ⟨some "1.2.3".toList, false⟩, some ⟨none, true⟩]
    else if p = ["home".toList, "grafbase_extensions".toList, "two".toList] then some [some ⟨some "0.20.0".toList, true⟩]
    else none
  files _ := some [some "README.md".toList, some "manifest.json".toList, some "extension.wasm".toList]
  manifest p :=
    if p = ["home".toList, "grafbase_extensions".toList, "one".toList, "0.1.2".toList, "manifest.json".toList] then
      some ⟨⟨"one".toList, 1⟩, []⟩
    else if p = ["home".toList, "grafbase_extensions".toList, "two".toList, "0.20.0".toList, "manifest.json".toList] then
      some ⟨⟨"two".toList, 0⟩, ["https://two".toList]⟩
    else if p = ["home".toList, "src".toList, "manifest.json".toList] then some ⟨⟨"src".toList, 4⟩, []⟩
    else none
  canonical p := some p

def cwd : Path := ["home".toList]

/-- `one = "^0.1.0"`, `src = { version = "^0.1.0", path = "./src" }`, `two = "^0.20.0"` -/
def config : List (Text × Config (Fin 6 × Fin 6)) :=
  [("one".toList, ⟨(0, 2), none⟩), ("src".toList, ⟨(0, 2), some (.relative ["src".toList])⟩), ("two".toList, ⟨(2, 3), none⟩)]

def loaded : List (Extension (Fin 5)) :=
  [⟨"one".toList, ⟨⟨"one".toList, 1⟩, []⟩,
      ["home".toList, "grafbase_extensions".toList, "one".toList, "0.1.2".toList, "extension.wasm".toList]⟩,
    ⟨"src".toList, ⟨⟨"src".toList, 4⟩, []⟩, ["home".toList, "src".toList, "extension.wasm".toList]⟩,
    ⟨"two".toList, ⟨⟨"two".toList, 0⟩, ["https://two".toList]⟩,
      ["home".toList, "grafbase_extensions".toList, "two".toList, "0.20.0".toList, "extension.wasm".toList]⟩]

/-- `https://grafbase.com/extensions/…` -/
def url (segments : List String) : LinkNames.Url :=
  ⟨"https".toList, some "grafbase.com".toList, some (segments.map String.toList)⟩

end Verif.Extensions.Witness
