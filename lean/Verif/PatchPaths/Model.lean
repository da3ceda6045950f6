import Verif.SchemaPath.Model
/-!
# Lookups in a schema patch

Model of `crates/graphql-schema-diff/src/patch/paths.rs`.  `str` is ordered by its UTF-8 bytes, which is
the order of the code points.
-/
namespace Verif.PatchPaths
open Verif.SchemaPath (Str splitDot)

/-- `Change` (change.rs:6-30) without its span.  `kind` is the discriminant of `ChangeKind`
(change.rs:36-76), by which the derived order compares. -/
structure Change where
  path : Str
  kind : Nat
  deriving DecidableEq, Repr

def addImpl : Nat := 5
def removeImpl : Nat := 6

/-- `[&str; 3]`. -/
abbrev Key := Str × Str × Str

/-- Comparison of `str`. -/
def cmpStr (a b : Str) : Ordering := List.compareLex compare a b

/-- Comparison of `[&str; 3]`. -/
def cmpKey (a b : Key) : Ordering :=
  (cmpStr a.1 b.1).then ((cmpStr a.2.1 b.2.1).then (cmpStr a.2.2 b.2.2))

/-- Comparison of `([&str; 3], usize)`. -/
def cmpEntry (a b : Key × Nat) : Ordering := (cmpKey a.1 b.1).then (compare a.2 b.2)

/-- `split_path`, paths.rs:132-137 (segments after the third only fail a debug assertion). -/
def splitPath (p : Str) : Key :=
  let s := splitDot p
  (s[0]?.getD [], s[1]?.getD [], s[2]?.getD [])

def insertEntry (e : Key × Nat) : List (Key × Nat) → List (Key × Nat)
  | [] => [e]
  | x :: t => if (cmpEntry e x).isLE then e :: x :: t else x :: insertEntry e t

/-- `sort_unstable`: the entries are distinct, so every sorting algorithm gives this list. -/
def sortEntries (l : List (Key × Nat)) : List (Key × Nat) := l.foldr insertEntry []

/-- `Paths::new`, paths.rs:19-35. -/
def entries (diff : List Change) : List (Key × Nat) :=
  sortEntries (diff.mapIdx fun i c => (splitPath c.path, i))

/-- The loop of `slice::binary_search_by` of Rust 1.90; fuel `size` suffices, as `size` shrinks. -/
def searchLoop {α : Type} (f : α → Ordering) (l : List α) : Nat → Nat → Nat → Nat
  | 0, base, _ => base
  | fuel + 1, base, size =>
    if size ≤ 1 then base
    else
      let half := size / 2
      let mid := base + half
      let base := if l[mid]?.map f = some .gt then base else mid
      searchLoop f l fuel base (size - half)

/-- `slice::binary_search_by`: `(true, i)` is `Ok(i)`, `(false, i)` is `Err(i)`. -/
def binarySearchBy {α : Type} (f : α → Ordering) (l : List α) : Bool × Nat :=
  let base := searchLoop f l l.length 0 l.length
  match l[base]?.map f with
  | none => (false, 0)
  | some .eq => (true, base)
  | some .lt => (false, base + 1)
  | some .gt => (false, base)

/-- `slice::partition_point`. -/
def partitionPoint {α : Type} (pred : α → Bool) (l : List α) : Nat :=
  (binarySearchBy (fun x => if pred x then .lt else .gt) l).2

/-- `iter_top_level`, paths.rs:37-42; the result are indices into the diff. -/
def iterTopLevel (diff : List Change) : List Nat :=
  ((entries diff).filter fun e => e.1.2.1 = [] ∧ e.1.2.2 = []).map (·.2)

/-- `iter_second_level`, paths.rs:44-49. -/
def iterSecondLevel (diff : List Change) (parent : Str) : List Nat :=
  ((entries diff).filter fun e => e.1.1 = parent ∧ ¬ e.1.2.1 = []).map (·.2)

/-- `iter_exact`, paths.rs:51-57. -/
def iterExact (diff : List Change) (path : Key) : List Nat :=
  let paths := entries diff
  let first := partitionPoint (fun e => cmpKey e.1 path = .lt) paths
  ((paths.drop first).takeWhile fun e => e.1 = path).map (·.2)

/-- `trim_start_matches('&')`. -/
def trimAmp (s : Str) : Str := s.dropWhile (· = '&')

/-- `self.diff[idx].kind`; the indices of the entries are in range (`C30_index_in_range`). -/
def kindAt (diff : List Change) (i : Nat) : Nat := (diff[i]?.map (·.kind)).getD 0

/-- `added_interface_impls`, paths.rs:63-71. -/
def addedInterfaceImpls (diff : List Change) (pre : Str) : List Str :=
  let paths := entries diff
  let start := partitionPoint (fun e => cmpStr e.1.1 pre = .lt) paths
  (((paths.drop start).takeWhile fun e => e.1.1 = pre).filter fun e => kindAt diff e.2 = addImpl).map
    fun e => trimAmp e.1.2.1

/-- `is_interface_impl_removed`, paths.rs:73-81. -/
def isInterfaceImplRemoved (diff : List Change) (pre interface : Str) : Bool :=
  (binarySearchBy (fun e : Key × Nat =>
    ((cmpStr e.1.1 pre).then (cmpStr (trimAmp e.1.2.1) interface)).then (compare (kindAt diff e.2) removeImpl))
    (entries diff)).1

end Verif.PatchPaths
