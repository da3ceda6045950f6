/-!
# Identifiers packed in one word

Model of `crates/engine/src/response/object_set.rs`, of the part numbers in
`crates/engine/src/response/data.rs` and of the id newtypes of
`crates/engine/id-derives/src/id.rs`.  `usize` is 64 bits wide; lengths of vectors are natural
numbers (a `Vec` never has `2^63` elements).
-/
namespace Verif.PackedIds

/-! ## Parent objects, `object_set.rs` -/

/-- `SET_INDEX_SHIFT`, `object_set.rs:20`. -/
def setIndexShift : Nat := 24

/-- `MAX_SET_INDEX`, `object_set.rs:21`. -/
def maxSetIndex : Nat := 1 <<< (32 - setIndexShift)

/-- `OBJECT_INDEX_MASK`, `object_set.rs:22`. -/
def objectIndexMask : Nat := (1 <<< setIndexShift) - 1

/-- `(set_idx << SET_INDEX_SHIFT) as u32 | i as u32`, lines 51, 77, 85 and 92; `as u32` keeps the
low 32 bits. -/
def pack (setIdx i : Nat) : Nat := ((setIdx <<< setIndexShift) % 2 ^ 32) ||| (i % 2 ^ 32)

/-- `index >> SET_INDEX_SHIFT`, lines 112, 129 and 176. -/
def setOf (index : Nat) : Nat := index >>> setIndexShift

/-- `index & OBJECT_INDEX_MASK`, lines 113, 129 and 177. -/
def objectOf (index : Nat) : Nat := index &&& objectIndexMask

/-- `ParentObjectSet`, `object_set.rs:35-40`; `R` stands for `ResponseObjectRef`. -/
structure ParentSet (R : Type) where
  sets : List (List R)
  indices : List Nat
  deriving DecidableEq

/-- The default value, `object_set.rs:35`. -/
def ParentSet.empty {R : Type} : ParentSet R := ⟨[], []⟩

/-- `with_response_objects`, `object_set.rs:43-58`; `none` is a failed assertion. -/
def ParentSet.withAll {R : Type} (p : ParentSet R) (refs : List R) : Option (ParentSet R) :=
  let setIdx := p.sets.length
  if setIdx < maxSetIndex then
    let added := (List.range refs.length).map (pack setIdx)
    if added.length < objectIndexMask then some ⟨p.sets ++ [refs], p.indices ++ added⟩ else none
  else none

/-- `with_filtered_response_objects`, `object_set.rs:60-104`.  The three arms differ only in the test
on `item.definition_id`, which is the parameter `keep`. -/
def ParentSet.withFiltered {R : Type} (p : ParentSet R) (keep : R → Bool) (refs : List R) :
    Option (ParentSet R) :=
  let setIdx := p.sets.length
  if setIdx < maxSetIndex then
    let added := refs.zipIdx.filterMap fun x => if keep x.1 then some (pack setIdx x.2) else none
    if added.length < objectIndexMask then some ⟨p.sets ++ [refs], p.indices ++ added⟩ else none
  else none

/-- `self.sets[index >> SET_INDEX_SHIFT][index & OBJECT_INDEX_MASK]`; `none` is an out of bounds
panic. -/
def ParentSet.read {R : Type} (p : ParentSet R) (index : Nat) : Option R :=
  (p.sets[setOf index]?).bind fun s => s[objectOf index]?

/-- `iter`, `object_set.rs:106-108` and 172-181. -/
def ParentSet.iter {R : Type} (p : ParentSet R) : List (Option R) := p.indices.map p.read

/-- One call of either method. -/
inductive Add (R : Type) where
  | all (refs : List R)
  | filtered (keep : R → Bool) (refs : List R)

def ParentSet.add {R : Type} (p : ParentSet R) : Add R → Option (ParentSet R)
  | .all refs => p.withAll refs
  | .filtered keep refs => p.withFiltered keep refs

def build {R : Type} (adds : List (Add R)) : Option (ParentSet R) :=
  adds.foldlM ParentSet.add ParentSet.empty

/-! ## Part numbers, `data.rs` -/

/-- The contents of a `DataPart`, `data.rs:158-176`: `main` are its objects and lists, `other` its
strings, int lists, float lists, maps and inaccessible values. -/
structure Content (A : Type) where
  main : List A
  other : List A
  deriving DecidableEq

/-- `DataPart::is_empty`, `data.rs:193-195`. -/
def Content.isEmpty {A : Type} (c : Content A) : Bool := c.main.isEmpty

/-- `DataParts` and the number of calls of `new_part`, i.e. the number of `DataPart` handed out. -/
structure Parts (A : Type) where
  slots : List (Content A)
  deriving DecidableEq

inductive PartOp (A : Type) where
  /-- `new_part`, `data.rs:33-40`. -/
  | new
  /-- `insert`, `data.rs:42-46`, of the part returned by the `j`-th call of `new_part` (from 0). -/
  | insert (j : Nat) (c : Content A)
  deriving DecidableEq

/-- `DataPartId(self.0.len() as u16)`, `data.rs:34`, for the `j`-th part. -/
def partId (j : Nat) : Nat := j % 2 ^ 16

/-- One operation on `DataParts`; `none` is a panic (line 44, or an index out of bounds). -/
def Parts.step {A : Type} (p : Parts A) : PartOp A → Option (Parts A)
  | .new => some ⟨p.slots ++ [⟨[], []⟩]⟩
  | .insert j c =>
    match p.slots[partId j]? with
    | none => none
    | some r => if r.isEmpty then some ⟨p.slots.set (partId j) c⟩ else none

def Parts.run {A : Type} (ops : List (PartOp A)) : Option (Parts A) :=
  ops.foldlM Parts.step ⟨[]⟩

/-- `Index<DataPartId>`, `data.rs:59-64`, with the id of the `j`-th part. -/
def Parts.read {A : Type} (p : Parts A) (j : Nat) : Option (Content A) := p.slots[partId j]?

/-! ## Id newtypes, `id-derives/src/id.rs` -/

/-- `From<usize>` for an id over an integer of `bits` bits, `id.rs:57-62`; `none` is the `expect`. -/
def idOf (bits v : Nat) : Option Nat := if v < 2 ^ bits then some v else none

/-- `From<usize>` for an id over a `NonZero` integer, `id.rs:25-32`: `value + 1` wraps in a release
build and `try_into` refuses `0`. -/
def nonZeroIdOf (bits v : Nat) : Option Nat :=
  if v < 2 ^ bits then
    let w := (v + 1) % 2 ^ bits
    if w = 0 then none else some w
  else none

/-- `From<Id> for usize`, `id.rs:42-46` and 70-74. -/
def idIndex (id : Nat) : Nat := id
def nonZeroIdIndex (id : Nat) : Nat := id - 1

end Verif.PackedIds
