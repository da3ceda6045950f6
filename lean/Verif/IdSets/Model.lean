/-!
# Sets, ranges and relations of identifiers

Model of `crates/engine/id-newtypes/src/{bitset,range,many}.rs`.

Simplifications:
* `fixedbitset` is not in the repository.  A `FixedBitSet` is the list of its bits, with the
  documented behaviour of version 0.5.7 (`Cargo.lock:3257`): writes outside the length panic, reads
  outside are `false`, `|=` and `^=` grow to the longer length, `&=` keeps the length.
* An id is the number that `usize::from` gives; `Id::from` panics above `max`
  (`crates/engine/id-derives/src/id.rs:22-88`).
* `usize` arithmetic wraps as in a release build.
* A panic is `none`.
-/
namespace Verif.IdSets

/-! ## bitset.rs -/

/-- `BitSet`, bitset.rs:6-9. -/
abbrev Bits := List Bool

/-- `index`, bitset.rs:135-143. -/
def Bits.get (b : Bits) (i : Nat) : Bool := b.getD i false

/-- `FixedBitSet::put`, used at bitset.rs:36-38: the previous value. -/
def Bits.put (b : Bits) (i : Nat) : Option (Bits × Bool) :=
  if i < b.length then some (b.set i true, b.get i) else none

/-- `FixedBitSet::set`, used at bitset.rs:40-42. -/
def Bits.setBit (b : Bits) (i : Nat) (v : Bool) : Option Bits :=
  if i < b.length then some (b.set i v) else none

/-- `FixedBitSet::insert`, used at bitset.rs:44-46. -/
def Bits.insertBit (b : Bits) (i : Nat) : Option Bits :=
  if i < b.length then some (b.set i true) else none

/-- `FixedBitSet::set_range`, used at bitset.rs:48-52; the range must be ordered and inside. -/
def Bits.setRange (b : Bits) (s e : Nat) (v : Bool) : Option Bits :=
  if s ≤ e ∧ e ≤ b.length then some (b.take s ++ List.replicate (e - s) v ++ b.drop e) else none

/-- `FixedBitSet::grow`, used at bitset.rs:54-56. -/
def Bits.grow (b : Bits) (n : Nat) : Bits := b ++ List.replicate (n - b.length) false

/-- `set_all`, bitset.rs:80-82. -/
def Bits.setAll (b : Bits) (v : Bool) : Bits := List.replicate b.length v

/-- `not`, bitset.rs:85-92: `toggle_range(..)`. -/
def Bits.not (b : Bits) : Bits := b.map (!·)

/-- Combine bit by bit over the length of the first. -/
def zipBits (f : Bool → Bool → Bool) : Bits → Bits → Bits
  | [], _ => []
  | a :: t, [] => f a false :: zipBits f t []
  | a :: t, c :: u => f a c :: zipBits f t u

/-- `|=`, bitset.rs:94-101 and 126-130. -/
def Bits.or (b c : Bits) : Bits := zipBits (· || ·) (b.grow c.length) c

/-- `&=`, bitset.rs:103-110 and 120-124. -/
def Bits.and (b c : Bits) : Bits := zipBits (· && ·) b c

/-- `^=`, bitset.rs:112-119 and 132-136. -/
def Bits.xor (b c : Bits) : Bits := zipBits (fun x y => x != y) (b.grow c.length) c

/-- Positions holding `v`, counted from `i`. -/
def positions (v : Bool) : Nat → Bits → List Nat
  | _, [] => []
  | i, a :: t => if a = v then i :: positions v (i + 1) t else positions v (i + 1) t

/-- `ones`, bitset.rs:73-78. -/
def Bits.ones (b : Bits) : List Nat := positions true 0 b

/-- `zeroes`, bitset.rs:66-71. -/
def Bits.zeroes (b : Bits) : List Nat := positions false 0 b

/-- The operations that change a bit set. -/
inductive Op where
  | put (i : Nat) | set (i : Nat) (v : Bool) | insert (i : Nat) | setRange (s e : Nat) (v : Bool)
  | grow (n : Nat) | setAll (v : Bool) | not | or (c : Bits) | and (c : Bits) | xor (c : Bits)

def Bits.step (b : Bits) : Op → Option Bits
  | .put i => (b.put i).map (·.1)
  | .set i v => b.setBit i v
  | .insert i => b.insertBit i
  | .setRange s e v => b.setRange s e v
  | .grow n => some (b.grow n)
  | .setAll v => some (b.setAll v)
  | .not => some b.not
  | .or c => some (b.or c)
  | .and c => some (b.and c)
  | .xor c => some (b.xor c)

/-- `with_capacity`, bitset.rs:29-34, followed by operations. -/
def run (n : Nat) (ops : List Op) : Option Bits := ops.foldlM Bits.step (List.replicate n false)

/-! ## range.rs -/

/-- The number of values of `usize`. -/
def W : Nat := 2 ^ 64

/-- `IdRange`, range.rs:7-10. -/
structure Range where
  start : Nat
  stop : Nat
  deriving DecidableEq, Repr

/-- `Id::from(usize)`. -/
def idFrom (max n : Nat) : Option Nat := if n ≤ max then some n else none

/-- `len`, range.rs:34-36. -/
def Range.len (r : Range) : Nat := (r.stop + W - r.start) % W

/-- `get`, range.rs:42-49. -/
def Range.get (max : Nat) (r : Range) (i : Nat) : Option (Option Nat) :=
  let i := (r.start + i) % W
  if i < r.stop then (idFrom max i).map some else some none

/-- `index_of`, range.rs:51-59. -/
def Range.indexOf (r : Range) (id : Nat) : Option Nat :=
  if r.start ≤ id ∧ id < r.stop then some (id - r.start) else none

/-- `from_start_and_length`, range.rs:63-72. -/
def Range.fromLength (max start len : Nat) : Option Range :=
  (idFrom max ((start + len) % W)).map fun e => ⟨start, e⟩

/-- `from_single`, range.rs:86-91. -/
def Range.single (max id : Nat) : Option Range := (idFrom max ((id + 1) % W)).map fun e => ⟨id, e⟩

/-- The loop of `from_slice`, range.rs:100-105. -/
def sliceLoop (stop : Nat) : List Nat → Option Nat
  | [] => some stop
  | id :: t => if id ≠ (stop + 1) % W then none else sliceLoop ((stop + 1) % W) t

/-- `from_slice`, range.rs:93-110. -/
def Range.fromSlice (max : Nat) : List Nat → Option (Option Range)
  | [] => some (some ⟨0, 0⟩)
  | first :: t =>
    match sliceLoop first t with
    | none => some none
    | some stop => (idFrom max ((stop + 1) % W)).map fun e => some ⟨first, e⟩

/-- `next`, range.rs:186-194. -/
def Range.next (max : Nat) (r : Range) : Option (Range × Option Nat) :=
  if r.len ≠ 0 then (idFrom max ((r.start + 1) % W)).map fun s => (⟨s, r.stop⟩, some r.start)
  else some (r, none)

/-- `next_back`, range.rs:217-224. -/
def Range.nextBack (max : Nat) (r : Range) : Option (Range × Option Nat) :=
  if r.len ≠ 0 then (idFrom max ((r.stop + W - 1) % W)).map fun e => (⟨r.start, e⟩, some e)
  else some (r, none)

/-- Calls of an iterator: `true` is `next`, `false` is `next_back`.  The items in the order of the
calls and the range at the end. -/
def Range.calls (max : Nat) : Range → List Bool → Option (List (Option Nat) × Range)
  | r, [] => some ([], r)
  | r, c :: t =>
    (if c then r.next max else r.nextBack max).bind fun (r, x) =>
      (Range.calls max r t).map fun (xs, r) => (x :: xs, r)

/-! ## many.rs -/

/-- `IdToMany::from`, many.rs:18-23: `out` may be the result of `sort_unstable_by_key`. -/
def SortedFrom {V : Type} (l out : List (Nat × V)) : Prop :=
  out.Perm l ∧ out.Pairwise fun a b => a.1 ≤ b.1

/-- `ids`, many.rs:36-41: `dedup` drops an item equal to the previous one. -/
def dedup : List Nat → List Nat
  | [] => []
  | [a] => [a]
  | a :: b :: t => if a = b then dedup (b :: t) else a :: dedup (b :: t)

def idsOf {V : Type} (m : List (Nat × V)) : List Nat := dedup (m.map (·.1))

/-- `partition_point(|probe| probe.0 < id)`, many.rs:50. -/
def point {V : Type} (m : List (Nat × V)) (id : Nat) : Nat := (m.takeWhile fun p => p.1 < id).length

/-- `find_all` and `ValueIterator::next`, many.rs:43-72. -/
def findAll {V : Type} (m : List (Nat × V)) (id : Nat) : List V :=
  ((m.drop (point m id)).takeWhile fun p => p.1 = id).map (·.2)

end Verif.IdSets
