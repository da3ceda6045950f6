/-!
# Grouping query modifiers by extension and directive

Model of `ModifierAccumulator::insert` and `QueryModifiers::build` in
`crates/engine/src/prepare/cached/builder/modifiers.rs`, of the use of the groups in
`crates/engine/src/prepare/operation_plan/query_modifications.rs` and of the host side of
`authorize_query` in `crates/wasi-component-loader/src/extension/runtime/authorization.rs`.

Simplifications:
* A rule is a list of executable directives (a number) or a directive id with a target (a number).
* `schema` gives the extension and the interned name of a directive id.  `rank` gives the place of a
  name in the order of strings.  Names are interned, so two names with the same string have the same id.
* `sort_unstable_by` returns some sorted permutation: theorems are about every such list.
* Ids are `u32`; the conversions from `usize` panic above that and are not modelled, but the
  subtractions on `u32` in `authorize_query` are (they wrap in release builds).
* A panic is `none`.
-/
namespace Verif.ModifierGroups

/-- `QueryModifierRule`, `prepare/cached/query_plan/modifier.rs:9-18`. -/
inductive Rule where
  | executable (directives : Nat)
  | extension (directive : Nat) (target : Nat)
  deriving DecidableEq, Repr

/-- `QueryModifierRecord`. -/
structure Rec where
  rule : Rule
  impactsRoot : Bool
  fields : List Nat
  deriving DecidableEq, Repr

/-- What is used of an `ExtensionDirectiveRecord`. -/
structure Dir where
  ext : Nat
  name : Nat
  deriving DecidableEq, Repr

/-! ## Accumulating, lines 285-337 -/

/-- The query part of `ModifierAccumulator`, 285-290. -/
structure Acc where
  index : Rule → Option Nat
  recs : List Rec

/-- `entry(rule).or_insert_with(..)`, 296-307: the accumulator and the index. -/
def entry (a : Acc) (r : Rule) : Acc × Nat :=
  match a.index r with
  | some i => (a, i)
  | none =>
    let recs := a.recs ++ [⟨r, false, []⟩]
    (⟨fun r' => if r' = r then some (recs.length - 1) else a.index r', recs⟩, recs.length - 1)

/-- Lines 308-312. -/
def mark (f : Option Nat) (x : Rec) : Rec :=
  match f with
  | some f => { x with fields := x.fields ++ [f] }
  | none => { x with impactsRoot := true }

/-- `ModifierAccumulator::insert` for `Rule::Query`, 294-313. -/
def insert (a : Acc) (r : Rule) (f : Option Nat) : Option Acc :=
  let (a, i) := entry a r
  match a.recs[i]? with
  | none => none
  | some x => some { a with recs := a.recs.set i (mark f x) }

/-- The accumulator after the native modifiers were set up (25-54): `native` are those records; they
are not entered in the map. -/
def start (native : List Rec) : Acc := ⟨fun _ => none, native⟩

/-- All the calls of `insert` in order. -/
def insertAll (a : Acc) : List (Rule × Option Nat) → Option Acc
  | [] => some a
  | (r, f) :: t => (insert a r f).bind fun a => insertAll a t

/-! ## Building the groups, lines 340-423 -/

/-- The comparison of `sort_unstable_by` is not `Greater`, 341-355. -/
def cmpLe (schema : Nat → Dir) (rank : Nat → Nat) (l r : Rule) : Bool :=
  match l, r with
  | .extension l _, .extension r _ =>
    if (schema l).ext = (schema r).ext then rank (schema l).name ≤ rank (schema r).name
    else (schema l).ext < (schema r).ext
  | .extension _ _, .executable _ => false
  | .executable _, .extension _ _ => true
  | .executable _, .executable _ => true

/-- `out` may be the result of sorting `l`. -/
def SortOf (schema : Nat → Dir) (rank : Nat → Nat) (out l : List Rec) : Prop :=
  out.Perm l ∧ out.Pairwise fun a b => cmpLe schema rank a.rule b.rule = true

/-- A half-open range of ids. -/
structure Rng where
  start : Nat
  stop : Nat
  deriving DecidableEq, Repr

/-- An element of `by_extension`. -/
structure EGroup where
  ext : Nat
  dirs : Rng
  mods : Rng
  deriving DecidableEq, Repr

/-- An element of `by_directive`. -/
structure DGroup where
  name : Nat
  mods : Rng
  deriving DecidableEq, Repr

/-- `QueryModifiers` without the records. -/
structure Groups where
  native : Rng
  byExt : List EGroup
  byDir : List DGroup
  deriving DecidableEq, Repr

/-- The variables of the inner loop: `extension_group`, `directive_group` and the two vectors. -/
structure Loop where
  e : EGroup
  d : DGroup
  byExt : List EGroup
  byDir : List DGroup
  deriving DecidableEq, Repr

/-- The body of the inner loop, 387-408. -/
def step (s : Loop) (ix : Nat) (dir : Dir) : Loop :=
  if s.e.ext ≠ dir.ext then
    let byDir := s.byDir ++ [{ s.d with mods := ⟨s.d.mods.start, ix⟩ }]
    { e := ⟨dir.ext, ⟨byDir.length, byDir.length⟩, ⟨ix, ix⟩⟩
      d := ⟨dir.name, ⟨ix, ix⟩⟩
      byExt := s.byExt ++ [⟨s.e.ext, ⟨s.e.dirs.start, byDir.length⟩, ⟨s.e.mods.start, ix⟩⟩]
      byDir := byDir }
  else if s.d.name ≠ dir.name then
    { s with
      d := ⟨dir.name, ⟨ix, ix⟩⟩
      byDir := s.byDir ++ [{ s.d with mods := ⟨s.d.mods.start, ix⟩ }] }
  else s

/-- The inner loop over the remaining records, 387-408. -/
def inner (schema : Nat → Dir) (s : Loop) (ix : Nat) : List Rec → Option Loop
  | [] => some s
  | ⟨.extension d _, _, _⟩ :: t => inner schema (step s ix (schema d)) (ix + 1) t
  | ⟨.executable _, _, _⟩ :: _ => none

/-- After the inner loop, 409-413. -/
def close (s : Loop) (n : Nat) : List EGroup × List DGroup :=
  let byDir := s.byDir ++ [{ s.d with mods := ⟨s.d.mods.start, n⟩ }]
  (s.byExt ++ [⟨s.e.ext, ⟨s.e.dirs.start, byDir.length⟩, ⟨s.e.mods.start, n⟩⟩], byDir)

/-- The outer loop, 364-417: `n` is `records.len()`. -/
def outer (schema : Nat → Dir) (n ix : Nat) : List Rec → Option Groups
  | [] => some ⟨⟨0, n⟩, [], []⟩
  | ⟨.executable _, _, _⟩ :: t => outer schema n (ix + 1) t
  | ⟨.extension d _, _, _⟩ :: t =>
    let dir := schema d
    (inner schema ⟨⟨dir.ext, ⟨0, 0⟩, ⟨ix, ix⟩⟩, ⟨dir.name, ⟨ix, ix⟩⟩, [], []⟩ (ix + 1) t).map fun s =>
      let (byExt, byDir) := close s n
      ⟨⟨0, ix⟩, byExt, byDir⟩

/-- `QueryModifiers::build` after sorting, 357-422. -/
def build (schema : Nat → Dir) (recs : List Rec) : Option Groups :=
  outer schema recs.length 0 recs

/-! ## Calling the extensions -/

/-- Indexing a slice with a range: a panic when out of bounds. -/
def slice {α : Type} (l : List α) (r : Rng) : Option (List α) :=
  if r.start ≤ r.stop ∧ r.stop ≤ l.length then some ((l.take r.stop).drop r.start) else none

/-- The iterator over query elements, `query_modifications.rs:147-157`: every record must be an
extension rule.  It is run to its end by `authorize_query`, `authorization.rs:42-58`. -/
def elements : List Rec → Option (List Rec)
  | [] => some []
  | ⟨.extension d t, b, f⟩ :: l => (elements l).map (⟨.extension d t, b, f⟩ :: ·)
  | ⟨.executable _, _, _⟩ :: _ => none

/-- Subtraction on `u32` in a release build. -/
def sub32 (a b : Nat) : Nat := (a % 2 ^ 32 + 2 ^ 32 - b % 2 ^ 32) % 2 ^ 32

/-- One round of the loop `authorization.rs:78-85`. -/
def adjustOne (names : List DGroup) (g : EGroup) : Option (List DGroup) :=
  if g.dirs.start ≤ g.dirs.stop ∧ g.dirs.stop ≤ names.length then
    some (names.mapIdx fun i d =>
      if g.dirs.start ≤ i ∧ i < g.dirs.stop then
        { d with mods := ⟨sub32 d.mods.start g.mods.start, sub32 d.mods.stop g.mods.start⟩ }
      else d)
  else none

/-- The loop `authorization.rs:78-85`. -/
def adjust (names : List DGroup) : List EGroup → Option (List DGroup)
  | [] => some names
  | g :: t => (adjustOne names g).bind fun names => adjust names t

/-- What an extension is called with, `authorization.rs:104-112`: its id, the directive names with
their ranges and the elements. -/
structure Call where
  ext : Nat
  names : List DGroup
  elements : List Rec
  deriving DecidableEq, Repr

/-- One call, `authorization.rs:100-112`. -/
def call (names : List DGroup) (els : List Rec) (g : EGroup) : Option Call :=
  (slice names g.dirs).bind fun ns => (slice els g.mods).map fun es => ⟨g.ext, ns, es⟩

/-- `authorize_query`, `authorization.rs:42-133`, called from `query_modifications.rs:121-183`. -/
def calls (g : Groups) (recs : List Rec) : Option (List Call) :=
  (elements recs).bind fun els =>
    (adjust g.byDir g.byExt).bind fun names => g.byExt.mapM (call names els)

/-- Is it an extension rule? -/
def isExtension (r : Rec) : Bool :=
  match r.rule with
  | .extension _ _ => true
  | .executable _ => false

/-- `build` of `query_modifications.rs:98-111`, up to the calls: the rules evaluated natively and the
calls made. `handle_native_modifiers` panics on an extension rule (240-265). -/
def evaluate (g : Groups) (recs : List Rec) : Option (List Rec × List Call) :=
  (slice recs g.native).bind fun ns =>
    if ns.any isExtension then none
    else if g.byExt.isEmpty then some (ns, [])
    else (calls g recs).map fun cs => (ns, cs)

/-- The record denied by `DenySome` for the element `ix` of the call with range `mods`,
`query_modifications.rs:232-235`; `IdRange::get` is `None` past the end. -/
def denied (recs : List Rec) (mods : Rng) (ix : Nat) : Option Rec :=
  if mods.start + ix < mods.stop then recs[mods.start + ix]? else none

end Verif.ModifierGroups
