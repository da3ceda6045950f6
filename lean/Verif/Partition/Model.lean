/-!
# Partitioning the possible types of a selection set

Model of `crates/engine/src/prepare/cached/builder/shapes/partition.rs` and of its use in
`crates/engine/src/prepare/cached/builder/shapes/mod.rs`.

Simplifications:
* Object ids are numbers.  A set of fields (`FixedBitSet`) is the list of its members; `|` and `|=`
  are concatenation.
* `while let Some(..) = a.get(l).zip(b.get(r))` without writes to the arrays is a recursion on what is
  left of both; where the arrays are written in place the indices are kept.
* `sort_unstable` gives some sorted permutation: it is a parameter of the functions below and theorems
  are about every such result.
* A panic is `none`.
-/
namespace Verif.Partition

/-! ## `compute_possible_types`, mod.rs:849-895 -/

/-- Intersection of two sorted lists, mod.rs:861-873 and partition.rs:175-188. -/
def interLoop : List Nat → List Nat → List Nat
  | [], _ => []
  | _ :: _, [] => []
  | a :: l, b :: r =>
    if a < b then interLoop l (b :: r)
    else if b < a then interLoop (a :: l) r
    else a :: interLoop l r
termination_by l r => l.length + r.length

/-- `slice::swap`. -/
def swap (l : List Nat) (i j : Nat) : Option (List Nat) :=
  match l[i]?, l[j]? with
  | some a, some b => some ((l.set i b).set j a)
  | _, _ => none

/-- The loop of mod.rs:883-893, with fuel: the vector and `n`. -/
def keepLoop (tys : List Nat) : Nat → List Nat → Nat → Nat → Nat → Option (List Nat × Nat)
  | 0, v, n, _, _ => some (v, n)
  | k + 1, v, n, l, r =>
    match v[l]?, tys[r]? with
    | some a, some b =>
      if a < b then keepLoop tys k v n (l + 1) r
      else if b < a then keepLoop tys k v n l (r + 1)
      else (swap v l n).bind fun v => keepLoop tys k v (n + 1) (l + 1) (r + 1)
    | _, _ => some (v, n)

/-- mod.rs:878-894, one type condition. -/
def keep (v tys : List Nat) : Option (List Nat) :=
  (keepLoop tys (v.length + tys.length) v 0 0 0).map fun (v, n) => v.take n

/-- mod.rs:877-895, the other type conditions. -/
def keepAll (poss : Nat → List Nat) (v : List Nat) : List Nat → Option (List Nat)
  | [] => some v
  | c :: t => (keep v (poss c)).bind fun v => keepAll poss v t

/-- `compute_possible_types`, mod.rs:849-898. -/
def possibleTypes (poss : Nat → List Nat) (output : List Nat) : List Nat → Option (List Nat)
  | [] => some output
  | c :: t => keepAll poss (interLoop output (poss c)) t

/-! ## partition.rs -/

/-- `is_superset_of_output_possible_types`, partition.rs:127-150, after the check of the lengths. -/
def supLoop : List Nat → List Nat → Bool
  | [], _ => true
  | _ :: _, [] => false
  | a :: o, b :: c =>
    if a < b then false
    else if b < a then supLoop (a :: o) c
    else supLoop o c
termination_by o c => o.length + c.length

def isSuperset (cond output : List Nat) : Bool :=
  if output.length > cond.length then false else supLoop output cond

/-- The variables of `extract_intersection`. -/
structure Ex where
  left : List Nat
  right : List Nat
  inter : List Nat
  l : Nat
  r : Nat
  leftLen : Nat
  rightLen : Nat
  deriving DecidableEq, Repr

/-- The first loop of `extract_intersection`, partition.rs:233-252, with fuel. -/
def exLoop : Nat → Ex → Ex
  | 0, s => s
  | k + 1, s =>
    match s.left[s.l]?, s.right[s.r]? with
    | some a, some b =>
      if a < b then exLoop k { s with left := s.left.set s.leftLen a, leftLen := s.leftLen + 1, l := s.l + 1 }
      else if b < a then
        exLoop k { s with right := s.right.set s.rightLen b, rightLen := s.rightLen + 1, r := s.r + 1 }
      else exLoop k { s with inter := s.inter ++ [a], l := s.l + 1, r := s.r + 1 }
    | _, _ => s

/-- Moving the rest of a vector, partition.rs:255-259 and 264-268, with fuel. -/
def moveLoop : Nat → List Nat → Nat → Nat → List Nat × Nat
  | 0, v, _, n => (v, n)
  | k + 1, v, i, n =>
    match v[i]? with
    | some a => moveLoop k (v.set n a) (i + 1) (n + 1)
    | none => (v, n)

/-- partition.rs:254-261 and 263-271. -/
def compact (v : List Nat) (i n : Nat) : List Nat :=
  if i ≠ n then
    let (v, n) := moveLoop v.length v i n
    v.take n
  else v

/-- `extract_intersection`, partition.rs:223-272: the three vectors afterwards.  The check of the ends
panics on an empty vector. -/
def extract (left right : List Nat) : Option (List Nat × List Nat × List Nat) :=
  match left.getLast?, left.head?, right.getLast?, right.head? with
  | some ll, some lf, some rl, some rf =>
    if ll < rf ∨ rl < lf then some (left, right, [])
    else
      let s := exLoop (left.length + right.length) ⟨left, right, [], 0, 0, 0, 0⟩
      some (compact s.left s.l s.leftLen, compact s.right s.r s.rightLen, s.inter)
  | _, _, _, _ => none

/-- A partition under construction: ids and fields. -/
abbrev Part := List Nat × List Nat

/-- The loop over the existing partitions, partition.rs:190-208: the existing partitions, those pushed
and what is left of `new_partition`. -/
def against (fields sup : List Nat) : List Part → List Nat → Option (List Part × List Part × List Nat)
  | [], np => some ([], [], np)
  | p :: t, np =>
    if np.isEmpty then some (p :: t, [], np)
    else
      (extract p.1 np).bind fun (rest, np, inter) =>
        if rest.isEmpty then
          (against fields sup t np).map fun (ps, pushed, np) => ((inter, p.2 ++ fields) :: ps, pushed, np)
        else if !inter.isEmpty then
          (against fields sup t np).map fun (ps, pushed, np) =>
            ((rest, p.2) :: ps, (inter, fields ++ p.2 ++ sup) :: pushed, np)
        else
          (against fields sup t np).map fun (ps, pushed, np) => ((rest, p.2) :: ps, pushed, np)

/-- One type condition, partition.rs:169-215. -/
def addCond (output sup : List Nat) (ps : List Part) (c : Part) : Option (List Part) :=
  (against c.2 sup ps (interLoop c.1 output)).map fun (ps, pushed, np) =>
    ps ++ pushed ++ (if np.isEmpty then [] else [(np, c.2 ++ sup)])

/-- `split_into_partitions`, partition.rs:152-220. -/
def split (output sup : List Nat) (ps : List Part) : List Part → Option (List Part)
  | [] => some ps
  | c :: t => (addCond output sup ps c).bind fun ps => split output sup ps t

/-- `chunk_by` of the sorted singletons with the fold of the fields, partition.rs:80-92. -/
def chunks (sup : List Nat) : List Part → List (Nat × List Nat)
  | [] => []
  | c :: t =>
    match chunks sup t with
    | (id, fields) :: r =>
      if c.1.head? = some id then (id, fields ++ c.2) :: r
      else (c.1.headD 0, sup ++ c.2) :: (id, fields) :: r
    | [] => [(c.1.headD 0, sup ++ c.2)]

/-- `Partitioning`: `possibilities` are the ids of the `One` and `Many` partitions with the fields. -/
structure Result where
  parts : List Part
  remaining : Option (List Nat)
  deriving DecidableEq, Repr

/-- partition.rs:117-121. -/
def finish (output : List Nat) (sups : List Part) (parts : List Part) : Result :=
  ⟨parts, if (parts.map (·.1.length)).sum ≠ output.length ∧ !sups.isEmpty then
    some (sups.flatMap (·.2)) else none⟩

/-- Is `out` a possible result of sorting singletons by their element (partition.rs:78)? -/
def SortOf (out l : List Part) : Prop :=
  out.Perm l ∧ out.Pairwise fun a b => a.1.headD 0 ≤ b.1.headD 0

/-- `partition_object_shapes`, partition.rs:42-124.  `sort` is `sort_unstable_by`. -/
def partitionShapes (sort : List Part → List Part) (output : List Nat) (conds : List Part) : Option Result :=
  if output.length = 1 then some ⟨[], none⟩
  else
    let sups := conds.filter fun c => isSuperset c.1 output
    let rest := conds.filter fun c => !isSuperset c.1 output
    if rest.isEmpty then some ⟨[], none⟩
    else if rest.all fun c => c.1.length = 1 then
      some (finish output sups ((chunks (sups.flatMap (·.2)) (sort rest)).map fun (id, f) => ([id], f)))
    else
      (split output (sups.flatMap (·.2)) [] rest).map fun raw =>
        finish output sups (raw.filter fun p => !p.1.isEmpty)

/-! ## The shape of a selection set, mod.rs:660-760 and 789-827 -/

/-- A field of the selection set: its id and its type conditions. -/
structure Field where
  id : Nat
  conds : List Nat
  deriving DecidableEq, Repr

/-- Grouping the sorted fields by type conditions, mod.rs:808-823. -/
def groupFields (poss : Nat → List Nat) (output : List Nat) : List Field → Option (List Part)
  | [] => some []
  | f :: t =>
    match t, groupFields poss output t with
    | f' :: _, some ((tys, ids) :: r) =>
      if f.conds = f'.conds then some ((tys, f.id :: ids) :: r)
      else (possibleTypes poss output f.conds).map fun tys' => (tys', [f.id]) :: (tys, ids) :: r
    | _, some r => (possibleTypes poss output f.conds).map fun tys => (tys, [f.id]) :: r
    | _, none => none

/-- `Shape::Concrete` with all the fields or `Shape::Polymorphic`, mod.rs:673-758. -/
inductive Shape where
  | concrete (fields : List Nat)
  | poly (possibilities : List (Nat × List Nat)) (fallback : Option (List Nat))
  deriving DecidableEq, Repr

/-- mod.rs:660-758: `fields` are all the fields, `sorted` those fields as sorted at line 809. -/
def shapeOf (sort : List Part → List Part) (poss : Nat → List Nat) (output : List Nat)
    (fields sorted : List Field) : Option Shape :=
  (groupFields poss output sorted).bind fun conds =>
    (partitionShapes sort output conds).map fun p =>
      if p.parts.isEmpty ∧ p.remaining.isNone then .concrete (fields.map (·.id))
      else .poly (p.parts.flatMap fun q => q.1.map fun id => (id, q.2)) p.remaining

/-- The fields used for an object of type `t`: `polymorphic.rs:110-175`, none without a match. -/
def fieldsFor (s : Shape) (t : Nat) : List Nat :=
  match s with
  | .concrete f => f
  | .poly possibilities fallback =>
    match possibilities.find? (·.1 = t) with
    | some p => p.2
    | none => fallback.getD []

end Verif.Partition
