import Verif.OpText.Ast
/-!
# Documents that should be normalised to the same text
-/
namespace Verif.OpText

/-- The document without the operations that have another name than the given one. -/
def chosen (opName : Option Str) (doc : List Def) : List Def :=
  doc.filter fun
    | .frag _ => true
    | .op o => opName.isNone || decide (o.kind = .shorthand) || decide (o.name = opName)

/-! ## Fragments in use -/

mutual
/-- The fragments spread in a selection, at any depth of fields and inline fragments. -/
def Sel.spreads : Sel → List Str
  | .field _ _ _ _ sels => spreads sels
  | .spread n _ => [n]
  | .inline _ _ sels => spreads sels
def spreads : List Sel → List Str
  | [] => []
  | s :: rest => s.spreads ++ spreads rest
end

/-- Spread in an operation. -/
def InOperation (doc : List Def) (n : Str) : Prop := ∃ o, Def.op o ∈ doc ∧ n ∈ spreads o.sels

/-- Spread in an operation, possibly through other fragments. -/
inductive InUse (doc : List Def) : Str → Prop where
  | op {n : Str} (h : InOperation doc n) : InUse doc n
  | frag {n : Str} {g : Fragment} (hg : Def.frag g ∈ doc) (hu : InUse doc g.name) (h : n ∈ spreads g.sels) : InUse doc n

/-- Every fragment in use is spread in an operation, or in a fragment in use that comes before it. -/
def InOrder (doc : List Def) : Prop :=
  ∀ pre f post, doc = pre ++ Def.frag f :: post → InUse doc f.name →
    InOperation doc f.name ∨ ∃ g, Def.frag g ∈ pre ∧ InUse doc g.name ∧ f.name ∈ spreads g.sels

/-- The same with the order by name. -/
def InNameOrder (doc : List Def) : Prop :=
  ∀ f, Def.frag f ∈ doc → InUse doc f.name →
    InOperation doc f.name ∨ ∃ g, Def.frag g ∈ doc ∧ compare g.name f.name = .lt ∧ InUse doc g.name ∧ f.name ∈ spreads g.sels

/-! ## The same up to order, aliases and literals -/

/-- Arguments that differ in their order and in their literals. -/
inductive EquivArgs : List (Str × Value) → List (Str × Value) → Prop where
  | nil : EquivArgs [] []
  | same {as bs} (p : Str × Value) (h : EquivArgs as bs) : EquivArgs (p :: as) (p :: bs)
  | int {as bs} (k : Str) (i j : Int) (h : EquivArgs as bs) : EquivArgs ((k, .int i) :: as) ((k, .int j) :: bs)
  | float {as bs} (k : Str) (q r : Rat) (h : EquivArgs as bs) : EquivArgs ((k, .float q) :: as) ((k, .float r) :: bs)
  | str {as bs} (k s t : Str) (h : EquivArgs as bs) : EquivArgs ((k, .str s) :: as) ((k, .str t) :: bs)
  | list {as bs} (k : Str) (xs ys : List Value) (h : EquivArgs as bs) : EquivArgs ((k, .list xs) :: as) ((k, .list ys) :: bs)
  | obj {as bs} (k : Str) (xs ys : List (Str × Value)) (h : EquivArgs as bs) :
      EquivArgs ((k, .obj xs) :: as) ((k, .obj ys) :: bs)
  | swap (p q : Str × Value) (as : List (Str × Value)) : EquivArgs (p :: q :: as) (q :: p :: as)
  | trans {as bs cs} (h : EquivArgs as bs) (g : EquivArgs bs cs) : EquivArgs as cs

inductive EquivDirs : List Directive → List Directive → Prop where
  | nil : EquivDirs [] []
  | cons {as bs ds es} (n : Str) (ha : EquivArgs as bs) (h : EquivDirs ds es) : EquivDirs (⟨n, as⟩ :: ds) (⟨n, bs⟩ :: es)
  | swap (d e : Directive) (ds : List Directive) : EquivDirs (d :: e :: ds) (e :: d :: ds)
  | trans {ds es fs} (h : EquivDirs ds es) (g : EquivDirs es fs) : EquivDirs ds fs

inductive EquivSels : List Sel → List Sel → Prop where
  | nil : EquivSels [] []
  | field {as bs ds es ss ts l m} (al bl : Option Str) (n : Str) (ha : EquivArgs as bs) (hd : EquivDirs ds es)
      (hs : EquivSels ss ts) (h : EquivSels l m) : EquivSels (.field al n as ds ss :: l) (.field bl n bs es ts :: m)
  | spread {ds es l m} (n : Str) (hd : EquivDirs ds es) (h : EquivSels l m) :
      EquivSels (.spread n ds :: l) (.spread n es :: m)
  | inline {ds es ss ts l m} (c : Option Str) (hd : EquivDirs ds es) (hs : EquivSels ss ts) (h : EquivSels l m) :
      EquivSels (.inline c ds ss :: l) (.inline c es ts :: m)
  | swap (a b : Sel) (l : List Sel) : EquivSels (a :: b :: l) (b :: a :: l)
  | trans {ss ts us} (h : EquivSels ss ts) (g : EquivSels ts us) : EquivSels ss us

/-- Documents that differ in the order of selections, arguments, directives, variables and fragments, in aliases and in the
literals of arguments. -/
inductive EquivDoc : List Def → List Def → Prop where
  | nil : EquivDoc [] []
  | op {vs ws ds es ss ts l m} (k : OpKind) (n : Option Str) (hv : vs.Perm ws) (hd : EquivDirs ds es) (hs : EquivSels ss ts)
      (h : EquivDoc l m) : EquivDoc (.op ⟨k, n, vs, ds, ss⟩ :: l) (.op ⟨k, n, ws, es, ts⟩ :: m)
  | frag {ds es ss ts l m} (n c : Str) (hd : EquivDirs ds es) (hs : EquivSels ss ts) (h : EquivDoc l m) :
      EquivDoc (.frag ⟨n, c, ds, ss⟩ :: l) (.frag ⟨n, c, es, ts⟩ :: m)
  | swap (f g : Fragment) (l : List Def) : EquivDoc (.frag f :: .frag g :: l) (.frag g :: .frag f :: l)
  | swapOp (o : Operation) (f : Fragment) (l : List Def) : EquivDoc (.op o :: .frag f :: l) (.frag f :: .op o :: l)
  | swapFrag (o : Operation) (f : Fragment) (l : List Def) : EquivDoc (.frag f :: .op o :: l) (.op o :: .frag f :: l)
  | trans {ds es fs} (h : EquivDoc ds es) (g : EquivDoc es fs) : EquivDoc ds fs

/-! ## No two parts that compare equal -/

/-- What a selection is: a field of some name, a spread of some fragment, an inline fragment on some type. -/
inductive Tag where
  | field (n : Str)
  | spread (n : Str)
  | inline (c : Option Str)
  deriving DecidableEq

def Sel.tag : Sel → Tag
  | .field _ n _ _ _ => .field n
  | .spread n _ => .spread n
  | .inline c _ _ => .inline c

/-- No argument given twice, no directive given twice. -/
def ArgsDistinct (as : List (Str × Value)) : Prop := (as.map (·.1)).Nodup
def DirsDistinct (ds : List Directive) : Prop := (ds.map (·.name)).Nodup ∧ ∀ d ∈ ds, ArgsDistinct d.args

mutual
def Sel.Distinct : Sel → Prop
  | .field _ _ as ds ss => ArgsDistinct as ∧ DirsDistinct ds ∧ (ss.map Sel.tag).Nodup ∧ AllDistinct ss
  | .spread _ ds => DirsDistinct ds
  | .inline _ ds ss => DirsDistinct ds ∧ (ss.map Sel.tag).Nodup ∧ AllDistinct ss
def AllDistinct : List Sel → Prop
  | [] => True
  | s :: rest => s.Distinct ∧ AllDistinct rest
end

/-- No selection set has two fields of one name (under different aliases), two spreads of one fragment or two inline
fragments on one type. -/
def SelsDistinct (ss : List Sel) : Prop := (ss.map Sel.tag).Nodup ∧ AllDistinct ss

/-- Also: a shorthand operation has neither variables nor directives (the grammar has no place for them). -/
def Def.Distinct : Def → Prop
  | .op o => (o.kind = .shorthand → o.vars = [] ∧ o.dirs = []) ∧ (o.vars.map (·.name)).Nodup ∧ DirsDistinct o.dirs ∧ SelsDistinct o.sels
  | .frag f => DirsDistinct f.dirs ∧ SelsDistinct f.sels

def Def.fragName : Def → Option Str
  | .op _ => none
  | .frag f => some f.name

def DocDistinct (doc : List Def) : Prop := (doc.filterMap Def.fragName).Nodup ∧ ∀ d ∈ doc, d.Distinct

end Verif.OpText
