import Verif.OpText.Ast
import Verif.OpChecks.Model
import Std
/-!
# The normaliser

Model of `crates/operation-normalizer/src/normalize.rs` and `normalize/*.rs`, on syntax trees: parsing the input and printing
the output are done by `graphql_parser`. `HashMap<String, bool>` is an association list. `Ord` on strings compares UTF-8 bytes,
which is the order by code points used here. `sort_by` is a stable sort (`Verif.OpChecks.sortBy`).
-/
namespace Verif.OpText

open Verif.OpChecks (sortBy)

/-- The body of the loop in normalize/arguments.rs:6-25. -/
def normValue : Value → Value
  | .str _ => .str []
  | .float _ => .float 0
  | .int _ => .int 0
  | .list _ => .list []
  | .obj _ => .obj []
  | v => v

def argCmp (a b : Str × Value) : Ordering := compare a.1 b.1

/-- normalize/arguments.rs. -/
def normArgs (args : List (Str × Value)) : List (Str × Value) :=
  (sortBy (fun a b => (argCmp a b).isLE) args).map fun p => (p.1, normValue p.2)

def dirCmp (a b : Directive) : Ordering := compare a.name b.name

/-- normalize/directives.rs. -/
def normDirs (dirs : List Directive) : List Directive :=
  (sortBy (fun a b => (dirCmp a b).isLE) dirs).map fun d => ⟨d.name, normArgs d.args⟩

/-- `sort_selection`, normalize/selection_set.rs:44-63. -/
def selCmp : Sel → Sel → Ordering
  | .field _ a _ _ _, .field _ b _ _ _ => compare a b
  | .field .., .spread .. => .lt
  | .field .., .inline .. => .lt
  | .spread .., .field .. => .gt
  | .spread a _, .spread b _ => compare a b
  | .spread .., .inline .. => .lt
  | .inline .., .field .. => .gt
  | .inline .., .spread .. => .gt
  | .inline none _ _, .inline none _ _ => .eq
  | .inline none _ _, .inline (some _) _ _ => .lt
  | .inline (some _) _ _, .inline none _ _ => .gt
  | .inline (some a) _ _, .inline (some b) _ _ => compare a b

/-- `used_fragments`. -/
abbrev Used := List (Str × Bool)

/-- `used_fragments.get(name).copied()`. -/
def Used.get (u : Used) (n : Str) : Option Bool := (u.find? fun p => decide (p.1 = n)).map (·.2)

/-- `used_fragments.entry(name).or_insert(in_operation)`. -/
def Used.orInsert (u : Used) (n : Str) (inOp : Bool) : Used := if (u.get n).isSome then u else (n, inOp) :: u

mutual

/-- `normalize_selection`, normalize/selection_set.rs:17-42. -/
def normSel (inOp : Bool) (u : Used) : Sel → Sel × Used
  | .field _ name args dirs sels =>
    let r := normItems inOp u sels
    (.field none name (normArgs args) (normDirs dirs) (sortBy (fun a b => (selCmp a b).isLE) r.1), r.2)
  | .spread name dirs => (.spread name (normDirs dirs), u.orInsert name inOp)
  | .inline cond dirs sels =>
    let r := normItems inOp u sels
    (.inline cond (normDirs dirs) (sortBy (fun a b => (selCmp a b).isLE) r.1), r.2)

/-- The loop of `normalize`, normalize/selection_set.rs:10-12. -/
def normItems (inOp : Bool) (u : Used) : List Sel → List Sel × Used
  | [] => ([], u)
  | s :: rest =>
    let a := normSel inOp u s
    let b := normItems inOp a.2 rest
    (a.1 :: b.1, b.2)

end

/-- `normalize`, normalize/selection_set.rs:5-15. -/
def normSels (inOp : Bool) (u : Used) (sels : List Sel) : List Sel × Used :=
  let r := normItems inOp u sels
  (sortBy (fun a b => (selCmp a b).isLE) r.1, r.2)

def varCmp (a b : VarDef) : Ordering := compare a.name b.name

/-- normalize/operation.rs; a shorthand operation has neither directives nor variables. -/
def normOp (u : Used) (o : Operation) : Operation × Used :=
  let r := normSels true u o.sels
  match o.kind with
  | .shorthand => ({ o with sels := r.1 }, r.2)
  | _ => ({ o with dirs := normDirs o.dirs, sels := r.1, vars := sortBy (fun a b => (varCmp a b).isLE) o.vars }, r.2)

/-- The condition of lines 20-28. -/
def hasName (n : Str) : Def → Bool
  | .op o => if o.kind = .shorthand then true else decide (o.name = some n)
  | .frag _ => true

/-- Lines 19-29: the other operations are dropped if a name is given. -/
def retained (opName : Option Str) (doc : List Def) : List Def :=
  match opName with
  | none => doc
  | some n => doc.filter (hasName n)

/-- The loop over operations, lines 32-36. -/
def opLoop (u : Used) : List Def → List Def × Used
  | [] => ([], u)
  | .op o :: rest =>
    let a := normOp u o
    let b := opLoop a.2 rest
    (.op a.1 :: b.1, b.2)
  | .frag f :: rest =>
    let b := opLoop u rest
    (.frag f :: b.1, b.2)

/-- The loop over fragments, lines 40-51. -/
def fragLoop (u : Used) : List Def → List Def × Used
  | [] => ([], u)
  | .op o :: rest =>
    let b := fragLoop u rest
    (.op o :: b.1, b.2)
  | .frag f :: rest =>
    let inOp := (u.get f.name).isSome
    if !inOp then
      let b := fragLoop u rest
      (.frag f :: b.1, b.2)
    else
      let a := normSels inOp u f.sels
      let b := fragLoop a.2 rest
      (.frag { f with dirs := normDirs f.dirs, sels := a.1 } :: b.1, b.2)

/-- The comparison of lines 58-66. -/
def defCmp : Def → Def → Ordering
  | .op _, .frag _ => .gt
  | .frag _, .op _ => .lt
  | .frag a, .frag b => compare a.name b.name
  | .op _, .op _ => .eq

/-- Lines 53-56: the definitions that are retained. -/
def keepDef (u : Used) : Def → Bool
  | .frag f => (u.get f.name).getD false
  | .op _ => true

/-- `normalize`, normalize.rs:15-71; `none` is the error for an empty result. -/
def normalize (opName : Option Str) (doc : List Def) : Option (List Def) :=
  let a := opLoop [] (retained opName doc)
  let b := fragLoop a.2 a.1
  let kept := b.1.filter (keepDef b.2)
  let sorted := sortBy (fun a b => (defCmp a b).isLE) kept
  if sorted.isEmpty then none else some sorted

end Verif.OpText
