import Verif.OpText.Ast
/-!
# The sanitiser

Model of `crates/operation-normalizer/src/sanitize.rs` and `sanitize/*.rs`. The functions of the code append to a string; here
they return what is appended. `i` and `count` are the loop index and the length of the iterator.
-/
namespace Verif.OpText

mutual

/-- sanitize/value.rs. -/
def sanValue : Value → Str
  | .var n => '$' :: n
  | .int _ => ['0']
  | .float _ => ['0']
  | .str _ => ['"', '"']
  | .bool b => if b then ['t', 'r', 'u', 'e'] else ['f', 'a', 'l', 's', 'e']
  | .null => ['n', 'u', 'l', 'l']
  | .enum n => n
  | .list _ => ['[', ']']
  | .obj fs => ['{'] ++ sanFields fs.length 0 fs ++ ['}']

/-- The loop of value.rs:26-33. -/
def sanFields (count : Nat) : Nat → List (Str × Value) → Str
  | _, [] => []
  | i, (n, v) :: rest =>
    n ++ [':', ' '] ++ sanValue v ++ (if i ≠ count - 1 then [',', ' '] else []) ++ sanFields count (i + 1) rest

end

/-- The loops over arguments: directives.rs:11-26 with `sep = ","` and selection.rs:23-38 with `sep = ", "`. -/
def sanArgs (sep : Str) (count : Nat) : Nat → List (Str × Value) → Str
  | _, [] => []
  | i, (n, v) :: rest =>
    (if i = 0 then ['('] else []) ++ n ++ [':', ' '] ++ sanValue v ++ (if i = count - 1 then [')'] else sep) ++
      sanArgs sep count (i + 1) rest

/-- sanitize/directives.rs. -/
def sanDirs : List Directive → Str
  | [] => []
  | d :: rest => [' ', '@'] ++ d.name ++ sanArgs [','] d.args.length 0 d.args ++ sanDirs rest

mutual

/-- The body of the loop in sanitize/selection.rs:10-59. -/
def sanSel : Sel → Str
  | .field alias name args dirs sels =>
    [' '] ++ (match alias with | some a => a ++ [':', ' '] | none => []) ++ name ++
      sanArgs [',', ' '] args.length 0 args ++ sanDirs dirs ++ sanSels sels.length 0 sels
  | .inline cond dirs sels =>
    [' ', '.', '.', '.'] ++ (match cond with | some t => [' ', 'o', 'n', ' '] ++ t | none => []) ++
      sanDirs dirs ++ sanSels sels.length 0 sels
  | .spread name _ => [' ', '.', '.', '.'] ++ name ++ [' ']

/-- sanitize/selection.rs:3-65. -/
def sanSels (count : Nat) : Nat → List Sel → Str
  | _, [] => []
  | i, s :: rest =>
    (if i = 0 then [' ', '{'] else []) ++ sanSel s ++ (if i = count - 1 then [' ', '}'] else []) ++ sanSels count (i + 1) rest

end

/-- `Display` of a type. -/
def showTy : Ty → Str
  | .named n => n
  | .list t => ['['] ++ showTy t ++ [']']
  | .nonNull t => showTy t ++ ['!']

/-- sanitize/variables.rs. -/
def sanVars (count : Nat) : Nat → List VarDef → Str
  | _, [] => []
  | i, v :: rest =>
    (if i = 0 then ['('] else []) ++ ['$'] ++ v.name ++ [':', ' '] ++ showTy v.ty ++
      (if i = count - 1 then [')'] else [',', ' ']) ++ sanVars count (i + 1) rest

/-- sanitize/operation.rs:4-14. -/
def keyword : OpKind → Str
  | .shorthand | .query => ['q', 'u', 'e', 'r', 'y']
  | .mutation => ['m', 'u', 't', 'a', 't', 'i', 'o', 'n']
  | .subscription => ['s', 'u', 'b', 's', 'c', 'r', 'i', 'p', 't', 'i', 'o', 'n']

/-- sanitize/operation.rs and sanitize/fragment.rs. -/
def sanDef : Def → Str
  | .op o =>
    keyword o.kind ++ (match o.name with | some n => ' ' :: n | none => []) ++ sanVars o.vars.length 0 o.vars ++
      sanSels o.sels.length 0 o.sels
  | .frag f =>
    ['f', 'r', 'a', 'g', 'm', 'e', 'n', 't', ' '] ++ f.name ++ [' ', 'o', 'n', ' '] ++ f.cond ++ sanDirs f.dirs ++
      sanSels f.sels.length 0 f.sels

/-- The loop of sanitize.rs:17-26. -/
def sanDefs (count : Nat) : Nat → List Def → Str
  | _, [] => []
  | i, d :: rest => sanDef d ++ (if i ≠ count - 1 then [' '] else []) ++ sanDefs count (i + 1) rest

/-- `sanitize`, sanitize.rs:11-29. -/
def sanitize (doc : List Def) : Str := sanDefs doc.length 0 doc

end Verif.OpText
