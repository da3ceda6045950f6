import Verif.OpText.Ast
/-!
# What the sanitised text should be

`SameFields`, `SameDirs`, `SameSels`, `SameDoc`: documents that differ only in literals. `Text.*`: the text, with every
literal replaced by a placeholder, written with joins instead of counters.
-/
namespace Verif.OpText

/-- Lists of named values that differ only in numbers, strings and lists, at any depth of objects. -/
inductive SameFields : List (Str × Value) → List (Str × Value) → Prop where
  | nil : SameFields [] []
  | same {fs gs} (k : Str) (v : Value) (h : SameFields fs gs) : SameFields ((k, v) :: fs) ((k, v) :: gs)
  | int {fs gs} (k : Str) (i j : Int) (h : SameFields fs gs) : SameFields ((k, .int i) :: fs) ((k, .int j) :: gs)
  | float {fs gs} (k : Str) (q r : Rat) (h : SameFields fs gs) : SameFields ((k, .float q) :: fs) ((k, .float r) :: gs)
  | intFloat {fs gs} (k : Str) (i : Int) (r : Rat) (h : SameFields fs gs) :
      SameFields ((k, .int i) :: fs) ((k, .float r) :: gs)
  | floatInt {fs gs} (k : Str) (q : Rat) (j : Int) (h : SameFields fs gs) :
      SameFields ((k, .float q) :: fs) ((k, .int j) :: gs)
  | str {fs gs} (k s t : Str) (h : SameFields fs gs) : SameFields ((k, .str s) :: fs) ((k, .str t) :: gs)
  | list {fs gs} (k : Str) (xs ys : List Value) (h : SameFields fs gs) :
      SameFields ((k, .list xs) :: fs) ((k, .list ys) :: gs)
  | obj {fs gs as bs} (k : Str) (ha : SameFields as bs) (h : SameFields fs gs) :
      SameFields ((k, .obj as) :: fs) ((k, .obj bs) :: gs)

inductive SameDirs : List Directive → List Directive → Prop where
  | nil : SameDirs [] []
  | cons {ds es as bs} (n : Str) (ha : SameFields as bs) (h : SameDirs ds es) : SameDirs (⟨n, as⟩ :: ds) (⟨n, bs⟩ :: es)

inductive SameSels : List Sel → List Sel → Prop where
  | nil : SameSels [] []
  | field {as bs ds es ss ts l m} (al : Option Str) (n : Str) (ha : SameFields as bs) (hd : SameDirs ds es)
      (hs : SameSels ss ts) (h : SameSels l m) : SameSels (.field al n as ds ss :: l) (.field al n bs es ts :: m)
  | spread {ds es l m} (n : Str) (hd : SameDirs ds es) (h : SameSels l m) :
      SameSels (.spread n ds :: l) (.spread n es :: m)
  | inline {ds es ss ts l m} (c : Option Str) (hd : SameDirs ds es) (hs : SameSels ss ts) (h : SameSels l m) :
      SameSels (.inline c ds ss :: l) (.inline c es ts :: m)

/-- Equal names and types; the defaults may be anything. -/
inductive SameVars : List VarDef → List VarDef → Prop where
  | nil : SameVars [] []
  | cons {vs ws} (n : Str) (t : Ty) (d e : Option Value) (h : SameVars vs ws) :
      SameVars (⟨n, t, d⟩ :: vs) (⟨n, t, e⟩ :: ws)

inductive SameDoc : List Def → List Def → Prop where
  | nil : SameDoc [] []
  | op {vs ws ds es ss ts l m} (k : OpKind) (n : Option Str) (hv : SameVars vs ws) (hd : SameDirs ds es)
      (hs : SameSels ss ts) (h : SameDoc l m) : SameDoc (.op ⟨k, n, vs, ds, ss⟩ :: l) (.op ⟨k, n, ws, es, ts⟩ :: m)
  | frag {ds es ss ts l m} (n c : Str) (hd : SameDirs ds es) (hs : SameSels ss ts) (h : SameDoc l m) :
      SameDoc (.frag ⟨n, c, ds, ss⟩ :: l) (.frag ⟨n, c, es, ts⟩ :: m)

namespace Text

/-- The items with `sep` between them. -/
def join (sep : Str) : List Str → Str
  | [] => []
  | [x] => x
  | x :: y :: l => x ++ sep ++ join sep (y :: l)

/-- Nothing for the empty list. -/
def parens (sep : Str) (l : List Str) : Str := if l = [] then [] else '(' :: join sep l ++ [')']

def braces (l : List Str) : Str := if l = [] then [] else [' ', '{'] ++ l.flatten ++ [' ', '}']

mutual
def value : Value → Str
  | .var n => '$' :: n
  | .int _ | .float _ => ['0']
  | .str _ => ['"', '"']
  | .bool true => ['t', 'r', 'u', 'e']
  | .bool false => ['f', 'a', 'l', 's', 'e']
  | .null => ['n', 'u', 'l', 'l']
  | .enum n => n
  | .list _ => ['[', ']']
  | .obj fs => '{' :: join [',', ' '] (named fs) ++ ['}']
def named : List (Str × Value) → List Str
  | [] => []
  | (n, v) :: rest => (n ++ [':', ' '] ++ value v) :: named rest
end

def dirs (ds : List Directive) : Str := (ds.map fun d => [' ', '@'] ++ d.name ++ parens [','] (named d.args)).flatten

mutual
def sel : Sel → Str
  | .field (some a) n args ds ss =>
    [' '] ++ a ++ [':', ' '] ++ n ++ parens [',', ' '] (named args) ++ dirs ds ++ braces (sels ss)
  | .field none n args ds ss => [' '] ++ n ++ parens [',', ' '] (named args) ++ dirs ds ++ braces (sels ss)
  | .inline (some t) ds ss => [' ', '.', '.', '.', ' ', 'o', 'n', ' '] ++ t ++ dirs ds ++ braces (sels ss)
  | .inline none ds ss => [' ', '.', '.', '.'] ++ dirs ds ++ braces (sels ss)
  | .spread n _ => [' ', '.', '.', '.'] ++ n ++ [' ']
def sels : List Sel → List Str
  | [] => []
  | s :: rest => sel s :: sels rest
end

def ty : Ty → Str
  | .named n => n
  | .list t => '[' :: ty t ++ [']']
  | .nonNull t => ty t ++ ['!']

def vars (vs : List VarDef) : Str := parens [',', ' '] (vs.map fun v => '$' :: v.name ++ [':', ' '] ++ ty v.ty)

def opType : OpKind → Str
  | .mutation => ['m', 'u', 't', 'a', 't', 'i', 'o', 'n']
  | .subscription => ['s', 'u', 'b', 's', 'c', 'r', 'i', 'p', 't', 'i', 'o', 'n']
  | _ => ['q', 'u', 'e', 'r', 'y']

def definition : Def → Str
  | .op ⟨k, some n, vs, _, ss⟩ => opType k ++ [' '] ++ n ++ vars vs ++ braces (sels ss)
  | .op ⟨k, none, vs, _, ss⟩ => opType k ++ vars vs ++ braces (sels ss)
  | .frag f =>
    ['f', 'r', 'a', 'g', 'm', 'e', 'n', 't', ' '] ++ f.name ++ [' ', 'o', 'n', ' '] ++ f.cond ++ dirs f.dirs ++ braces (sels f.sels)

def document (doc : List Def) : Str := join [' '] (doc.map definition)

end Text

end Verif.OpText
