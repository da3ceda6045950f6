import Verif.LinkNames.Model

/-!
# What the links of a subgraph say about names

After the description at the head of `match_name.rs` and the specification of `@link`, without reference to the program: only
the texts of the subgraph are used. The reading of URLs is the same parameter as in the model.
-/
namespace Verif.LinkNames

/-! ## The directives there are -/

def coreDirectives : List (Text × Builtin) :=
  [("cost".toList, .cost), ("deprecated".toList, .deprecated), ("link".toList, .link), ("listSize".toList, .listSize),
    ("oneOf".toList, .oneOf), ("specifiedBy".toList, .specifiedBy)]

def federationDirectives : List (Text × Builtin) :=
  [("authenticated".toList, .authenticated), ("composeDirective".toList, .composeDirective), ("extends".toList, .extends),
    ("external".toList, .external), ("inaccessible".toList, .inaccessible), ("interfaceObject".toList, .interfaceObject),
    ("key".toList, .key), ("override".toList, .override), ("policy".toList, .policy), ("provides".toList, .provides),
    ("requires".toList, .requires), ("requiresScopes".toList, .requiresScopes), ("shareable".toList, .shareable),
    ("tag".toList, .tag)]

def compositeDirectives : List (Text × Builtin) :=
  [("derive".toList, .derive), ("external".toList, .external), ("inaccessible".toList, .inaccessible),
    ("internal".toList, .internal), ("is".toList, .is), ("key".toList, .keyFromComposite), ("lookup".toList, .lookup),
    ("override".toList, .override), ("provides".toList, .provides), ("require".toList, .require),
    ("shareable".toList, .shareable)]

def federationUrl (url : Text) : Bool := "https://specs.apollo.dev/federation/v2".toList.isPrefixOf url

def compositeUrl : Text := "https://specs.grafbase.com/composite-schemas/v1".toList

/-- What a name stands for. -/
inductive Referent where
  /-- A directive with a meaning to the composition. -/
  | known (b : Builtin)
  /-- A directive of the schema at a URL. -/
  | foreign (url : Text) (name : Text)
  /-- A directive the subgraph defines. -/
  | mine
  | unknown
deriving DecidableEq, Repr

/-- A directive of the schema at a URL. -/
def schemaDirective (url : Text) (name : Text) : Option Referent :=
  if federationUrl url = true then (federationDirectives.lookup name).map .known
  else if url = compositeUrl then (compositeDirectives.lookup name).map .known
  else some (.foreign url name)

/-! ## Links -/

def Doc.links (d : Doc) : List Link := d.directives.filterMap (fun s => if s.name = "link".toList then s.link else none)

/-- What is imported, in order, with the link. -/
def Doc.imports (d : Doc) : List (Link × Import) := d.links.flatMap (fun l => l.imports.map (fun i => (l, i)))

def Digit (c : Char) : Prop := c ∈ "0123456789".toList

def IsVersion (s : Text) : Prop := ∃ d rest, s = 'v' :: d :: rest ∧ Digit d ∧ ∀ c ∈ rest, Digit c ∨ c = '.'

def Letter (c : Char) : Prop := c ∈ "abcdefghijklmnopqrstuvwxyzABCDEFGHIJKLMNOPQRSTUVWXYZ".toList

def IsName (s : Text) : Prop :=
  ∃ c rest, s = c :: rest ∧ (Letter c ∨ c = '_') ∧ ∀ c ∈ rest, Letter c ∨ Digit c ∨ c = '_'

/-- The name at the end of a path, perhaps before a version. -/
def EndName (segments : List Text) (n : Text) : Prop :=
  IsName n ∧ ((∃ front v, segments = front ++ [n, v] ∧ IsVersion v) ∨ (∃ front, segments = front ++ [n]) ∧ ¬ IsVersion n)

/-- The name of the schema at a URL; a local schema may be in a directory `build`. -/
def UrlName (u : Url) (n : Text) : Prop :=
  ∃ segments, u.segments = some segments ∧
    ((u.scheme = "file".toList ∧ ∃ front, segments = front ++ ["build".toList] ∧ EndName front n) ∨
      ¬ (u.scheme = "file".toList ∧ ∃ front, segments = front ++ ["build".toList]) ∧ EndName segments n)

/-- The prefix for the names of a linked schema. -/
def Prefix (parse : Text → Option Url) (l : Link) (p : Text) : Prop :=
  l.as = some p ∨ l.as = none ∧ ∃ u, parse l.url = some u ∧ UrlName u p

/-- The last link with the prefix. -/
def LinkedAs (parse : Text → Option Url) (d : Doc) (p : Text) (l : Link) : Prop :=
  ∃ before after, d.links = before ++ l :: after ∧ Prefix parse l p ∧ ∀ k ∈ after, ¬ Prefix parse k p

/-- An import brings something under a name: a directive, or not. -/
inductive Brings : Import → Bool → Text → Text → Prop where
  | directive {n : Text} : Brings (.string ('@' :: n)) true n n
  | directive' {n : Text} : Brings (.qualified ('@' :: n) none) true n n
  | renamed {o n : Text} : Brings (.qualified ('@' :: o) (some ('@' :: n))) true n o
  | other {n : Text} : n.head? ≠ some '@' → Brings (.string n) false n n
  | other' {n : Text} : n.head? ≠ some '@' → Brings (.qualified n none) false n n
  | otherRenamed {o n : Text} : o.head? ≠ some '@' → n.head? ≠ some '@' → Brings (.qualified o (some n)) false n o

/-- An import without mistakes: `@` before both names or before none, and once. -/
def Tidy (i : Import) : Prop := ∃ b n o, Brings i b n o ∧ n.head? ≠ some '@' ∧ o.head? ≠ some '@'

/-- The last import of a directive under the name. -/
def ImportedAs (d : Doc) (n : Text) (l : Link) (original : Text) : Prop :=
  ∃ before i after, d.imports = before ++ (l, i) :: after ∧ Brings i true n original ∧
    ∀ x ∈ after, ∀ o, ¬ Brings x.2 true n o

/-- A directive the subgraph defines, or nothing. -/
def own (d : Doc) (n : Text) : Referent := if n ∈ d.defs then .mine else .unknown

/-- What a name without prefix stands for. -/
inductive Plain (d : Doc) (n : Text) : Referent → Prop where
  | imported {l : Link} {o : Text} {r : Referent} : ImportedAs d n l o → schemaDirective l.url o = some r → Plain d n r
  | missing {l : Link} {o : Text} : ImportedAs d n l o → schemaDirective l.url o = none → Plain d n (own d n)
  | core {b : Builtin} : (∀ l o, ¬ ImportedAs d n l o) → coreDirectives.lookup n = some b → Plain d n (.known b)
  | legacy {b : Builtin} : (∀ l o, ¬ ImportedAs d n l o) → coreDirectives.lookup n = none → d.virtual = false →
      (∀ l ∈ d.links, federationUrl l.url = false) → federationDirectives.lookup n = some b → Plain d n (.known b)
  | own : (∀ l o, ¬ ImportedAs d n l o) → coreDirectives.lookup n = none →
      (d.virtual = true ∨ (∃ l ∈ d.links, federationUrl l.url = true) ∨ federationDirectives.lookup n = none) →
      Plain d n (own d n)

/-- There are no two underscores in a row. -/
def Single (n : Text) : Prop := ∀ a b, n ≠ a ++ '_' :: '_' :: b

/-- The name is made of a prefix and a rest: at its first two underscores. -/
def Parts (n p m : Text) : Prop := n = p ++ '_' :: '_' :: m ∧ Single (p ++ ['_'])

/-- The links mean what their URLs look like, and not both specifications are linked. -/
structure Clear (d : Doc) : Prop where
  genuine : ∀ l ∈ d.links, (∃ a b, l.url = a ++ "dev/federation/v2".toList ++ b) → federationUrl l.url = true
  one : (∃ l ∈ d.links, federationUrl l.url = true) → ∀ l ∈ d.links, l.url ≠ compositeUrl
  tidy : ∀ x ∈ d.imports, Tidy x.2

/-! ## Reading the answer -/

/-- What an answer refers to, for the state it is about. -/
def resolve (st : St) (sg : Nat) : Match → Option Referent
  | .noMatch => some .unknown
  | .qualified s n => st.schemas[s]?.bind (fun r => if r.sg = sg then some (.foreign r.url n) else none)
  | .imported d =>
    st.defs[d]?.bind (fun x => st.schemas[x.schema]?.bind (fun r => if r.sg = sg then some (.foreign r.url x.original) else none))
  | .locally d => st.dirDefs[d]?.bind (fun x => if x.1 = sg then some .mine else none)
  | .builtin b => some (.known b)
  | .crash => none

/-- In the subgraph a name stands for something. -/
def Stands (st : St) (sg : Nat) (n : Text) (r : Referent) : Prop := resolve st sg (matchName st sg n).2 = some r

/-! ## The composed schema -/

/-- The name without its prefix. -/
def Rest (n m : Text) : Prop := (∃ p, Parts n p m) ∨ Single n ∧ m = n

/-- The subgraph asks for a directive to be in the composed schema: its name without prefix. -/
def Asked (st : St) (sg : Nat) (d : Doc) (m : Text) : Prop :=
  ∃ s ∈ d.directives, Stands st sg s.name (.known .composeDirective) ∧
    ∃ k y, ("name".toList, some (List.replicate (k + 1) '@' ++ y)) ∈ s.args ∧ y.head? ≠ some '@' ∧ Rest y m

/-! ## What is reported -/

/-- What is wrong with the directives on the schema of a subgraph. -/
def Wrong (parse : Text → Option Url) (st : St) (sg : Nat) (d : Doc) : Diag → Prop
  | .badLink => ∃ s ∈ d.directives, s.name = "link".toList ∧ s.link = none
  | .missingAt => ∃ l ∈ d.links, ∃ o n, Import.qualified ('@' :: o) (some n) ∈ l.imports ∧ ∀ m, n ≠ '@' :: m
  | .extraAt => ∃ l ∈ d.links, ∃ o n, Import.qualified o (some ('@' :: n)) ∈ l.imports ∧ ∀ m, o ≠ '@' :: m
  | .badCompose => ∃ s ∈ d.directives, Stands st sg s.name (.known .composeDirective) ∧
      ∃ v, ("name".toList, v) ∈ s.args ∧ ∀ n, v ≠ some ('@' :: n)
  | .collision => ∃ a l b k c p, d.links = a ++ l :: b ++ k :: c ∧ Prefix parse l p ∧ Prefix parse k p

/-! ## Extensions -/

/-- The text begins like a version. -/
def VersionLike (s : Text) : Prop := s = [] ∨ (∃ c rest, s = c :: rest ∧ Digit c) ∨ ∃ c rest, s = 'v' :: c :: rest ∧ Digit c

/-- The last segment which does not begin like a version, of the last two. -/
def EndPart (segments : List Text) (n : Text) : Prop :=
  (∃ front, segments = front ++ [n]) ∧ ¬ VersionLike n ∨ ∃ front v, segments = front ++ [n, v] ∧ VersionLike v

/-- The URL of an extension in the registry. -/
def Registry (u : Url) (segments : List Text) : Prop :=
  u.scheme = "https".toList ∧ (u.host = some "extensions.grafbase.com".toList ∨
    u.host = some "grafbase.com".toList ∧ ∃ first rest others, segments = first :: others ∧ first = "extensions".toList ++ rest)

/-- A local extension; it may be in a directory `build` of another one. -/
def LocalPart (segments : List Text) (n : Text) : Prop :=
  (∃ front x, segments = front ++ [x, "build".toList] ∧ EndPart (front ++ [x]) n) ∨
    (∀ front x, segments ≠ front ++ [x, "build".toList]) ∧ EndPart segments n

/-- A link is that of an extension, which has a name. -/
def Registers (parse : Text → Option Url) (l : Link) (n : Text) : Prop :=
  ∃ u segments, parse l.url = some u ∧ u.segments = some segments ∧
    (u.scheme = "file".toList ∧ (l.as = some n ∨ l.as = none ∧ LocalPart segments n) ∨
      Registry u segments ∧ (l.as = some n ∨ l.as = none ∧ EndPart segments n))

end Verif.LinkNames
