import Verif.Extensions.Model

/-!
# What extensions should be loaded

Said without the functions of the model: with the entries of directories, the order of versions and the manifests only.
-/
namespace Verif.Extensions

variable {V R : Type}

/-- What holds of `semver`: versions are totally ordered, and each has one text. -/
structure Semver.Laws (s : Semver V R) : Prop where
  irrefl : ∀ a, s.lt a a = false
  trans : ∀ a b c, s.lt a b = true → s.lt b c = true → s.lt a c = true
  total : ∀ a b, s.lt a b = true ∨ a = b ∨ s.lt b a = true
  parse_text : ∀ v, s.parse (s.text v) = some v
  text_parse : ∀ t v, s.parse t = some v → s.text v = t

/-- There is a directory called `name` among the entries, whose name is a version which meets the requirement. -/
def Matching (s : Semver V R) (req : R) (entries : List (Option Entry)) (v : V) (name : Text) : Prop :=
  (∃ e, some e ∈ entries ∧ e.isDir = true ∧ e.name.getD [] = name) ∧ s.parse name = some v ∧ s.satisfies req v = true

/-- It is the highest of those. -/
def Highest (s : Semver V R) (req : R) (entries : List (Option Entry)) (v : V) (name : Text) : Prop :=
  Matching s req entries v name ∧ ∀ w n, Matching s req entries w n → s.lt v w = false

/-- The directory has a program and a manifest with the name of the extension, and this is the extension. -/
def Holds (d : Disk V) (dir : Path) (key : Text) (x : Extension V) : Prop :=
  x.key = key ∧ x.manifest.id.name = key ∧
    d.manifest (dir ++ ["manifest.json".toList]) = some x.manifest ∧
    d.canonical (dir ++ ["extension.wasm".toList]) = some x.wasm ∧
    ∃ files, d.files dir = some files ∧ some "manifest.json".toList ∈ files ∧ some "extension.wasm".toList ∈ files

/-- The directory where the extension of a configuration is to be found. -/
inductive Place (s : Semver V R) (d : Disk V) (cwd : Path) (key : Text) (c : Config R) : Path → Prop where
  | relative (p : Path) : c.path = some (.relative p) → Place s d cwd key c (cwd ++ p)
  | absolute (p : Path) : c.path = some (.absolute p) → Place s d cwd key c p
  | version (entries : List (Option Entry)) (v : V) (name : Text) : c.path = none →
      d.versions (cwd ++ ["grafbase_extensions".toList, key]) = some entries → none ∉ entries → Highest s c.req entries v name →
      Place s d cwd key c (cwd ++ ["grafbase_extensions".toList, key, name])

/-- The extensions of a configuration, one by one. -/
inductive Loaded (s : Semver V R) (d : Disk V) (cwd : Path) : List (Text × Config R) → List (Extension V) → Prop where
  | nil : Loaded s d cwd [] []
  | cons (key : Text) (c : Config R) (dir : Path) (x : Extension V) (rest : List (Text × Config R)) (xs : List (Extension V)) :
      Place s d cwd key c dir → Holds d dir key x → Loaded s d cwd rest xs → Loaded s d cwd ((key, c) :: rest) (x :: xs)

/-- The manifests of the extensions which were installed have the versions of their directories. -/
def Installed (s : Semver V R) (d : Disk V) (cwd : Path) : Prop :=
  ∀ key name m, d.manifest (cwd ++ ["grafbase_extensions".toList, key, name, "manifest.json".toList]) = some m →
    s.parse name = some m.id.version

/-- The first at which something holds. -/
def FirstAt {α : Type} (p : α → Prop) (xs : List α) (i : Nat) : Prop :=
  (∃ x, xs[i]? = some x ∧ p x) ∧ ∀ j, j < i → ∀ y, xs[j]? = some y → ¬ p y

/-- The text of a version without the `v` before it, if there is one. -/
def Bare (v t : Text) : Prop := v = 'v' :: t ∨ (v = t ∧ ∀ r, v ≠ 'v' :: r)

/-- The name and the version at the end of a path. -/
inductive Ends (s : Semver V R) : List Text → Option Text → Option R → Prop where
  | named (pre : List Text) (n v t : Text) (r : R) : Bare v t → s.caret t = some r → Ends s (pre ++ [n, v]) (some n) (some r)
  | version (v t : Text) (r : R) : Bare v t → s.caret t = some r → Ends s [v] none (some r)
  | plain (pre : List Text) (n t : Text) : Bare n t → s.caret t = none → Ends s (pre ++ [n]) (some n) none

/-- The name and the version of a URL. A directory `build` at the end of the URL of a file does not count. -/
inductive Means (s : Semver V R) : Option LinkNames.Url → Option Text → Option R → Prop where
  | noUrl : Means s none none none
  | noPath (u : LinkNames.Url) : u.segments = none ∨ u.segments = some [] → Means s (some u) none none
  | onlyBuild (u : LinkNames.Url) : u.segments = some ["build".toList] → u.scheme = "file".toList → Means s (some u) none none
  | build (u : LinkNames.Url) (segs : List Text) (n : Option Text) (r : Option R) :
      u.segments = some (segs ++ ["build".toList]) → u.scheme = "file".toList → Ends s segs n r → Means s (some u) n r
  | other (u : LinkNames.Url) (segs : List Text) (n : Option Text) (r : Option R) :
      u.segments = some segs → ¬ (u.scheme = "file".toList ∧ segs.getLast? = some "build".toList) → Ends s segs n r →
      Means s (some u) n r

/-- The extension of the catalog which is to be used for a URL: the first which has the URL in its manifest, otherwise the first
with the name and a version which meets the requirement, if there is one. -/
def Answers (s : Semver V R) (xs : List (Extension V)) (url : Text) (name : Option Text) (req : Option R) (i : Nat) : Prop :=
  FirstAt (fun x => url ∈ x.manifest.urls) xs i ∨
    (∀ x ∈ xs, url ∉ x.manifest.urls) ∧ ∃ n, name = some n ∧
      FirstAt (fun x => x.manifest.id.name = n ∧ ∀ r, req = some r → s.satisfies r x.manifest.id.version = true) xs i

/-- The extension of the catalog for one of the schema. -/
def Found (s : Semver V R) (xs : List (Extension V)) (w : Wanted V) (i : Nat) : Prop :=
  (∃ id, w.file = some id ∧ FirstAt (fun x => x.manifest.id = id) xs i) ∨
    (∀ id, w.file = some id → ∀ x ∈ xs, x.manifest.id ≠ id) ∧ ∃ n r, Means s w.parsed n r ∧ Answers s xs w.url n r i

end Verif.Extensions
