import Verif.LinkNames.Model

/-!
# Which extensions are loaded

A configuration names extensions; the gateway finds their directories, reads their manifests and puts them in a catalog. The
schema names extensions by URL; an extension of the catalog is found for each.

* `crates/federated-server/src/extensions.rs` lines 28 to 170
* `crates/extension-catalog/src/catalog.rs` lines 21 to 72, `crates/extension/src/id.rs` lines 3 to 36
* `crates/engine/schema/src/builder/sdl/link_directive.rs` lines 40 to 85
* `crates/engine/schema/src/builder/extension/mod.rs` lines 55 to 145

Simplifications: `semver` is a parameter (`Semver`); a path is the list of its components below the root; `Url::parse` was done
beforehand (`LinkNames.Url`); messages of errors are left out; an identifier is an index (there are fewer than 2¹⁶ extensions);
of a manifest only its identifier and the associated URLs are kept; the SDL of manifests is not parsed.
-/
namespace Verif.Extensions

abbrev Text := List Char
abbrev Path := List Text

/-- What is used of the crate `semver`: versions `V`, requirements `R`. -/
structure Semver (V R : Type) where
  /-- `Version::parse` -/
  parse : Text → Option V
  /-- `Display` of `Version` -/
  text : V → Text
  /-- `<` of `Version` -/
  lt : V → V → Bool
  /-- `VersionReq::parse` of the text after a `^` -/
  caret : Text → Option R
  /-- `VersionReq::matches` -/
  satisfies : R → V → Bool

/-- `Id` (id.rs:3-7). -/
structure Id (V : Type) where
  name : Text
  version : V
deriving DecidableEq

/-- `Manifest`. -/
structure Manifest (V : Type) where
  id : Id V
  urls : List Text
deriving DecidableEq

/-- `Extension` (catalog.rs:15-20). -/
structure Extension (V : Type) where
  key : Text
  manifest : Manifest V
  wasm : Path
deriving DecidableEq

/-- An entry of a directory: `name` is `none` when it is not UTF-8. -/
structure Entry where
  name : Option Text
  isDir : Bool
deriving DecidableEq

/-- Why there is no catalog. -/
inductive Stop where
  /-- A directory cannot be read. -/
  | directory
  /-- An entry of a directory cannot be read. -/
  | entry
  /-- No directory has a version which matches. -/
  | noMatch
  /-- The manifest cannot be read or parsed. -/
  | manifest
  /-- `manifest.json` or `extension.wasm` is missing. -/
  | missing
  /-- The name in the manifest is another one. -/
  | mismatch
  /-- `canonicalize().expect(…)` -/
  | panic
deriving DecidableEq

/-- The file system. In a list of entries, `none` is one which cannot be read. -/
structure Disk (V : Type) where
  /-- the entries of a directory with the versions of an extension -/
  versions : Path → Option (List (Option Entry))
  /-- the names of the entries of the directory of an extension -/
  files : Path → Option (List (Option Text))
  /-- the file read as a manifest -/
  manifest : Path → Option (Manifest V)
  /-- `canonicalize` -/
  canonical : Path → Option Path

/-- The path of an `ExtensionConfig`. -/
inductive CPath where
  | relative (p : Path)
  | absolute (p : Path)
deriving DecidableEq

/-- `ExtensionConfig`: `version()` and `path()`. -/
structure Config (R : Type) where
  req : R
  path : Option CPath

variable {V R : Type}

/-! ## The directories -/

/-- Whether a version is taken instead of the one found so far (extensions.rs:87-92). -/
def better (s : Semver V R) (best : Option (V × Text)) (v : V) : Bool :=
  match best with
  | none => true
  | some (w, _) => s.lt w v

/-- One entry (extensions.rs:74-95). -/
def consider (s : Semver V R) (req : R) (best : Option (V × Text)) (e : Entry) : Option (V × Text) :=
  if e.isDir then
    match s.parse (e.name.getD []) with
    | none => best
    | some v => if s.satisfies req v && better s best v then some (v, e.name.getD []) else best
  else best

/-- The loop over the entries (extensions.rs:64-96). -/
def pick (s : Semver V R) (req : R) : Option (V × Text) → List (Option Entry) → Except Stop (Option (V × Text))
  | best, [] => .ok best
  | _, none :: _ => .error .entry
  | best, some e :: rest => pick s req (consider s req best e) rest

/-- What one file adds (extensions.rs:124-147). -/
def look (d : Disk V) (dir : Path) (found : Option (Manifest V) × Option Path) (name : Text) :
    Except Stop (Option (Manifest V) × Option Path) :=
  if name = "extension.wasm".toList then .ok (found.1, some (dir ++ ["extension.wasm".toList]))
  else if name = "manifest.json".toList then
    match d.manifest (dir ++ ["manifest.json".toList]) with
    | none => .error .manifest
    | some m => .ok (some m, found.2)
  else .ok found

/-- The loop over the files (extensions.rs:118-152). -/
def scan (d : Disk V) (dir : Path) :
    Option (Manifest V) × Option Path → List (Option Text) → Except Stop (Option (Manifest V) × Option Path)
  | found, [] => .ok found
  | _, none :: _ => .error .entry
  | found, some name :: rest =>
    match look d dir found name with
    | .error e => .error e
    | .ok found => if found.1.isSome && found.2.isSome then .ok found else scan d dir found rest

/-- `load_extension_from_path` (extensions.rs:106-177). -/
def load [DecidableEq V] (d : Disk V) (dir : Path) (key : Text) : Except Stop (Extension V) :=
  match d.files dir with
  | none => .error .directory
  | some entries =>
    match scan d dir (none, none) entries with
    | .error e => .error e
    | .ok (some m, some wasm) =>
      if m.id.name ≠ key then .error .mismatch
      else
        match d.canonical wasm with
        | none => .error .panic
        | some wasm => .ok ⟨key, m, wasm⟩
    | .ok _ => .error .missing

/-- `find_matching_extensions_in_dir` (extensions.rs:51-104). -/
def find [DecidableEq V] (s : Semver V R) (d : Disk V) (root : Path) (req : R) (key : Text) : Except Stop (Extension V) :=
  match d.versions (root ++ [key]) with
  | none => .error .directory
  | some entries =>
    match pick s req none entries with
    | .error e => .error e
    | .ok none => .error .noMatch
    | .ok (some (_, name)) => load d (root ++ [key] ++ [name]) key

/-- `EXTENSION_DIR_NAME` -/
def dirName : Text := "grafbase_extensions".toList

/-- One extension (extensions.rs:34-44). -/
def loadOne [DecidableEq V] (s : Semver V R) (d : Disk V) (cwd : Path) (key : Text) (c : Config R) :
    Except Stop (Extension V) :=
  match c.path with
  | some (.relative p) => load d (cwd ++ p) key
  | some (.absolute p) => load d p key
  | none => find s d (cwd ++ [dirName]) c.req key

/-- `create_extension_catalog_impl` (extensions.rs:28-49), over the entries of the `BTreeMap`. -/
def catalog [DecidableEq V] (s : Semver V R) (d : Disk V) (cwd : Path) :
    List (Text × Config R) → Except Stop (List (Extension V))
  | [] => .ok []
  | (key, c) :: rest =>
    match loadOne s d cwd key c with
    | .error e => .error e
    | .ok x =>
      match catalog s d cwd rest with
      | .error e => .error e
      | .ok xs => .ok (x :: xs)

/-! ## The catalog -/

/-- `is_compatible_with` (id.rs:33-35). -/
def Id.compatible (s : Semver V R) (i : Id V) (name : Text) (req : R) : Bool :=
  i.name == name && s.satisfies req i.version

/-- `get_id_by_name` (catalog.rs:51-57). -/
def byName (xs : List (Extension V)) (name : Text) : Option Nat :=
  xs.findIdx? (fun x => x.manifest.id.name == name)

/-- `get_id_by_config_key` (catalog.rs:59-65). -/
def byKey (xs : List (Extension V)) (key : Text) : Option Nat :=
  xs.findIdx? (fun x => x.key == key)

/-- `find_compatible_extension` (catalog.rs:24-49). -/
def findCompatible (s : Semver V R) (xs : List (Extension V)) (url : Text) (name : Option Text) (req : Option R) : Option Nat :=
  match xs.findIdx? (fun x => x.manifest.urls.any (fun u => u == url)) with
  | some i => some i
  | none =>
    match name, req with
    | some n, some r => xs.findIdx? (fun x => x.manifest.id.compatible s n r)
    | some n, none => byName xs n
    | none, _ => none

/-! ## The URLs of links -/

/-- `last.strip_prefix("v").unwrap_or(last)` -/
def stripV : Text → Text
  | 'v' :: rest => rest
  | t => t

/-- The end of the path: the segments are in reverse (link_directive.rs:58-80). -/
def nameAndReq (s : Semver V R) (last : Text) (rest : List Text) : Option Text × Option R :=
  match s.caret (stripV last) with
  | some req => (rest.head?, some req)
  | none => (some last, none)

/-- `LinkUrl::from` (link_directive.rs:41-85): `none` when the text is no URL. -/
def linkUrl (s : Semver V R) (u : Option LinkNames.Url) : Option Text × Option R :=
  match u with
  | none => (none, none)
  | some u =>
    match u.segments with
    | none => (none, none)
    | some segments =>
      match segments.reverse with
      | [] => (none, none)
      | last :: rest =>
        if u.scheme = "file".toList ∧ last = "build".toList then
          match rest with
          | [] => (none, none)
          | next :: rest => nameAndReq s next rest
        else nameAndReq s last rest

/-- An extension of the schema: the URL as a text and parsed, and the identifier in the manifest at the URL if it is that of a
file which can be read (extension/mod.rs:77-84). -/
structure Wanted (V : Type) where
  url : Text
  parsed : Option LinkNames.Url
  file : Option (Id V)

/-- The extension found for one of the schema (extension/mod.rs:77-99). -/
def resolve [DecidableEq V] (s : Semver V R) (xs : List (Extension V)) (w : Wanted V) : Option Nat :=
  (w.file.bind (fun id => xs.findIdx? (fun x => decide (x.manifest.id = id)))).or
    (findCompatible s xs w.url (linkUrl s w.parsed).1 (linkUrl s w.parsed).2)

/-- The extensions of the schema and those found for them, or the URLs for which there is none (extension/mod.rs:76-116 and
137-141). -/
def resolveAll [DecidableEq V] (s : Semver V R) (xs : List (Extension V)) :
    List (Text × Wanted V) → List (Text × Nat) × List Text
  | [] => ([], [])
  | (n, w) :: rest =>
    match resolve s xs w with
    | none => ((resolveAll s xs rest).1, w.url :: (resolveAll s xs rest).2)
    | some i => ((n, i) :: (resolveAll s xs rest).1, (resolveAll s xs rest).2)

/-- The end of `load` (extension/mod.rs:137-141). -/
def schemaExtensions [DecidableEq V] (s : Semver V R) (xs : List (Extension V)) (ws : List (Text × Wanted V)) :
    Except (List Text) (List (Text × Nat)) :=
  if (resolveAll s xs ws).2.isEmpty then .ok (resolveAll s xs ws).1 else .error (resolveAll s xs ws).2

/-! ## Identifiers as texts -/

/-- `Display` of `Id` (id.rs:9-13). -/
def Id.display (s : Semver V R) (i : Id V) : Text := i.name ++ '-' :: s.text i.version

/-- `str::rsplit_once('-')` -/
def rsplit : Text → Option (Text × Text)
  | [] => none
  | c :: rest =>
    match rsplit rest with
    | some (a, b) => some (c :: a, b)
    | none => if c = '-' then some ([], rest) else none

/-- The result of `Id::from_str`. -/
inductive Read (V : Type) where
  | ok (id : Id V)
  | error
  /-- `unwrap` on `None` -/
  | panic
deriving DecidableEq

/-- `FromStr` of `Id` (id.rs:15-24). -/
def readId (s : Semver V R) (t : Text) : Read V :=
  match rsplit t with
  | none => .panic
  | some (name, version) =>
    match s.parse version with
    | none => .error
    | some v => .ok ⟨name, v⟩

end Verif.Extensions
