import Verif.EnvString.Model
/-!
# Loading of the configuration

Model of `Loader::load` and `Config::with_absolute_paths`, `crates/gateway-config/src/lib.rs:62-167, 227-278`, and of
what a hot reload reads instead, `crates/federated-server/src/hot_reload.rs:79-96`.

Simplifications:
* Reading of files (`Disk.read`, relative paths against the directory of the process), parsing of TOML
  (`Disk.parse`) and deserialisation (`Disk.decode`) are parameters. A hot reload deserialises directly from the text,
  which is taken to be the same as from the parsed value.
* Of the configuration only what has to do with paths is kept; `rest` is everything else, with paths that are left as
  they are such as those of `tls`.
* A path is whether it starts at the root, and its components (`.` and empty ones left out).
* Errors are kept as far as they name a place; the message of the expansion is `Verif.EnvString`'s.
-/
namespace Verif.ConfigLoad

abbrev Str := List Char

/-! ## Values -/

mutual
/-- `toml::Value`; integers, floats, booleans and dates are `other`. -/
inductive Toml where
  | str (s : Str)
  | other (text : Str)
  | arr (vs : Toms)
  | table (es : Entries)
inductive Toms where
  | nil
  | cons (v : Toml) (rest : Toms)
inductive Entries where
  | nil
  | cons (k : Str) (v : Toml) (rest : Entries)
end

/-- `Result<&str, usize>`, a step of a path. -/
inductive Seg where
  | key (k : Str)
  | index (i : Nat)
  deriving DecidableEq, Repr

/-- How a step is written, lib.rs:110-118. -/
def Seg.text : Seg → Str
  | .key k => k ++ ['.']
  | .index i => ['['] ++ (toString i).toList ++ [']']

/-- `if p.ends_with('.') { p.pop(); }`, lib.rs:119-121. -/
def popDot (p : Str) : Str := if p.getLast? = some '.' then p.dropLast else p

/-- lib.rs:109-121 -/
def pathText (path : List Seg) : Str := popDot (path.flatMap Seg.text)

mutual
/-- `expand_dynamic_strings`, lib.rs:100-146. -/
def expand (env : Str → Option Str) (path : List Seg) : Toml → Except (Str × EnvString.Err) Toml
  | .str s =>
    match EnvString.expand env s with
    | .ok out => .ok (.str out)
    | .error e => .error (pathText path, e)
  | .other t => .ok (.other t)
  | .arr vs =>
    match expandAll env path 0 vs with
    | .ok out => .ok (.arr out)
    | .error e => .error e
  | .table es =>
    match expandEntries env path es with
    | .ok out => .ok (.table out)
    | .error e => .error e
def expandAll (env : Str → Option Str) (path : List Seg) (i : Nat) : Toms → Except (Str × EnvString.Err) Toms
  | .nil => .ok .nil
  | .cons v rest =>
    match expand env (path ++ [.index i]) v with
    | .error e => .error e
    | .ok v' =>
      match expandAll env path (i + 1) rest with
      | .error e => .error e
      | .ok rest' => .ok (.cons v' rest')
def expandEntries (env : Str → Option Str) (path : List Seg) : Entries → Except (Str × EnvString.Err) Entries
  | .nil => .ok .nil
  | .cons k v rest =>
    match expand env (path ++ [.key k]) v with
    | .error e => .error e
    | .ok v' =>
      match expandEntries env path rest with
      | .error e => .error e
      | .ok rest' => .ok (.cons k v' rest')
end

/-! ## Paths -/

structure Path where
  absolute : Bool
  parts : List Str
  deriving DecidableEq, Repr

/-- `Path::join` -/
def Path.join (a b : Path) : Path := if b.absolute then b else ⟨a.absolute, a.parts ++ b.parts⟩

/-- `Path::parent` -/
def Path.parent (p : Path) : Option Path := if p.parts = [] then none else some ⟨p.absolute, p.parts.dropLast⟩

/-- `ExtensionConfig` -/
inductive Ext where
  | version
  | structured (path : Option Path)
  deriving DecidableEq, Repr

structure Config (ρ : Type) where
  path : Option Path
  /-- by name, `schema_path` -/
  subgraphs : List (Str × Option Path)
  extensions : List (Str × Ext)
  /-- `wasm` with its `cache_path` -/
  wasm : Option (Option Path)
  rest : ρ
  deriving DecidableEq, Repr

variable {ρ : Type}

/-- `parent_dir_path`, lib.rs:231-236. -/
def Config.parentDir (c : Config ρ) : Option Path :=
  match c.path with
  | none => none
  | some p =>
    match p.parent with
    | none => none
    | some d => if d.absolute then some d else none

/-- `if path.is_relative() { *path = parent.join(&path) }` -/
def fix (parent : Path) : Option Path → Option Path
  | none => none
  | some p => if p.absolute then some p else some (parent.join p)

def fixExt (parent : Path) : Ext → Ext
  | .version => .version
  | .structured p => .structured (fix parent p)

/-- `with_absolute_paths`, lib.rs:238-270. -/
def Config.withAbsolutePaths (c : Config ρ) : Option (Config ρ) :=
  match c.parentDir with
  | none => none
  | some parent =>
    some { c with
      subgraphs := c.subgraphs.map fun s => (s.1, fix parent s.2)
      extensions := c.extensions.map fun e => (e.1, fixExt parent e.2)
      wasm := match c.wasm with
        | none => none
        | some p => some (fix parent p) }

/-! ## Loading -/

structure Disk (ρ : Type) where
  /-- `read_to_string` -/
  read : Path → Option Str
  /-- `Path::exists` -/
  exist : Path → Bool
  parse : Str → Option Toml
  decode : Toml → Option (Config ρ)
  /-- `std::env::current_dir` -/
  cwd : Option Path
  env : Str → Option Str

inductive Fault where
  | cwd
  | read
  | parse
  | expand (place : Str) (e : EnvString.Err)
  | decode
  deriving DecidableEq, Repr

inductive Outcome (ρ : Type) where
  | none
  | ok (c : Config ρ)
  | err (f : Fault)
  | panic
  deriving DecidableEq, Repr

def configFile : Path := ⟨false, ["grafbase.toml".toList]⟩

/-- The directory relative paths are joined to: the loader's or the process's. -/
def currentDir (d : Disk ρ) (dir : Option Path) : Option Path :=
  match dir with
  | some p => some p
  | none => d.cwd

/-- From the text of the file to the configuration, lib.rs:91-152. -/
def readConfig (d : Disk ρ) (path : Path) : Except Fault (Config ρ) :=
  match d.read path with
  | none => .error .read
  | some content =>
    match d.parse content with
    | none => .error .parse
    | some raw =>
      match expand d.env [] raw with
      | .error e => .error (.expand e.1 e.2)
      | .ok value =>
        match d.decode value with
        | none => .error .decode
        | some c => .ok c

/-- lib.rs:148-167 -/
def loadFile (d : Disk ρ) (dir : Option Path) (path : Path) : Outcome ρ :=
  match readConfig d path with
  | .error f => .err f
  | .ok config =>
    if path.absolute then
      match { config with path := some path }.withAbsolutePaths with
      | none => .panic
      | some c => .ok c
    else
      match currentDir d dir with
      | none => .err .cwd
      | some cdir =>
        match { config with path := some (cdir.join path) }.withAbsolutePaths with
        | none => .panic
        | some c => .ok c

/-- `Loader::load`, lib.rs:74-168. -/
def load (d : Disk ρ) (dir : Option Path) (path : Option Path) : Outcome ρ :=
  match path with
  | some p => loadFile d dir p
  | none =>
    match currentDir d dir with
    | none => .err .cwd
    | some cdir =>
      if d.exist (cdir.join configFile) then loadFile d dir (cdir.join configFile) else .none

/-- What `reload_config` reads, hot_reload.rs:80-96. -/
def reload (d : Disk ρ) (path : Path) : Option (Config ρ) :=
  match d.read path with
  | none => none
  | some content =>
    match d.parse content with
    | none => none
    | some raw => d.decode raw

end Verif.ConfigLoad
