import Verif.ConfigLoad.Lemmas
import Verif.EnvString.Props
/-!
# C91: what a configuration file says is what is loaded
-/
namespace Verif.ConfigLoad

open Spec

variable {ρ : Type}

/-! ## The environment -/

theorem first_unique {env : Str → Option Str} {l : List (List Seg × Str)} {p p' : List Seg} {e e' : EnvString.Err}
    (h : First env l p e) (h' : First env l p' e') : p = p' ∧ e = e' := by
  obtain ⟨pre, s, post, rfl, h2, h3⟩ := h
  obtain ⟨pre', s', post', h1', h2', h3'⟩ := h'
  rcases List.append_eq_append_iff.mp h1' with ⟨t, ht, ht'⟩ | ⟨t, ht, ht'⟩
  · cases t with
    | nil =>
      simp only [List.nil_append, List.cons.injEq, Prod.mk.injEq] at ht'
      obtain ⟨⟨rfl, rfl⟩, -⟩ := ht'
      rw [h3] at h3'
      cases h3'
      exact ⟨rfl, rfl⟩
    | cons x t =>
      simp only [List.cons_append, List.cons.injEq] at ht'
      obtain ⟨rfl, -⟩ := ht'
      obtain ⟨o, ho⟩ := h2' (p, s) (by rw [ht]; simp)
      rw [h3] at ho
      cases ho
  · cases t with
    | nil =>
      simp only [List.nil_append, List.cons.injEq, Prod.mk.injEq] at ht'
      obtain ⟨⟨rfl, rfl⟩, -⟩ := ht'
      rw [h3] at h3'
      cases h3'
      exact ⟨rfl, rfl⟩
    | cons x t =>
      simp only [List.cons_append, List.cons.injEq] at ht'
      obtain ⟨rfl, -⟩ := ht'
      obtain ⟨o, ho⟩ := h2 (p', s') (by rw [ht]; simp)
      rw [h3'] at ho
      cases ho

theorem first_not_expanded {env : Str → Option Str} {l l' : List (List Seg × Str)} {p : List Seg} {e : EnvString.Err}
    (h : First env l p e) (h' : Expanded env l l') : False := by
  obtain ⟨pre, s, post, rfl, -, h3⟩ := h
  obtain ⟨o, ho⟩ := all_ok h' (x := (p, s)) (by simp)
  rw [h3] at ho
  cases ho

theorem expanded_unique {env : Str → Option Str} {l a b : List (List Seg × Str)} (h : Expanded env l a)
    (h' : Expanded env l b) : a = b := by
  unfold Expanded at h h'
  rw [h] at h'
  have inj : ∀ (a b : List (List Seg × Str)), a.map (fun x => (x.1, (Except.ok x.2 : Except EnvString.Err Str))) =
      b.map (fun x => (x.1, Except.ok x.2)) → a = b := by
    intro a
    induction a with
    | nil => intro b hb; cases b with
      | nil => rfl
      | cons _ _ => simp at hb
    | cons x a ih =>
      intro b hb
      cases b with
      | nil => simp at hb
      | cons y b =>
        simp only [List.map_cons, List.cons.injEq, Prod.mk.injEq, Except.ok.injEq] at hb
        rw [ih b hb.2, Prod.ext hb.1.1 hb.1.2]
  exact inj a b h'

/-- The expansion gives a value exactly when it has the same tables, arrays, keys and other values in the same places,
and every string is the expansion of the string at its place. -/
theorem C91_expand (env : Str → Option Str) (v r : Toml) :
    expand env [] v = .ok r ↔ shape r = shape v ∧ Expanded env (strings v) (strings r) := by
  constructor
  · exact fun h => expand_ok v h
  · rintro ⟨h1, h2⟩
    cases hx : expand env [] v with
    | error e =>
      obtain ⟨p, h3, -⟩ := expand_err v (t := e.1) (e := e.2) hx
      exact (first_not_expanded h3 h2).elim
    | ok r' =>
      obtain ⟨h3, h4⟩ := expand_ok v hx
      rw [determined r r' (h1.trans h3.symm) (expanded_unique h2 h4)]

/-- It fails exactly when a string cannot be expanded, and tells the place and the error of the first one. -/
theorem C91_expand_error (env : Str → Option Str) (v : Toml) (t : Str) (e : EnvString.Err) :
    expand env [] v = .error (t, e) ↔ ∃ p, First env (strings v) p e ∧ t = place p := by
  constructor
  · intro h
    obtain ⟨p, h1, h2⟩ := expand_err v h
    exact ⟨p, h1, by rw [h2, place_eq]; simp⟩
  · rintro ⟨p, h1, rfl⟩
    cases hx : expand env [] v with
    | ok r => exact (first_not_expanded h1 (expand_ok v hx).2).elim
    | error e' =>
      obtain ⟨p', h3, h4⟩ := expand_err v (t := e'.1) (e := e'.2) hx
      obtain ⟨rfl, rfl⟩ := first_unique h1 h3
      rw [place_eq] at h4
      simp only [List.nil_append] at h4
      rw [← h4]

/-- Values without placeholders stay as they are, whatever the environment. -/
theorem C91_expand_plain (env : Str → Option Str) (v : Toml) (h : ∀ x ∈ strings v, EnvString.Plain x.2) :
    expand env [] v = .ok v := by
  rw [C91_expand]
  refine ⟨rfl, ?_⟩
  unfold Expanded
  apply List.map_congr_left
  intro x hx
  rw [EnvString.C28_plain env x.2 (h x hx)]

/-- An environment with one variable. -/
def caseEnv : Str → Option Str := fun n => if n = "A".toList then some "{{ env.B }}".toList else none

/-- The value of a variable is not expanded again, and places are told. -/
theorem C91_expand_case :
    expand caseEnv [] (.table (.cons "k".toList (.arr (.cons (.other "1".toList) (.cons (.str "x{{ env.A }}".toList) .nil))) .nil)) =
      .ok (.table (.cons "k".toList (.arr (.cons (.other "1".toList) (.cons (.str "x{{ env.B }}".toList) .nil))) .nil)) ∧
    expand caseEnv [] (.table (.cons "k".toList (.arr (.cons (.table (.cons "l".toList (.str "{{ env.B }}".toList) .nil)) .nil)) .nil)) =
      .error ("k.[0]l".toList, .unset "B".toList) := by
  constructor <;> rfl

/-- What is loaded is decoded from the expansion of what the file says. -/
theorem C91_read (d : Disk ρ) (p : Path) (c : Config ρ) :
    readConfig d p = .ok c ↔ ∃ content raw v, d.read p = some content ∧ d.parse content = some raw ∧
      shape v = shape raw ∧ Expanded d.env (strings raw) (strings v) ∧ d.decode v = some c := by
  constructor
  · intro h
    unfold readConfig at h
    split at h
    · cases h
    · rename_i content hc
      split at h
      · cases h
      · rename_i raw hr
        split at h
        · cases h
        · rename_i v hv
          split at h
          · cases h
          · rename_i c' hd
            cases h
            obtain ⟨h1, h2⟩ := (C91_expand d.env raw v).mp hv
            exact ⟨content, raw, v, hc, hr, h1, h2, hd⟩
  · rintro ⟨content, raw, v, h1, h2, h3, h4, h5⟩
    have hv := (C91_expand d.env raw v).mpr ⟨h3, h4⟩
    simp only [readConfig, h1, h2, hv, h5]

/-- If a string cannot be expanded, loading fails and tells the place of the first such string. -/
theorem C91_read_error (d : Disk ρ) (dir : Option Path) (p : Path) (content : Str) (raw : Toml) (q : List Seg)
    (e : EnvString.Err) (h1 : d.read p = some content) (h2 : d.parse content = some raw)
    (h3 : First d.env (strings raw) q e) : loadFile d dir p = .err (.expand (place q) e) := by
  have hv := (C91_expand_error d.env raw (place q) e).mpr ⟨q, h3, rfl⟩
  simp only [loadFile, readConfig, h1, h2, hv]

/-! ## Paths -/

theorem current {d : Disk ρ} {dir : Option Path} {cd : Path} (h : currentDir d dir = some cd) :
    dir = some cd ∨ dir = none ∧ d.cwd = some cd := by
  cases dir with
  | none => exact Or.inr ⟨rfl, h⟩
  | some x => exact Or.inl h

/-- A loaded configuration has the absolute path of its file; the paths of schemas, extensions and of the cache lead
where they lead from the directory of the file, in order, and all else is as written. -/
theorem C91_paths (d : Disk ρ) (dir : Option Path) (p : Path) (c : Config ρ) (h : loadFile d dir p = .ok c) :
    ∃ raw q, readConfig d p = .ok raw ∧ c.path = some q ∧ Rooted q ∧ q.parts ≠ [] ∧
      (p.absolute = true → q = p) ∧ (p.absolute = false → ∃ cd, (dir = some cd ∨ dir = none ∧ d.cwd = some cd) ∧ q.parts = cd.parts ++ p.parts) ∧
      paths c = (paths raw).map (resolved q.parts.dropLast) ∧ c.rest = raw.rest ∧
      c.subgraphs.map (·.1) = raw.subgraphs.map (·.1) ∧ c.extensions.map (·.1) = raw.extensions.map (·.1) := by
  unfold loadFile at h
  split at h
  · cases h
  · rename_i raw hr
    have key : ∀ (q' : Path) (c' : Config ρ), ({ raw with path := some q' } : Config ρ).withAbsolutePaths = some c' →
        c'.path = some q' ∧ Rooted q' ∧ q'.parts ≠ [] ∧ paths c' = (paths raw).map (resolved q'.parts.dropLast) ∧
        c'.rest = raw.rest ∧ c'.subgraphs.map (·.1) = raw.subgraphs.map (·.1) ∧
        c'.extensions.map (·.1) = raw.extensions.map (·.1) := by
      intro q' c' hc
      obtain ⟨q, h1, h2, h3, rfl⟩ := absolute_some hc
      cases h1
      refine ⟨rfl, h2, h3, ?_, rfl, by simp [Function.comp_def], by simp [Function.comp_def]⟩
      exact (paths_resolved ({ raw with path := some q' } : Config ρ) (resolved q'.parts.dropLast)).trans rfl
    split at h
    · rename_i ha
      split at h
      · cases h
      · rename_i c' hc
        cases h
        obtain ⟨k1, k2, k3, k4, k5, k6, k7⟩ := key p c hc
        exact ⟨raw, p, hr, k1, k2, k3, fun _ => rfl, fun hf => (by rw [ha] at hf; cases hf), k4, k5, k6, k7⟩
    · rename_i ha
      split at h
      · cases h
      · rename_i cd hcd
        split at h
        · cases h
        · rename_i c' hc
          cases h
          obtain ⟨k1, k2, k3, k4, k5, k6, k7⟩ := key (cd.join p) c hc
          refine ⟨raw, cd.join p, hr, k1, k2, k3, fun hf => absurd hf ha, fun _ => ⟨cd, current hcd, ?_⟩, k4, k5, k6, k7⟩
          simp [Path.join, ha]

/-- So these paths are absolute. -/
theorem C91_absolute (d : Disk ρ) (dir : Option Path) (p : Path) (c : Config ρ) (h : loadFile d dir p = .ok c) :
    ∀ x ∈ paths c, Rooted x := by
  obtain ⟨raw, q, -, -, -, -, -, -, h1, -⟩ := C91_paths d dir p c h
  intro x hx
  rw [h1] at hx
  obtain ⟨y, -, rfl⟩ := List.mem_map.mp hx
  unfold resolved Rooted
  split
  · assumption
  · rfl

/-- Loading panics exactly when the file could be read but its path, joined to the current directory, is the root or
is not absolute. -/
theorem C91_panic (d : Disk ρ) (dir : Option Path) (p : Path) :
    loadFile d dir p = .panic ↔ (∃ raw, readConfig d p = .ok raw) ∧
      ((p.absolute = true ∧ p.parts = []) ∨
        (p.absolute = false ∧ ∃ cd, currentDir d dir = some cd ∧ (cd.absolute = false ∨ cd.parts ++ p.parts = []))) := by
  unfold loadFile
  cases hr : readConfig d p with
  | error f => simp
  | ok raw =>
    cases ha : p.absolute with
    | true =>
      have := absolute_none (c := ({ raw with path := some p } : Config ρ)) (q := p) rfl
      rw [ha] at this
      cases hx : ({ raw with path := some p } : Config ρ).withAbsolutePaths with
      | none => simpa [hx] using this.mp hx
      | some c' =>
        have hn : p.parts ≠ [] := fun hp => by
          have h2 := this.mpr (Or.inr hp)
          rw [hx] at h2
          cases h2
        simp [hx, hn]
    | false =>
      cases hcd : currentDir d dir with
      | none => simp
      | some cd =>
        have := absolute_none (c := ({ raw with path := some (cd.join p) } : Config ρ)) (q := cd.join p) rfl
        have hj : cd.join p = ⟨cd.absolute, cd.parts ++ p.parts⟩ := by simp [Path.join, ha]
        rw [hj] at this
        simp only [hj]
        cases hx : ({ raw with path := some ⟨cd.absolute, cd.parts ++ p.parts⟩ } : Config ρ).withAbsolutePaths with
        | none =>
          have h2 := this.mp hx
          simp only [Bool.false_eq_true, if_false, hx, true_iff]
          exact ⟨⟨raw, rfl⟩, Or.inr ⟨trivial, cd, rfl, h2⟩⟩
        | some c' =>
          simp only [Bool.false_eq_true, if_false, hx]
          constructor
          · intro h; cases h
          · rintro ⟨-, h3 | ⟨-, cd', h4, h5⟩⟩
            · exact absurd h3.1 (by simp)
            · cases h4
              rw [this.mpr h5] at hx
              cases hx

/-- In particular it does not when the directory is the process's, which is absolute, and the path is not that of a
directory above all files. -/
theorem C91_no_panic (d : Disk ρ) (p : Path) (hp : p.parts ≠ []) (hc : ∀ cd, d.cwd = some cd → cd.absolute = true) :
    loadFile d none p ≠ .panic := by
  intro h
  obtain ⟨-, h⟩ := (C91_panic d none p).mp h
  rcases h with ⟨-, h⟩ | ⟨-, cd, h1, h2 | h2⟩
  · exact hp h
  · rw [hc cd h1] at h2; cases h2
  · exact hp (List.append_eq_nil_iff.mp h2).2

/-- Without a path the file of the current directory is loaded, if there is one. -/
theorem C91_default (d : Disk ρ) (dir : Option Path) (cd : Path) (hcd : dir = some cd ∨ dir = none ∧ d.cwd = some cd)
    (hr : cd.absolute = true) : load d dir none =
      if d.exist ⟨true, cd.parts ++ ["grafbase.toml".toList]⟩ then
        loadFile d dir ⟨true, cd.parts ++ ["grafbase.toml".toList]⟩ else .none := by
  unfold load
  have h : currentDir d dir = some cd := by
    rcases hcd with rfl | ⟨rfl, h⟩
    · rfl
    · exact h
  have hj : cd.join configFile = ⟨true, cd.parts ++ ["grafbase.toml".toList]⟩ := by
    simp [Path.join, configFile, hr]
  simp only [h, hj]

theorem C91_given (d : Disk ρ) (dir : Option Path) (p : Path) : load d dir (some p) = loadFile d dir p := rfl

/-! ## Hot reloads -/

/-- A hot reload gives the configuration of a start if the file has no placeholders and no relative paths of schemas,
extensions and caches, up to the path of the file. -/
theorem C91_reload_partial (d : Disk ρ) (dir : Option Path) (p : Path) (c c' : Config ρ) (content : Str) (raw : Toml)
    (h1 : d.read p = some content) (h2 : d.parse content = some raw) (h3 : ∀ x ∈ strings raw, EnvString.Plain x.2)
    (h4 : reload d p = some c') (h5 : ∀ x ∈ paths c', Rooted x) (h6 : loadFile d dir p = .ok c) :
    paths c = paths c' ∧ c.rest = c'.rest := by
  obtain ⟨raw', q, k1, -, -, -, -, -, k4, k5, -⟩ := C91_paths d dir p c h6
  have hd : d.decode raw = some c' := by simpa [reload, h1, h2] using h4
  have hr : readConfig d p = .ok c' := by
    simp only [readConfig, h1, h2, C91_expand_plain d.env raw h3, hd]
  rw [k1] at hr
  cases hr
  refine ⟨?_, k5⟩
  rw [k4]
  conv => rhs; rw [← List.map_id (paths c')]
  apply List.map_congr_left
  intro x hx
  unfold resolved
  have := h5 x hx
  unfold Rooted at this
  rw [if_pos this]
  rfl

/-- A disk with one file, whose strings are kept, the second one as the path of a schema. -/
def caseDisk : Disk (List Str) :=
  { read := fun _ => some "c".toList
    exist := fun _ => true
    parse := fun _ => some (.table (.cons "k".toList (.str "{{ env.A }}".toList) .nil))
    decode := fun v => some
      { path := none
        subgraphs := [("s".toList, some ⟨false, ["s".toList]⟩)]
        extensions := []
        wasm := none
        rest := (match v with | .table (.cons _ (.str s) .nil) => [s] | _ => []) }
    cwd := some ⟨true, ["w".toList]⟩
    env := fun _ => some "v".toList }

/-- With placeholders or relative paths a hot reload gives another configuration than a start from the same file. -/
theorem C91_reload_false : ∃ c c', loadFile caseDisk none configFile = .ok c ∧ reload caseDisk configFile = some c' ∧
    c.rest = ["v".toList] ∧ c'.rest = ["{{ env.A }}".toList] ∧
    paths c = [⟨true, ["w".toList, "s".toList]⟩] ∧ paths c' = [⟨false, ["s".toList]⟩] :=
  ⟨_, _, rfl, rfl, rfl, rfl, rfl, rfl⟩

/-- A loader with a relative directory panics. -/
theorem C91_panic_false : loadFile caseDisk (some ⟨false, ["d".toList]⟩) configFile = .panic := by rfl

/-- A loader with a directory of its own reads a relative path from the directory of the process, but gives the
configuration the path in its own. -/
theorem C91_file_false : ∃ c, loadFile caseDisk (some ⟨true, ["d".toList]⟩) configFile = .ok c ∧
    c.path = some ⟨true, ["d".toList, "grafbase.toml".toList]⟩ ∧
    ∀ f : Path → Option Str, f configFile = some "c".toList →
      loadFile { caseDisk with read := f } (some ⟨true, ["d".toList]⟩) configFile = .ok c :=
  ⟨_, rfl, rfl, fun f hf => by
    simp only [loadFile, readConfig, hf]
    rfl⟩

/-- The hypotheses of `C91_reload_partial` can be met. -/
theorem C91_reload_case : ∃ (d : Disk Nat) (p : Path) (c c' : Config Nat) (content : Str) (raw : Toml),
    d.read p = some content ∧ d.parse content = some raw ∧ (∀ x ∈ strings raw, EnvString.Plain x.2) ∧
    reload d p = some c' ∧ (∀ x ∈ paths c', Rooted x) ∧ loadFile d none p = .ok c ∧
    paths c = [⟨true, ["s".toList]⟩] :=
  ⟨{ read := fun _ => some [], exist := fun _ => true, parse := fun _ => some (.table .nil),
     decode := fun _ => some ⟨none, [("s".toList, some ⟨true, ["s".toList]⟩)], [], none, 0⟩,
     cwd := some ⟨true, []⟩, env := fun _ => none }, configFile, _, _, [], .table .nil, rfl, rfl,
    (by intro x hx; simp [strings, stringsEntries] at hx), rfl,
    (by intro x hx; simp [paths] at hx; subst hx; rfl), rfl, rfl⟩

end Verif.ConfigLoad
