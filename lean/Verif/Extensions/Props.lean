import Verif.Extensions.Witness

/-!
# C92: the extensions are those the configuration and the schema ask for
-/
namespace Verif.Extensions

variable {V R : Type}

/-- Of the directories of an extension, the one taken has a version which meets the requirement, and there is no higher one. -/
theorem C92_directory {s : Semver V R} (l : s.Laws) (req : R) (entries : List (Option Entry)) (h : none ∉ entries)
    (v : V) (name : Text) : pick s req none entries = .ok (some (v, name)) ↔ Highest s req entries v name :=
  pick_iff l h v name

/-- There is none exactly when no directory matches, and an error when an entry cannot be read. -/
theorem C92_no_directory {s : Semver V R} (l : s.Laws) (req : R) (entries : List (Option Entry)) :
    (none ∉ entries → (pick s req none entries = .ok none ↔ ∀ v n, ¬ Matching s req entries v n)) ∧
      (none ∈ entries → pick s req none entries = .error .entry) :=
  ⟨fun h => pick_none_iff l h, fun h => pick_error h none⟩

/-- The order in which the directory is read does not matter. -/
theorem C92_order {s : Semver V R} (l : s.Laws) (req : R) (a b : List (Option Entry)) (h : ∀ e, e ∈ a ↔ e ∈ b) :
    pick s req none a = pick s req none b := by
  have hm : ∀ v n, Matching s req a v n ↔ Matching s req b v n := by
    intro v n
    unfold Matching
    constructor
    · rintro ⟨⟨e, he, h1⟩, h2⟩; exact ⟨⟨e, (h _).1 he, h1⟩, h2⟩
    · rintro ⟨⟨e, he, h1⟩, h2⟩; exact ⟨⟨e, (h _).2 he, h1⟩, h2⟩
  by_cases hn : none ∈ a
  · rw [pick_error hn, pick_error ((h none).1 hn)]
  · have hn' : none ∉ b := fun hb => hn ((h none).2 hb)
    obtain ⟨r, hr, _⟩ := pick_ok l (req := req) hn none
    rw [hr]
    cases r with
    | none =>
      have := (pick_none_iff l hn).1 hr
      exact ((pick_none_iff l hn').2 (fun v n hh => this v n ((hm v n).2 hh))).symm
    | some p =>
      obtain ⟨v, n⟩ := p
      have hh := (pick_iff l hn v n).1 hr
      exact ((pick_iff l hn' v n).2 ⟨(hm _ _).1 hh.1, fun w m hw => hh.2 w m ((hm _ _).2 hw)⟩).symm

/-- A directory is loaded exactly when it has a program and a manifest with the name in the configuration. -/
theorem C92_load [DecidableEq V] (d : Disk V) (dir : Path) (key : Text) (x : Extension V)
    (hr : ∀ files, d.files dir = some files → none ∉ files) : load d dir key = .ok x ↔ Holds d dir key x :=
  ⟨load_sound, load_complete hr⟩

/-- The catalog has the extensions of the configuration, in its order, each from the place given or from the highest version
which was installed and matches. -/
theorem C92_catalog [DecidableEq V] {s : Semver V R} (l : s.Laws) (d : Disk V) (cwd : Path) (cs : List (Text × Config R))
    (xs : List (Extension V)) (h : catalog s d cwd cs = .ok xs) : Loaded s d cwd cs xs :=
  catalog_sound l h

/-- If every directory can be read, there is a catalog whenever all the extensions are there. -/
theorem C92_catalog_complete [DecidableEq V] {s : Semver V R} (l : s.Laws) (d : Disk V) (cwd : Path)
    (hr : ∀ dir files, d.files dir = some files → none ∉ files) (cs : List (Text × Config R)) (xs : List (Extension V)) :
    catalog s d cwd cs = .ok xs ↔ Loaded s d cwd cs xs :=
  ⟨catalog_sound l, catalog_complete l hr⟩

/-- The keys of a configuration are distinct, so no two extensions have the same name: the extension with a name is the one with
that key. -/
theorem C92_names [DecidableEq V] {s : Semver V R} (l : s.Laws) (d : Disk V) (cwd : Path) (cs : List (Text × Config R))
    (xs : List (Extension V)) (hk : (cs.map (·.1)).Pairwise (· ≠ ·)) (h : catalog s d cwd cs = .ok xs) :
    (∀ n, byName xs n = byKey xs n) ∧
      ∀ (i j : Nat) (x y : Extension V), xs[i]? = some x → xs[j]? = some y → x.manifest.id.name = y.manifest.id.name → i = j := by
  have hl := catalog_sound l h
  obtain ⟨h1, h2⟩ := loaded_keys hl
  refine ⟨?_, ?_⟩
  · intro n
    have hall : ∀ x ∈ xs, x.manifest.id.name = x.key := by
      intro x hx
      obtain ⟨key, c, dir, _, _, hh⟩ := loaded_mem hl hx
      rw [hh.1, hh.2.1]
    have gen : ∀ ys : List (Extension V), (∀ x ∈ ys, x.manifest.id.name = x.key) → byName ys n = byKey ys n := by
      intro ys
      induction ys with
      | nil => intro _; rfl
      | cons y rest ih =>
        intro hy
        have h3 := hy y List.mem_cons_self
        have h4 := ih (fun x hx => hy x (List.mem_cons_of_mem _ hx))
        unfold byName byKey at h4 ⊢
        rw [List.findIdx?_cons, List.findIdx?_cons, h3, h4]
    exact gen xs hall
  · intro i j x y hi hj hn
    rw [← h2] at hk
    have hi' : (xs.map (·.manifest.id.name))[i]? = some x.manifest.id.name := by rw [List.getElem?_map, hi]; rfl
    have hj' : (xs.map (·.manifest.id.name))[j]? = some y.manifest.id.name := by rw [List.getElem?_map, hj]; rfl
    rw [List.pairwise_iff_getElem] at hk
    obtain ⟨hi1, hi2⟩ := List.getElem?_eq_some_iff.1 hi'
    obtain ⟨hj1, hj2⟩ := List.getElem?_eq_some_iff.1 hj'
    rcases Nat.lt_trichotomy i j with hij | hij | hij
    · exact absurd (by rw [hi2, hj2, hn]) (hk i j hi1 hj1 hij)
    · exact hij
    · exact absurd (by rw [hi2, hj2, hn]) (hk j i hj1 hi1 hij)

/-- If the manifests which were installed have the versions of their directories, every extension without a path has a version
which meets the requirement. Missing: nothing compares the version of the manifest. -/
theorem C92_version_partial [DecidableEq V] {s : Semver V R} (l : s.Laws) (d : Disk V) (cwd : Path) (hi : Installed s d cwd)
    (cs : List (Text × Config R)) (xs : List (Extension V)) (h : catalog s d cwd cs = .ok xs) :
    ∀ x ∈ xs, ∃ c, (x.key, c) ∈ cs ∧ (c.path = none → s.satisfies c.req x.manifest.id.version = true) := by
  intro x hx
  obtain ⟨key, c, dir, hm, hp, hh⟩ := loaded_mem (catalog_sound l h) hx
  refine ⟨c, by rw [hh.1]; exact hm, ?_⟩
  intro hn
  cases hp with
  | relative p hp => rw [hp] at hn; cases hn
  | absolute p hp => rw [hp] at hn; cases hn
  | version entries v n _ hv _ hb =>
    have hman := hh.2.2.1
    rw [List.append_assoc] at hman
    have := hi key n x.manifest hman
    rw [hb.1.2.1] at this
    cases this
    exact hb.1.2.2

/-- The version of an extension need not meet the requirement of the configuration: neither with a path, nor when the manifest in
a directory has another version than the directory. -/
theorem C92_version_false :
    ∃ (V R : Type) (_ : DecidableEq V) (s : Semver V R) (_ : s.Laws) (d : Disk V) (cwd : Path) (cs : List (Text × Config R))
      (xs : List (Extension V)), catalog s d cwd cs = .ok xs ∧
      (∃ x ∈ xs, ∃ c, (x.key, c) ∈ cs ∧ c.path = none ∧ s.satisfies c.req x.manifest.id.version = false) ∧
      ∃ x ∈ xs, ∃ c, (x.key, c) ∈ cs ∧ c.path ≠ none ∧ s.satisfies c.req x.manifest.id.version = false := by
  refine ⟨Fin 5, Fin 6 × Fin 6, inferInstance, Witness.some5, Witness.laws, Witness.disk, Witness.cwd, Witness.config, Witness.loaded,
    rfl, ?_, ?_⟩
  · exact ⟨_, .tail _ (.tail _ (.head _)), _, .tail _ (.tail _ (.head _)), rfl, rfl⟩
  · exact ⟨_, .tail _ (.head _), _, .tail _ (.head _), (by intro h; cases h), rfl⟩

/-- The extension found for a URL, a name and a requirement. -/
theorem C92_find (s : Semver V R) (xs : List (Extension V)) (url : Text) (name : Option Text) (req : Option R) (i : Nat) :
    findCompatible s xs url name req = some i ↔ Answers s xs url name req i :=
  findCompatible_iff s xs url name req i

/-- In the catalog of a configuration the extension with the name is found, if its version meets the requirement and no extension
is associated with the URL. -/
theorem C92_find_named [DecidableEq V] {s : Semver V R} (l : s.Laws) (d : Disk V) (cwd : Path) (cs : List (Text × Config R))
    (xs : List (Extension V)) (hk : (cs.map (·.1)).Pairwise (· ≠ ·)) (h : catalog s d cwd cs = .ok xs) (url : Text)
    (hu : ∀ x ∈ xs, url ∉ x.manifest.urls) (name : Text) (req : Option R) (i : Nat) :
    findCompatible s xs url (some name) req = some i ↔
      ∃ x, xs[i]? = some x ∧ x.key = name ∧ ∀ r, req = some r → s.satisfies r x.manifest.id.version = true := by
  have hl := catalog_sound l h
  have hname : ∀ x ∈ xs, x.manifest.id.name = x.key := by
    intro x hx
    obtain ⟨key, c, dir, _, _, hh⟩ := loaded_mem hl hx
    rw [hh.1, hh.2.1]
  rw [findCompatible_iff]
  constructor
  · rintro (h | ⟨_, n, hn, ⟨x, hx, h1, h2⟩, _⟩)
    · exact (first_not_all h hu).elim
    · cases hn
      exact ⟨x, hx, by rw [← hname x (List.mem_of_getElem? hx)]; exact h1, h2⟩
  · rintro ⟨x, hx, h1, h2⟩
    have hx1 : x.manifest.id.name = name := by rw [hname x (List.mem_of_getElem? hx)]; exact h1
    refine .inr ⟨hu, name, rfl, ⟨x, hx, hx1, h2⟩, ?_⟩
    intro j hj y hy hyn
    have := (C92_names l d cwd cs xs hk h).2 i j x y hx hy (by rw [hx1, hyn.1])
    omega

/-- The name and the requirement read from a URL. -/
theorem C92_url (s : Semver V R) (u : Option LinkNames.Url) (n : Option Text) (r : Option R) :
    linkUrl s u = (n, r) ↔ Means s u n r :=
  linkUrl_iff s u n r

/-- An extension of the schema is found exactly when there is one for it. -/
theorem C92_resolve [DecidableEq V] (s : Semver V R) (xs : List (Extension V)) (w : Wanted V) (i : Nat) :
    resolve s xs w = some i ↔ Found s xs w i :=
  resolve_iff s xs w i

/-- A schema is accepted exactly when there is an extension for each it names, and then these are used; otherwise there is an
error for each URL without one. -/
theorem C92_schema [DecidableEq V] (s : Semver V R) (xs : List (Extension V)) (ws : List (Text × Wanted V)) :
    (∀ ms, schemaExtensions s xs ws = .ok ms →
      (∀ n w, (n, w) ∈ ws → ∃ i, (n, i) ∈ ms ∧ Found s xs w i) ∧ ∀ n i, (n, i) ∈ ms → ∃ w, (n, w) ∈ ws ∧ Found s xs w i) ∧
    (∀ es, schemaExtensions s xs ws = .error es →
      es ≠ [] ∧ ∀ u, u ∈ es ↔ ∃ n w, (n, w) ∈ ws ∧ w.url = u ∧ ∀ i, ¬ Found s xs w i) ∧
    ((∀ n w, (n, w) ∈ ws → ∃ i, Found s xs w i) → ∃ ms, schemaExtensions s xs ws = .ok ms) := by
  have hnone : ∀ w, resolve s xs w = none ↔ ∀ i, ¬ Found s xs w i := by
    intro w
    constructor
    · intro h i hf; rw [(resolve_iff s xs w i).2 hf] at h; cases h
    · intro h
      cases hr : resolve s xs w with
      | none => rfl
      | some i => exact absurd ((resolve_iff s xs w i).1 hr) (h i)
  refine ⟨?_, ?_, ?_⟩
  · intro ms h
    unfold schemaExtensions at h
    split at h
    · rename_i he
      cases h
      rw [List.isEmpty_iff] at he
      refine ⟨?_, ?_⟩
      · intro n w hw
        cases hr : resolve s xs w with
        | none =>
          have : w.url ∈ (resolveAll s xs ws).2 := (resolveAll_urls s xs ws w.url).2 ⟨n, w, hw, rfl, hr⟩
          rw [he] at this; cases this
        | some i => exact ⟨i, (resolveAll_mem s xs ws n i).2 ⟨w, hw, hr⟩, (resolve_iff s xs w i).1 hr⟩
      · intro n i hm
        obtain ⟨w, hw, hr⟩ := (resolveAll_mem s xs ws n i).1 hm
        exact ⟨w, hw, (resolve_iff s xs w i).1 hr⟩
    · cases h
  · intro es h
    unfold schemaExtensions at h
    split at h
    · cases h
    · rename_i he
      cases h
      refine ⟨fun h0 => he (by rw [h0]; rfl), ?_⟩
      intro u
      rw [resolveAll_urls]
      constructor
      · rintro ⟨n, w, h1, h2, h3⟩; exact ⟨n, w, h1, h2, (hnone w).1 h3⟩
      · rintro ⟨n, w, h1, h2, h3⟩; exact ⟨n, w, h1, h2, (hnone w).2 h3⟩
  · intro h
    have he : (resolveAll s xs ws).2 = [] := by
      cases hr : (resolveAll s xs ws).2 with
      | nil => rfl
      | cons u us =>
        have : u ∈ (resolveAll s xs ws).2 := by rw [hr]; exact List.mem_cons_self
        obtain ⟨n, w, h1, _, h3⟩ := (resolveAll_urls s xs ws u).1 this
        obtain ⟨i, hi⟩ := h n w h1
        exact absurd hi ((hnone w).1 h3 i)
    exact ⟨(resolveAll s xs ws).1, by simp [schemaExtensions, he]⟩

/-- The name the engine reads from a URL is the one the composition reads, if the composition reads one, a version is one for
both, and no other GraphQL name is one for the engine. Missing: the engine also reads names which are not GraphQL names and
versions without `v`. -/
theorem C92_consistent_partial (s : Semver V R) (u : LinkNames.Url) (n : Text)
    (names : ∀ t, LinkNames.validName t = true → LinkNames.validVersion t = false → s.caret (stripV t) = none)
    (versions : ∀ segs, u.segments = some segs → ∀ t ∈ segs, LinkNames.validVersion t = true → s.caret (stripV t) ≠ none)
    (h : LinkNames.linkName u = some n) : (linkUrl s (some u)).1 = some n := by
  have step : ∀ last rest, (∀ t ∈ last :: rest, LinkNames.validVersion t = true → s.caret (stripV t) ≠ none) →
      LinkNames.nameAndVersion last rest = some n → (nameAndReq s last rest).1 = some n := by
    intro last rest hv hn
    unfold LinkNames.nameAndVersion at hn
    unfold nameAndReq
    cases hvv : LinkNames.validVersion last with
    | true =>
      rw [hvv] at hn
      cases hc : s.caret (stripV last) with
      | none => exact absurd hc (hv last List.mem_cons_self hvv)
      | some r =>
        cases rest with
        | nil => cases hn
        | cons m rest =>
          simp only [if_true] at hn
          split at hn
          · exact hn
          · cases hn
    | false =>
      rw [hvv] at hn
      simp only [Bool.false_eq_true, if_false] at hn
      by_cases hvn : LinkNames.validName last = true
      · rw [if_pos hvn] at hn
        rw [names last hvn hvv]
        exact hn
      · rw [if_neg hvn] at hn; cases hn
  unfold LinkNames.linkName at h
  unfold linkUrl
  cases hs : u.segments with
  | none => rw [hs] at h; cases h
  | some segs =>
    rw [hs] at h
    simp only at h ⊢
    have hmem : ∀ t ∈ segs.reverse, LinkNames.validVersion t = true → s.caret (stripV t) ≠ none :=
      fun t ht => versions segs hs t (List.mem_reverse.1 ht)
    cases hr : segs.reverse with
    | nil => rw [hr] at h; cases h
    | cons last rest =>
      rw [hr] at h hmem
      simp only [hs, hr] at h ⊢
      by_cases hb : u.scheme = "file".toList ∧ last = "build".toList
      · rw [if_pos hb] at h ⊢
        cases rest with
        | nil => cases h
        | cons next rest => exact step next rest (fun t ht => hmem t (List.mem_cons_of_mem _ ht)) h
      · rw [if_neg hb] at h ⊢
        exact step last rest hmem h

/-- The names are not always the same, though a comment says that they must be: the engine reads the name `my-extension`, or one
before a version without `v`, where the composition reads none. -/
theorem C92_consistent_false :
    ∃ (V R : Type) (s : Semver V R), s.Laws ∧
      (linkUrl s (some (Witness.url ["extensions", "my-extension", "v1.0.0"]))).1 = some "my-extension".toList ∧
      LinkNames.linkName (Witness.url ["extensions", "my-extension", "v1.0.0"]) = none ∧
      (linkUrl s (some (Witness.url ["extensions", "one", "1.0.0"]))).1 = some "one".toList ∧
      LinkNames.linkName (Witness.url ["extensions", "one", "1.0.0"]) = none :=
  ⟨Fin 5, Fin 6 × Fin 6, Witness.some5, Witness.laws, by decide, by decide, by decide, by decide⟩

/-- What `Id::from_str` reads. -/
theorem C92_id (s : Semver V R) (t : Text) :
    (∀ i, readId s t = .ok i ↔ ∃ v, t = i.name ++ '-' :: v ∧ '-' ∉ v ∧ s.parse v = some i.version) ∧
      (readId s t = .panic ↔ '-' ∉ t) := by
  refine ⟨?_, ?_⟩
  · intro i
    constructor
    · intro h
      unfold readId at h
      cases hr : rsplit t with
      | none => rw [hr] at h; cases h
      | some p =>
        obtain ⟨a, b⟩ := p
        rw [hr] at h
        simp only at h
        cases hp : s.parse b with
        | none => rw [hp] at h; cases h
        | some v =>
          rw [hp] at h
          cases h
          obtain ⟨h1, h2⟩ := (rsplit_iff t a b).1 hr
          exact ⟨b, h1, h2, hp⟩
    · rintro ⟨v, h1, h2, h3⟩
      unfold readId
      rw [(rsplit_iff t i.name v).2 ⟨h1, h2⟩]
      simp only [h3]
  · constructor
    · intro h
      unfold readId at h
      cases hr : rsplit t with
      | none => exact (rsplit_none t).1 hr
      | some p =>
        obtain ⟨a, b⟩ := p
        rw [hr] at h
        simp only at h
        cases hp : s.parse b with
        | none => rw [hp] at h; cases h
        | some v => rw [hp] at h; cases h
    · intro h
      unfold readId
      rw [(rsplit_none t).2 h]

/-- An identifier is read from its text, if its version has no `-`. Missing: versions before a release have one. -/
theorem C92_id_partial {s : Semver V R} (l : s.Laws) (i : Id V) (h : '-' ∉ s.text i.version) : readId s (i.display s) = .ok i :=
  ((C92_id s _).1 i).2 ⟨s.text i.version, rfl, h, l.parse_text _⟩

/-- The text of an identifier may be read as another one: `one-1.0.0-1.2.3` is `one-1.0.0` in the version 1.2.3. -/
theorem C92_id_false : ∃ (V R : Type) (s : Semver V R) (i j : Id V), s.Laws ∧ readId s (i.display s) = .ok j ∧ i ≠ j :=
  ⟨Fin 5, Fin 6 × Fin 6, Witness.some5, ⟨"one".toList, 3⟩, ⟨"one-1.0.0".toList, 4⟩, Witness.laws, by decide +kernel, by decide⟩

/-- A catalog, from installed versions and from a path; one schema for which all the extensions are found. -/
theorem C92_case :
    catalog Witness.some5 Witness.disk Witness.cwd Witness.config = .ok Witness.loaded ∧
      (Witness.config.map (·.1)).Pairwise (· ≠ ·) ∧
      schemaExtensions Witness.some5 Witness.loaded
        [("ONE".toList, ⟨"https://grafbase.com/extensions/one/v0.1.0".toList, some (Witness.url ["extensions", "one", "v0.1.0"]), none⟩),
          ("TWO".toList, ⟨"https://two".toList, some (Witness.url [""]), none⟩)] =
        .ok [("ONE".toList, 0), ("TWO".toList, 2)] ∧
      schemaExtensions Witness.some5 Witness.loaded
        [("SRC".toList, ⟨"https://grafbase.com/extensions/src/v0.1.0".toList, some (Witness.url ["extensions", "src", "v0.1.0"]), none⟩)] =
        .error ["https://grafbase.com/extensions/src/v0.1.0".toList] := by
  refine ⟨rfl, by decide, by rfl, by rfl⟩

/-- A disk on which the manifests have the versions of their directories. -/
theorem C92_installed_case : ∃ d : Disk (Fin 5), Installed Witness.some5 d Witness.cwd ∧ ∃ x,
    catalog Witness.some5 d Witness.cwd [("one".toList, ⟨(0, 2), none⟩)] = .ok [x] := by
  refine ⟨{ Witness.disk with
    manifest := fun p =>
      if p = ["home".toList, "grafbase_extensions".toList, "one".toList, "0.1.2".toList, "manifest.json".toList] then
        some ⟨⟨"one".toList, 1⟩, []⟩
      else none }, ?_, _, rfl⟩
  intro key name m h
  simp only at h
  split at h
  · rename_i hp
    cases h
    simp only [Witness.cwd, List.cons_append, List.nil_append, List.cons.injEq] at hp
    rw [hp.2.2.2.1]
    decide
  · cases h

/-- The hypotheses of `C92_consistent_partial` hold of a URL with a version. -/
theorem C92_consistent_case :
    LinkNames.linkName (Witness.url ["extensions", "one", "v1.0.0"]) = some "one".toList ∧
      (∀ t, LinkNames.validName t = true → LinkNames.validVersion t = false → Witness.some5.caret (stripV t) = none) ∧
      ∀ segs, (Witness.url ["extensions", "one", "v1.0.0"]).segments = some segs → ∀ t ∈ segs,
        LinkNames.validVersion t = true → Witness.some5.caret (stripV t) ≠ none := by
  refine ⟨by decide, ?_, ?_⟩
  · intro t hn hv
    cases hc : Witness.some5.caret (stripV t) with
    | none => rfl
    | some r =>
      have hc' : Witness.caret (stripV t) = some r := hc
      have hcase : ∀ x : Text, stripV t = x → (t = x ∨ t = 'v' :: x) := by
        intro x hx
        rcases stripV_bare t with h | ⟨h, _⟩
        · rw [hx] at h; exact .inr h
        · rw [hx] at h; exact .inl h
      have bad : ∀ x : Text, stripV t = x → LinkNames.validName x = false → LinkNames.validVersion ('v' :: x) = true → False := by
        intro x hx h1 h2
        rcases hcase x hx with h | h
        · rw [h, h1] at hn; cases hn
        · rw [h, h2] at hv; cases hv
      unfold Witness.caret at hc'
      split at hc'
      · rename_i h; exact (bad _ h (by decide) (by decide)).elim
      · split at hc'
        · rename_i h; exact (bad _ h (by decide) (by decide)).elim
        · split at hc'
          · rename_i h; exact (bad _ h (by decide) (by decide)).elim
          · cases hc'
  · intro segs hs t ht hv
    cases hs
    simp only [List.map_cons, List.map_nil, List.mem_cons, List.not_mem_nil, or_false] at ht
    rcases ht with h | h | h
    · rw [h] at hv; exact absurd hv (by decide)
    · rw [h] at hv; exact absurd hv (by decide)
    · rw [h]; decide

/-- An identifier which is read back. -/
theorem C92_id_case : readId Witness.some5 "my-extension-0.1.2".toList = .ok ⟨"my-extension".toList, 1⟩ ∧
    readId Witness.some5 "extension".toList = .panic := by
  decide +kernel

end Verif.Extensions
