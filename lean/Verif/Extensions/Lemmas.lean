import Verif.Extensions.Spec

/-!
# Lemmas on the loading of extensions
-/
namespace Verif.Extensions

variable {V R : Type}

theorem le_trans {s : Semver V R} (l : s.Laws) {a b c : V} (h1 : s.lt b a = false) (h2 : s.lt c b = false) :
    s.lt c a = false := by
  cases h : s.lt c a with
  | false => rfl
  | true =>
    rcases l.total a b with hab | hab | hab
    · have := l.trans _ _ _ h hab
      rw [this] at h2; cases h2
    · subst hab; rw [h] at h2; cases h2
    · rw [hab] at h1; cases h1

theorem lt_asymm {s : Semver V R} (l : s.Laws) {a b : V} (h : s.lt a b = true) : s.lt b a = false := by
  cases h' : s.lt b a with
  | false => rfl
  | true =>
    have := l.trans _ _ _ h h'
    rw [l.irrefl] at this; cases this

theorem pick_error {s : Semver V R} {req : R} {entries : List (Option Entry)} (h : none ∈ entries) :
    ∀ best, pick s req best entries = .error .entry := by
  induction entries with
  | nil => cases h
  | cons e rest ih =>
    intro best
    cases e with
    | none => rfl
    | some e =>
      rcases List.mem_cons.1 h with h | h
      · cases h
      · exact ih h _

theorem matching_cons {s : Semver V R} {req : R} {e : Entry} {rest : List (Option Entry)} {v : V} {n : Text} :
    Matching s req (some e :: rest) v n ↔
      (e.isDir = true ∧ e.name.getD [] = n ∧ s.parse n = some v ∧ s.satisfies req v = true) ∨ Matching s req rest v n := by
  constructor
  · rintro ⟨⟨e', he', hd, hn⟩, hp, hs⟩
    rcases List.mem_cons.1 he' with h | h
    · cases h; exact .inl ⟨hd, hn, hp, hs⟩
    · exact .inr ⟨⟨e', h, hd, hn⟩, hp, hs⟩
  · rintro (⟨hd, hn, hp, hs⟩ | ⟨⟨e', he', hd, hn⟩, hp, hs⟩)
    · exact ⟨⟨e, List.mem_cons_self, hd, hn⟩, hp, hs⟩
    · exact ⟨⟨e', List.mem_cons_of_mem _ he', hd, hn⟩, hp, hs⟩

/-- What `consider` does. -/
theorem consider_cases (s : Semver V R) (req : R) (best : Option (V × Text)) (e : Entry) :
    (∃ v, e.isDir = true ∧ s.parse (e.name.getD []) = some v ∧ s.satisfies req v = true ∧ better s best v = true ∧
      consider s req best e = some (v, e.name.getD [])) ∨
    (consider s req best e = best ∧ ∀ v, e.isDir = true → s.parse (e.name.getD []) = some v → s.satisfies req v = true →
      better s best v = false) := by
  unfold consider
  cases hd : e.isDir with
  | false => exact .inr ⟨by simp, by intro v h; cases h⟩
  | true =>
    cases hp : s.parse (e.name.getD []) with
    | none => exact .inr ⟨by simp [hp], by intro v _ h; cases h⟩
    | some v =>
      cases hs : s.satisfies req v with
      | false =>
        refine .inr ⟨by simp [hp, hs], ?_⟩
        intro w _ h h'; cases h; rw [hs] at h'; cases h'
      | true =>
        cases hb : better s best v with
        | false =>
          refine .inr ⟨by simp [hp, hs, hb], ?_⟩
          intro w _ h _; cases h; exact hb
        | true => exact .inl ⟨v, rfl, rfl, hs, hb, by simp [hp, hs, hb]⟩

theorem pick_ok {s : Semver V R} (l : s.Laws) {req : R} {entries : List (Option Entry)} (h : none ∉ entries) :
    ∀ best, ∃ r, pick s req best entries = .ok r ∧
      (r = none → best = none ∧ ∀ v n, ¬ Matching s req entries v n) ∧
      ∀ v n, r = some (v, n) → (best = some (v, n) ∨ Matching s req entries v n) ∧
        (∀ b, best = some b → s.lt v b.1 = false) ∧ ∀ w m, Matching s req entries w m → s.lt v w = false := by
  induction entries with
  | nil =>
    intro best
    refine ⟨best, rfl, fun hb => ⟨hb, ?_⟩, ?_⟩
    · rintro v n ⟨⟨e, he, _⟩, _⟩; cases he
    · intro v n hb
      subst hb
      refine ⟨.inl rfl, ?_, ?_⟩
      · intro b hb; cases hb; exact l.irrefl _
      · rintro w m ⟨⟨e, he, _⟩, _⟩; cases he
  | cons e rest ih =>
    intro best
    cases e with
    | none => exact absurd List.mem_cons_self h
    | some e =>
      obtain ⟨r, hr, h0, h1⟩ := ih (fun hm => h (List.mem_cons_of_mem _ hm)) (consider s req best e)
      refine ⟨r, hr, ?_, ?_⟩
      · intro hn
        obtain ⟨hc, hm⟩ := h0 hn
        rcases consider_cases s req best e with ⟨v, _, _, _, _, hc'⟩ | ⟨hc', hno⟩
        · rw [hc'] at hc; cases hc
        · have hb : best = none := by rw [← hc', hc]
          refine ⟨hb, ?_⟩
          intro v n hmat
          rcases matching_cons.1 hmat with ⟨hd, hn', hp, hs⟩ | hmat
          · subst hn'
            have := hno v hd hp hs
            rw [hb] at this; cases this
          · exact hm v n hmat
      · intro v n hsome
        obtain ⟨ho, hle, hall⟩ := h1 v n hsome
        rcases consider_cases s req best e with ⟨w, hd, hp, hs, hbt, hc'⟩ | ⟨hc', hno⟩
        · have hvw := hle _ hc'
          refine ⟨?_, ?_, ?_⟩
          · rcases ho with ho | ho
            · rw [hc'] at ho; cases ho
              exact .inr (matching_cons.2 (.inl ⟨hd, rfl, hp, hs⟩))
            · exact .inr (matching_cons.2 (.inr ho))
          · intro b hb
            subst hb
            exact le_trans l (lt_asymm l hbt) hvw
          · intro w' m hmat
            rcases matching_cons.1 hmat with ⟨_, hn', hp', _⟩ | hmat
            · subst hn'; rw [hp] at hp'; cases hp'; exact hvw
            · exact hall _ _ hmat
        · rw [hc'] at ho hle
          refine ⟨?_, hle, ?_⟩
          · rcases ho with ho | ho
            · exact .inl ho
            · exact .inr (matching_cons.2 (.inr ho))
          · intro w' m hmat
            rcases matching_cons.1 hmat with ⟨hd, hn', hp, hs⟩ | hmat
            · subst hn'
              have hb := hno _ hd hp hs
              cases hbest : best with
              | none => rw [hbest] at hb; cases hb
              | some b =>
                rw [hbest] at hb
                exact le_trans l hb (hle b hbest)
            · exact hall _ _ hmat

theorem highest_unique {s : Semver V R} (l : s.Laws) {req : R} {entries : List (Option Entry)} {v w : V} {n m : Text}
    (h1 : Highest s req entries v n) (h2 : Highest s req entries w m) : v = w ∧ n = m := by
  have hvw : v = w := by
    rcases l.total v w with h | h | h
    · rw [h1.2 _ _ h2.1] at h; cases h
    · exact h
    · rw [h2.2 _ _ h1.1] at h; cases h
  refine ⟨hvw, ?_⟩
  rw [← l.text_parse _ _ h1.1.2.1, ← l.text_parse _ _ h2.1.2.1, hvw]

theorem pick_iff {s : Semver V R} (l : s.Laws) {req : R} {entries : List (Option Entry)} (h : none ∉ entries) (v : V) (n : Text) :
    pick s req none entries = .ok (some (v, n)) ↔ Highest s req entries v n := by
  obtain ⟨r, hr, h0, h1⟩ := pick_ok l (req := req) h none
  rw [hr]
  constructor
  · intro he
    cases he
    obtain ⟨ho, _, hall⟩ := h1 v n rfl
    rcases ho with ho | ho
    · cases ho
    · exact ⟨ho, hall⟩
  · intro hh
    cases r with
    | none => exact absurd hh.1 ((h0 rfl).2 v n)
    | some p =>
      obtain ⟨w, m⟩ := p
      obtain ⟨ho, _, hall⟩ := h1 w m rfl
      rcases ho with ho | ho
      · cases ho
      · obtain ⟨h1, h2⟩ := highest_unique l ⟨ho, hall⟩ hh
        rw [h1, h2]

theorem pick_none_iff {s : Semver V R} (l : s.Laws) {req : R} {entries : List (Option Entry)} (h : none ∉ entries) :
    pick s req none entries = .ok none ↔ ∀ v n, ¬ Matching s req entries v n := by
  obtain ⟨r, hr, h0, h1⟩ := pick_ok l (req := req) h none
  rw [hr]
  constructor
  · intro he; cases he; exact (h0 rfl).2
  · intro hno
    cases r with
    | none => rfl
    | some p =>
      obtain ⟨w, m⟩ := p
      rcases (h1 w m rfl).1 with ho | ho
      · cases ho
      · exact absurd ho (hno _ _)

/-! ## The files -/

theorem wasm_ne_manifest : ("manifest.json".toList : Text) ≠ "extension.wasm".toList := by decide

theorem scan_sound {d : Disk V} {dir : Path} {files : List (Option Text)} :
    ∀ found m w, scan d dir found files = .ok (some m, some w) →
      (found.1 = some m ∨ d.manifest (dir ++ ["manifest.json".toList]) = some m ∧ some "manifest.json".toList ∈ files) ∧
      (found.2 = some w ∨ w = dir ++ ["extension.wasm".toList] ∧ some "extension.wasm".toList ∈ files) := by
  induction files with
  | nil => intro found m w h; cases h; exact ⟨.inl rfl, .inl rfl⟩
  | cons f rest ih =>
    intro found m w h
    cases f with
    | none => cases h
    | some name =>
      simp only [scan] at h
      cases hl : look d dir found name with
      | error e => rw [hl] at h; cases h
      | ok found' =>
        rw [hl] at h
        have key : (found'.1 = some m ∨ d.manifest (dir ++ ["manifest.json".toList]) = some m ∧
              some "manifest.json".toList ∈ rest) ∧
            (found'.2 = some w ∨ w = dir ++ ["extension.wasm".toList] ∧ some "extension.wasm".toList ∈ rest) := by
          by_cases hb : (found'.1.isSome && found'.2.isSome) = true
          · simp only [hb, if_true] at h
            cases h
            exact ⟨.inl rfl, .inl rfl⟩
          · simp only [hb] at h
            exact ih _ _ _ h
        unfold look at hl
        by_cases hw : name = "extension.wasm".toList
        · rw [if_pos hw] at hl
          cases hl
          refine ⟨?_, ?_⟩
          · rcases key.1 with h | ⟨h, h'⟩
            · exact .inl h
            · exact .inr ⟨h, List.mem_cons_of_mem _ h'⟩
          · rcases key.2 with h | ⟨h, _⟩
            · exact .inr ⟨(Option.some.inj h).symm, by rw [hw]; exact List.mem_cons_self⟩
            · exact .inr ⟨h, by rw [hw]; exact List.mem_cons_self⟩
        · rw [if_neg hw] at hl
          by_cases hm : name = "manifest.json".toList
          · rw [if_pos hm] at hl
            cases hd : d.manifest (dir ++ ["manifest.json".toList]) with
            | none => rw [hd] at hl; cases hl
            | some m' =>
              rw [hd] at hl
              cases hl
              refine ⟨.inr ⟨?_, by rw [hm]; exact List.mem_cons_self⟩, ?_⟩
              · rcases key.1 with h | ⟨h, _⟩
                · exact h
                · rw [hd] at h; exact h
              · rcases key.2 with h | ⟨h, h'⟩
                · exact .inl h
                · exact .inr ⟨h, List.mem_cons_of_mem _ h'⟩
          · rw [if_neg hm] at hl
            cases hl
            refine ⟨?_, ?_⟩
            · rcases key.1 with h | ⟨h, h'⟩
              · exact .inl h
              · exact .inr ⟨h, List.mem_cons_of_mem _ h'⟩
            · rcases key.2 with h | ⟨h, h'⟩
              · exact .inl h
              · exact .inr ⟨h, List.mem_cons_of_mem _ h'⟩

theorem scan_complete {d : Disk V} {dir : Path} {m : Manifest V} (hd : d.manifest (dir ++ ["manifest.json".toList]) = some m)
    {files : List (Option Text)} (hr : none ∉ files) :
    ∀ found : Option (Manifest V) × Option Path, (found.1 = none ∨ found.1 = some m) →
      (found.2 = none ∨ found.2 = some (dir ++ ["extension.wasm".toList])) →
      (found.1 = some m ∨ some "manifest.json".toList ∈ files) →
      (found.2 = some (dir ++ ["extension.wasm".toList]) ∨ some "extension.wasm".toList ∈ files) →
      scan d dir found files = .ok (some m, some (dir ++ ["extension.wasm".toList])) := by
  induction files with
  | nil =>
    intro found _ _ h1 h2
    obtain ⟨a, b⟩ := found
    rcases h1 with h1 | h1
    · rcases h2 with h2 | h2
      · simp only at h1 h2; subst h1; subst h2; rfl
      · cases h2
    · cases h1
  | cons f rest ih =>
    intro found h1 h2 h3 h4
    have hr' : none ∉ rest := fun h => hr (List.mem_cons_of_mem _ h)
    cases f with
    | none => exact absurd List.mem_cons_self hr
    | some name =>
      have step : ∀ found', look d dir found name = .ok found' → (found'.1 = none ∨ found'.1 = some m) →
          (found'.2 = none ∨ found'.2 = some (dir ++ ["extension.wasm".toList])) →
          (found'.1 = some m ∨ some "manifest.json".toList ∈ rest) →
          (found'.2 = some (dir ++ ["extension.wasm".toList]) ∨ some "extension.wasm".toList ∈ rest) →
          scan d dir found (some name :: rest) = .ok (some m, some (dir ++ ["extension.wasm".toList])) := by
        intro found' hl a b c e
        simp only [scan, hl]
        by_cases hb : (found'.1.isSome && found'.2.isSome) = true
        · rw [if_pos hb]
          rw [Bool.and_eq_true] at hb
          obtain ⟨x, y⟩ := found'
          simp only at a b hb
          rcases a with a | a
          · rw [a] at hb; cases hb.1
          · rcases b with b | b
            · rw [b] at hb; cases hb.2
            · rw [a, b]
        · rw [if_neg hb]
          exact ih hr' found' a b c e
      by_cases hw : name = "extension.wasm".toList
      · refine step (found.1, some (dir ++ ["extension.wasm".toList])) (by simp only [look]; rw [if_pos hw]) h1 (.inr rfl) ?_ (.inl rfl)
        rcases h3 with h3 | h3
        · exact .inl h3
        · rcases List.mem_cons.1 h3 with h3 | h3
          · rw [← Option.some.inj h3] at hw; exact absurd hw wasm_ne_manifest
          · exact .inr h3
      · by_cases hm : name = "manifest.json".toList
        · refine step (some m, found.2) (by simp only [look]; rw [if_neg hw, if_pos hm, hd]) (.inr rfl) h2 (.inl rfl) ?_
          rcases h4 with h4 | h4
          · exact .inl h4
          · rcases List.mem_cons.1 h4 with h4 | h4
            · exact absurd (Option.some.inj h4).symm hw
            · exact .inr h4
        · refine step found (by simp only [look]; rw [if_neg hw, if_neg hm]) h1 h2 ?_ ?_
          · rcases h3 with h3 | h3
            · exact .inl h3
            · rcases List.mem_cons.1 h3 with h3 | h3
              · exact absurd (Option.some.inj h3).symm hm
              · exact .inr h3
          · rcases h4 with h4 | h4
            · exact .inl h4
            · rcases List.mem_cons.1 h4 with h4 | h4
              · exact absurd (Option.some.inj h4).symm hw
              · exact .inr h4

theorem load_sound [DecidableEq V] {d : Disk V} {dir : Path} {key : Text} {x : Extension V} (h : load d dir key = .ok x) :
    Holds d dir key x := by
  unfold load at h
  cases hf : d.files dir with
  | none => rw [hf] at h; cases h
  | some files =>
    rw [hf] at h
    simp only at h
    cases hs : scan d dir (none, none) files with
    | error e => rw [hs] at h; cases h
    | ok found =>
      rw [hs] at h
      obtain ⟨a, b⟩ := found
      cases a with
      | none => cases h
      | some m =>
        cases b with
        | none => cases h
        | some w =>
          simp only at h
          by_cases hk : m.id.name ≠ key
          · rw [if_pos hk] at h; cases h
          · rw [if_neg hk] at h
            obtain ⟨h1, h2⟩ := scan_sound _ _ _ hs
            rcases h1 with h1 | ⟨h1, h1'⟩
            · cases h1
            rcases h2 with h2 | ⟨h2, h2'⟩
            · cases h2
            cases hc : d.canonical w with
            | none => rw [hc] at h; cases h
            | some c =>
              rw [hc] at h
              cases h
              rw [h2] at hc
              exact ⟨rfl, Classical.not_not.1 hk, h1, hc, files, hf, h1', h2'⟩

theorem load_complete [DecidableEq V] {d : Disk V} {dir : Path} {key : Text} {x : Extension V}
    (hr : ∀ files, d.files dir = some files → none ∉ files) (h : Holds d dir key x) : load d dir key = .ok x := by
  obtain ⟨h1, h2, h3, h4, files, hf, h5, h6⟩ := h
  have hs := scan_complete h3 (hr _ hf) (none, none) (.inl rfl) (.inl rfl) (.inr h5) (.inr h6)
  simp only [load, hf, hs]
  rw [if_neg (by rw [h2]; exact fun h => h rfl), h4]
  obtain ⟨k, m, w⟩ := x
  simp only at h1
  rw [h1]

/-! ## The catalog -/

theorem append3 (cwd : Path) (a b c : Text) : cwd ++ [a] ++ [b] ++ [c] = cwd ++ [a, b, c] := by simp

theorem loadOne_sound [DecidableEq V] {s : Semver V R} (l : s.Laws) {d : Disk V} {cwd : Path} {key : Text} {c : Config R}
    {x : Extension V} (h : loadOne s d cwd key c = .ok x) : ∃ dir, Place s d cwd key c dir ∧ Holds d dir key x := by
  unfold loadOne at h
  cases hp : c.path with
  | some p =>
    rw [hp] at h
    cases p with
    | relative p => exact ⟨_, .relative p hp, load_sound h⟩
    | absolute p => exact ⟨_, .absolute p hp, load_sound h⟩
  | none =>
    rw [hp] at h
    simp only [find] at h
    cases hv : d.versions (cwd ++ [dirName] ++ [key]) with
    | none => rw [hv] at h; cases h
    | some entries =>
      rw [hv] at h
      simp only at h
      cases hk : pick s c.req none entries with
      | error e => rw [hk] at h; cases h
      | ok r =>
        rw [hk] at h
        cases r with
        | none => cases h
        | some p =>
          obtain ⟨v, n⟩ := p
          simp only at h
          have hr : none ∉ entries := by
            intro hn; rw [pick_error hn] at hk; cases hk
          rw [append3] at h
          rw [List.append_assoc] at hv
          exact ⟨_, .version entries v n hp hv hr ((pick_iff l hr v n).1 hk), load_sound h⟩

theorem loadOne_complete [DecidableEq V] {s : Semver V R} (l : s.Laws) {d : Disk V} {cwd : Path} {key : Text} {c : Config R}
    {x : Extension V} {dir : Path} (hr : ∀ dir files, d.files dir = some files → none ∉ files)
    (hp : Place s d cwd key c dir) (h : Holds d dir key x) : loadOne s d cwd key c = .ok x := by
  have hl := load_complete (hr _) h
  cases hp with
  | relative p hp => simp only [loadOne, hp]; exact hl
  | absolute p hp => simp only [loadOne, hp]; exact hl
  | version entries v n hp hv hne hh =>
    have hv' : d.versions (cwd ++ [dirName] ++ [key]) = some entries := by
      rw [List.append_assoc]; exact hv
    simp only [loadOne, hp, find, hv', (pick_iff l hne v n).2 hh]
    rw [append3]
    exact hl

theorem catalog_sound [DecidableEq V] {s : Semver V R} (l : s.Laws) {d : Disk V} {cwd : Path} {cs : List (Text × Config R)} :
    ∀ {xs}, catalog s d cwd cs = .ok xs → Loaded s d cwd cs xs := by
  induction cs with
  | nil => intro xs h; cases h; exact .nil
  | cons kc rest ih =>
    intro xs h
    obtain ⟨key, c⟩ := kc
    simp only [catalog] at h
    cases h1 : loadOne s d cwd key c with
    | error e => rw [h1] at h; cases h
    | ok x =>
      rw [h1] at h
      simp only at h
      cases h2 : catalog s d cwd rest with
      | error e => rw [h2] at h; cases h
      | ok ys =>
        rw [h2] at h
        cases h
        obtain ⟨dir, hp, hh⟩ := loadOne_sound l h1
        exact .cons key c dir x rest ys hp hh (ih h2)

theorem catalog_complete [DecidableEq V] {s : Semver V R} (l : s.Laws) {d : Disk V} {cwd : Path}
    (hr : ∀ dir files, d.files dir = some files → none ∉ files) {cs : List (Text × Config R)} {xs : List (Extension V)}
    (h : Loaded s d cwd cs xs) : catalog s d cwd cs = .ok xs := by
  induction h with
  | nil => rfl
  | cons key c dir x rest xs hp hh _ ih => simp only [catalog, loadOne_complete l hr hp hh, ih]

theorem loaded_keys {s : Semver V R} {d : Disk V} {cwd : Path} {cs : List (Text × Config R)} {xs : List (Extension V)}
    (h : Loaded s d cwd cs xs) : xs.map (·.key) = cs.map (·.1) ∧ xs.map (·.manifest.id.name) = cs.map (·.1) := by
  induction h with
  | nil => exact ⟨rfl, rfl⟩
  | cons key c dir x rest xs hp hh _ ih =>
    refine ⟨?_, ?_⟩
    · simp only [List.map_cons, ih.1, hh.1]
    · simp only [List.map_cons, ih.2, hh.2.1]

theorem loaded_mem {s : Semver V R} {d : Disk V} {cwd : Path} {cs : List (Text × Config R)} {xs : List (Extension V)}
    (h : Loaded s d cwd cs xs) {x : Extension V} (hx : x ∈ xs) :
    ∃ key c dir, (key, c) ∈ cs ∧ Place s d cwd key c dir ∧ Holds d dir key x := by
  induction h with
  | nil => cases hx
  | cons key c dir y rest ys hp hh _ ih =>
    rcases List.mem_cons.1 hx with hx | hx
    · subst hx; exact ⟨key, c, dir, List.mem_cons_self, hp, hh⟩
    · obtain ⟨key, c, dir, hm, hp, hh⟩ := ih hx
      exact ⟨key, c, dir, List.mem_cons_of_mem _ hm, hp, hh⟩

/-! ## Lookups -/

theorem first_cons {α : Type} {p : α → Prop} {x : α} {xs : List α} (h : p x) {i : Nat} :
    FirstAt p (x :: xs) i ↔ i = 0 := by
  constructor
  · rintro ⟨_, h2⟩
    cases i with
    | zero => rfl
    | succ i => exact absurd h (h2 0 (Nat.succ_pos _) x rfl)
  · intro hi; subst hi
    exact ⟨⟨x, rfl, h⟩, by intro j hj; cases hj⟩

theorem first_cons_not {α : Type} {p : α → Prop} {x : α} {xs : List α} (h : ¬ p x) {i : Nat} :
    FirstAt p (x :: xs) i ↔ ∃ j, i = j + 1 ∧ FirstAt p xs j := by
  constructor
  · rintro ⟨⟨y, hy, hp⟩, h2⟩
    cases i with
    | zero => cases hy; exact absurd hp h
    | succ i => exact ⟨i, rfl, ⟨y, hy, hp⟩, fun j hj z hz => h2 (j + 1) (Nat.succ_lt_succ hj) z hz⟩
  · rintro ⟨j, hj, ⟨y, hy, hp⟩, h2⟩
    subst hj
    refine ⟨⟨y, hy, hp⟩, ?_⟩
    intro k hk z hz
    cases k with
    | zero => cases hz; exact h
    | succ k => exact h2 k (Nat.lt_of_succ_lt_succ hk) z hz

theorem findIdx_iff {α : Type} {p : α → Prop} (q : α → Bool) (hq : ∀ x, q x = true ↔ p x) (xs : List α) :
    ∀ i, xs.findIdx? q = some i ↔ FirstAt p xs i := by
  induction xs with
  | nil =>
    intro i
    constructor
    · intro h; cases h
    · rintro ⟨⟨x, hx, _⟩, _⟩; cases hx
  | cons x rest ih =>
    intro i
    rw [List.findIdx?_cons]
    cases h : q x with
    | true =>
      rw [first_cons ((hq x).1 h)]
      constructor
      · intro h; cases h; rfl
      · intro h; subst h; rfl
    | false =>
      rw [first_cons_not (fun hp => by rw [(hq x).2 hp] at h; cases h)]
      simp only [Bool.false_eq_true, if_false, Option.map_eq_some_iff]
      constructor
      · rintro ⟨j, hj, rfl⟩; exact ⟨j, rfl, (ih j).1 hj⟩
      · rintro ⟨j, rfl, hj⟩; exact ⟨j, (ih j).2 hj, rfl⟩

theorem findIdx_none {α : Type} {p : α → Prop} (q : α → Bool) (hq : ∀ x, q x = true ↔ p x) (xs : List α) :
    xs.findIdx? q = none ↔ ∀ x ∈ xs, ¬ p x := by
  rw [List.findIdx?_eq_none_iff]
  constructor
  · intro h x hx hp; have := h x hx; rw [(hq x).2 hp] at this; cases this
  · intro h x hx
    cases hqx : q x with
    | false => rfl
    | true => exact absurd ((hq x).1 hqx) (h x hx)

theorem urls_iff (url : Text) (x : Extension V) : x.manifest.urls.any (fun u => u == url) = true ↔ url ∈ x.manifest.urls := by
  rw [List.any_eq_true]
  constructor
  · rintro ⟨u, hu, h⟩; rw [← eq_of_beq h]; exact hu
  · intro h; exact ⟨url, h, beq_self_eq_true _⟩

theorem first_not_all {α : Type} {p : α → Prop} {xs : List α} {i : Nat} (h : FirstAt p xs i) (hn : ∀ x ∈ xs, ¬ p x) : False := by
  obtain ⟨⟨x, hx, hp⟩, _⟩ := h
  exact hn x (List.mem_of_getElem? hx) hp

theorem findCompatible_iff (s : Semver V R) (xs : List (Extension V)) (url : Text) (name : Option Text) (req : Option R) (i : Nat) :
    findCompatible s xs url name req = some i ↔ Answers s xs url name req i := by
  unfold findCompatible Answers
  cases hu : xs.findIdx? (fun x => x.manifest.urls.any (fun u => u == url)) with
  | some j =>
    have hj := (findIdx_iff _ (urls_iff url) xs j).1 hu
    simp only
    constructor
    · intro h; cases h; exact .inl hj
    · rintro (h | ⟨h, _⟩)
      · have := (findIdx_iff _ (urls_iff url) xs i).2 h
        rw [hu] at this; exact this
      · exact (first_not_all hj h).elim
  | none =>
    have hn := (findIdx_none _ (urls_iff url) xs).1 hu
    have left : ¬ FirstAt (fun x : Extension V => url ∈ x.manifest.urls) xs i := fun h => first_not_all h hn
    cases name with
    | none =>
      simp only
      constructor
      · intro h; cases h
      · rintro (h | ⟨_, n, h, _⟩)
        · exact absurd h left
        · cases h
    | some n =>
      cases req with
      | none =>
        simp only [byName]
        rw [findIdx_iff (p := fun x : Extension V => x.manifest.id.name = n ∧ ∀ r, (none : Option R) = some r → s.satisfies r x.manifest.id.version = true)
          (fun x : Extension V => x.manifest.id.name == n) (by
          intro x
          constructor
          · intro h; exact ⟨eq_of_beq h, by intro r h; cases h⟩
          · intro h; rw [h.1]; exact beq_self_eq_true _)]
        constructor
        · intro h; exact .inr ⟨hn, n, rfl, h⟩
        · rintro (h | ⟨_, m, h, h'⟩)
          · exact absurd h left
          · cases h; exact h'
      | some r =>
        simp only
        rw [findIdx_iff (p := fun x : Extension V => x.manifest.id.name = n ∧ ∀ r', some r = some r' → s.satisfies r' x.manifest.id.version = true)
          (fun x : Extension V => x.manifest.id.compatible s n r) (by
          intro x
          unfold Id.compatible
          rw [Bool.and_eq_true]
          constructor
          · intro h; exact ⟨eq_of_beq h.1, by intro r' h'; cases h'; exact h.2⟩
          · intro h; exact ⟨by rw [h.1]; exact beq_self_eq_true _, h.2 r rfl⟩)]
        constructor
        · intro h; exact .inr ⟨hn, n, rfl, h⟩
        · rintro (h | ⟨_, m, h, h'⟩)
          · exact absurd h left
          · cases h; exact h'

/-! ## URLs -/

theorem stripV_bare (t : Text) : Bare t (stripV t) := by
  unfold stripV
  split
  · exact .inl rfl
  · rename_i h
    exact .inr ⟨rfl, fun r hr => h r hr⟩

theorem bare_eq {v t : Text} (h : Bare v t) : t = stripV v := by
  rcases h with h | ⟨h, h'⟩
  · subst h; rfl
  · subst h
    unfold stripV
    split
    · rename_i r; exact absurd rfl (h' r)
    · rfl

theorem nameAndReq_ends (s : Semver V R) (last : Text) (rest : List Text) :
    Ends s ((last :: rest).reverse) (nameAndReq s last rest).1 (nameAndReq s last rest).2 := by
  unfold nameAndReq
  cases h : s.caret (stripV last) with
  | none =>
    rw [List.reverse_cons]
    exact .plain _ _ _ (stripV_bare last) h
  | some r =>
    cases rest with
    | nil => exact .version last _ r (stripV_bare last) h
    | cons n rest =>
      rw [List.reverse_cons, List.reverse_cons, List.append_assoc]
      exact .named _ n last _ r (stripV_bare last) h

theorem snoc_inj {α : Type} {a b : List α} {x y : α} (h : a ++ [x] = b ++ [y]) : a = b ∧ x = y := by
  have := congrArg List.reverse h
  rw [List.reverse_append, List.reverse_append] at this
  simp only [List.reverse_cons, List.reverse_nil, List.nil_append, List.cons_append, List.cons.injEq] at this
  refine ⟨?_, this.1⟩
  have h2 := congrArg List.reverse this.2
  rwa [List.reverse_reverse, List.reverse_reverse] at h2

theorem ends_fun {s : Semver V R} {last : Text} {rest : List Text} {n : Option Text} {r : Option R}
    (h : Ends s ((last :: rest).reverse) n r) : nameAndReq s last rest = (n, r) := by
  generalize hg : (last :: rest).reverse = segs at h
  have hg' : last :: rest = segs.reverse := by rw [← hg, List.reverse_reverse]
  unfold nameAndReq
  cases h with
  | named pre n v t r hb hc =>
    simp only [List.reverse_append, List.reverse_cons, List.reverse_nil, List.nil_append, List.cons_append, List.cons.injEq] at hg'
    rw [hg'.1, ← bare_eq hb, hc, hg'.2]; rfl
  | version v t r hb hc =>
    simp only [List.reverse_cons, List.reverse_nil, List.nil_append, List.cons.injEq] at hg'
    rw [hg'.1, ← bare_eq hb, hc, hg'.2]; rfl
  | plain pre n t hb hc =>
    simp only [List.reverse_append, List.reverse_cons, List.reverse_nil, List.nil_append, List.cons_append, List.cons.injEq] at hg'
    rw [hg'.1, ← bare_eq hb, hc]

theorem ends_ne_nil {s : Semver V R} {segs : List Text} {n : Option Text} {r : Option R} (h : Ends s segs n r) : segs ≠ [] := by
  cases h <;> simp

theorem linkUrl_iff (s : Semver V R) (u : Option LinkNames.Url) (n : Option Text) (r : Option R) :
    linkUrl s u = (n, r) ↔ Means s u n r := by
  constructor
  · intro h
    cases u with
    | none => cases h; exact .noUrl
    | some u =>
      simp only [linkUrl] at h
      cases hs : u.segments with
      | none => rw [hs] at h; cases h; exact .noPath u (.inl hs)
      | some segs =>
        rw [hs] at h
        simp only at h
        cases hr : segs.reverse with
        | nil =>
          rw [hr] at h; cases h
          have : segs = [] := by rw [← List.reverse_reverse segs, hr]; rfl
          exact .noPath u (.inr (by rw [hs, this]))
        | cons last rest =>
          rw [hr] at h
          simp only at h
          have hsegs : segs = (last :: rest).reverse := by rw [← hr, List.reverse_reverse]
          by_cases hb : u.scheme = "file".toList ∧ last = "build".toList
          · rw [if_pos hb] at h
            cases rest with
            | nil =>
              cases h
              refine .onlyBuild u ?_ hb.1
              rw [hs, hsegs, hb.2]; rfl
            | cons next rest =>
              simp only at h
              refine .build u ((next :: rest).reverse) n r ?_ hb.1 ?_
              · rw [hs, hsegs, hb.2, List.reverse_cons (a := "build".toList)]
              · have := nameAndReq_ends s next rest
                rw [h] at this; exact this
          · rw [if_neg hb] at h
            refine .other u segs n r hs ?_ ?_
            · rintro ⟨h1, h2⟩
              rw [hsegs, List.getLast?_reverse] at h2
              exact hb ⟨h1, Option.some.inj h2⟩
            · have := nameAndReq_ends s last rest
              rw [h, ← hsegs] at this; exact this
  · intro h
    cases h with
    | noUrl => rfl
    | noPath u hu =>
      rcases hu with hu | hu
      · simp only [linkUrl, hu]
      · simp [linkUrl, hu]
    | onlyBuild u hs hf =>
      simp [linkUrl, hs, hf]
    | build u segs n r hs hf he =>
      cases hr : segs.reverse with
      | nil =>
        have : segs = [] := by rw [← List.reverse_reverse segs, hr]; rfl
        exact absurd this (ends_ne_nil he)
      | cons next rest =>
        have hsegs : segs = (next :: rest).reverse := by rw [← hr, List.reverse_reverse]
        have hrr : (segs ++ ["build".toList]).reverse = "build".toList :: next :: rest := by
          rw [List.reverse_append, hr]; rfl
        simp only [linkUrl, hs, hrr]
        rw [if_pos ⟨hf, trivial⟩]
        rw [hsegs] at he
        exact ends_fun he
    | other u segs n r hs hb he =>
      cases hr : segs.reverse with
      | nil =>
        have : segs = [] := by rw [← List.reverse_reverse segs, hr]; rfl
        exact absurd this (ends_ne_nil he)
      | cons last rest =>
        have hsegs : segs = (last :: rest).reverse := by rw [← hr, List.reverse_reverse]
        simp only [linkUrl, hs, hr]
        rw [if_neg (by
          rintro ⟨h1, h2⟩
          refine hb ⟨h1, ?_⟩
          rw [hsegs, List.getLast?_reverse, h2]; rfl)]
        rw [hsegs] at he
        exact ends_fun he

/-! ## The schema -/

theorem resolve_iff [DecidableEq V] (s : Semver V R) (xs : List (Extension V)) (w : Wanted V) (i : Nat) :
    resolve s xs w = some i ↔ Found s xs w i := by
  have hm : ∀ n r, Means s w.parsed n r ↔ n = (linkUrl s w.parsed).1 ∧ r = (linkUrl s w.parsed).2 := by
    intro n r
    rw [← linkUrl_iff]
    constructor
    · intro h; rw [h]; exact ⟨rfl, rfl⟩
    · rintro ⟨rfl, rfl⟩; rfl
  have tail : (∃ n r, Means s w.parsed n r ∧ Answers s xs w.url n r i) ↔
      findCompatible s xs w.url (linkUrl s w.parsed).1 (linkUrl s w.parsed).2 = some i := by
    rw [findCompatible_iff]
    constructor
    · rintro ⟨n, r, h1, h2⟩
      obtain ⟨h3, h4⟩ := (hm n r).1 h1
      rw [h3, h4] at h2; exact h2
    · intro h; exact ⟨_, _, (hm _ _).2 ⟨rfl, rfl⟩, h⟩
  unfold resolve Found
  rw [tail]
  cases hf : w.file with
  | none =>
    simp only [Option.bind_none, Option.none_or]
    constructor
    · intro h; exact .inr ⟨(by intro id h; cases h), h⟩
    · rintro (⟨id, h, _⟩ | ⟨_, h⟩)
      · cases h
      · exact h
  | some id =>
    simp only [Option.bind_some]
    have hq : ∀ x : Extension V, decide (x.manifest.id = id) = true ↔ x.manifest.id = id := fun x => decide_eq_true_iff
    cases hx : xs.findIdx? (fun x => decide (x.manifest.id = id)) with
    | some j =>
      have hj := (findIdx_iff _ hq xs j).1 hx
      simp only [Option.some_or]
      constructor
      · intro h; cases h; exact .inl ⟨id, rfl, hj⟩
      · rintro (⟨id', h, h'⟩ | ⟨h, _⟩)
        · cases h
          have := (findIdx_iff _ hq xs i).2 h'
          rw [hx] at this; exact this
        · exact (first_not_all hj (h id rfl)).elim
    | none =>
      have hn := (findIdx_none _ hq xs).1 hx
      simp only [Option.none_or]
      constructor
      · intro h; exact .inr ⟨(by intro id' h'; cases h'; exact hn), h⟩
      · rintro (⟨id', h, h'⟩ | ⟨_, h⟩)
        · cases h; exact (first_not_all h' hn).elim
        · exact h

theorem resolveAll_urls [DecidableEq V] (s : Semver V R) (xs : List (Extension V)) (ws : List (Text × Wanted V)) (u : Text) :
    u ∈ (resolveAll s xs ws).2 ↔ ∃ n w, (n, w) ∈ ws ∧ w.url = u ∧ resolve s xs w = none := by
  induction ws with
  | nil => exact ⟨(by intro h; cases h), by rintro ⟨n, w, h, _⟩; cases h⟩
  | cons nw rest ih =>
    obtain ⟨n, w⟩ := nw
    simp only [resolveAll]
    cases hr : resolve s xs w with
    | none =>
      simp only [List.mem_cons, ih]
      constructor
      · rintro (h | ⟨n', w', h1, h2⟩)
        · exact ⟨n, w, .inl rfl, h.symm, hr⟩
        · exact ⟨n', w', .inr h1, h2⟩
      · rintro ⟨n', w', h1 | h1, h2, h3⟩
        · cases h1; exact .inl h2.symm
        · exact .inr ⟨n', w', h1, h2, h3⟩
    | some i =>
      simp only [List.mem_cons, ih]
      constructor
      · rintro ⟨n', w', h1, h2⟩
        exact ⟨n', w', .inr h1, h2⟩
      · rintro ⟨n', w', h1 | h1, h2, h3⟩
        · cases h1; rw [hr] at h3; cases h3
        · exact ⟨n', w', h1, h2, h3⟩

theorem resolveAll_mem [DecidableEq V] (s : Semver V R) (xs : List (Extension V)) (ws : List (Text × Wanted V)) (n : Text) (i : Nat) :
    (n, i) ∈ (resolveAll s xs ws).1 ↔ ∃ w, (n, w) ∈ ws ∧ resolve s xs w = some i := by
  induction ws with
  | nil => exact ⟨(by intro h; cases h), by rintro ⟨w, h, _⟩; cases h⟩
  | cons nw rest ih =>
    obtain ⟨m, w⟩ := nw
    simp only [resolveAll]
    cases hr : resolve s xs w with
    | none =>
      simp only [List.mem_cons, ih]
      constructor
      · rintro ⟨w', h1, h2⟩
        exact ⟨w', .inr h1, h2⟩
      · rintro ⟨w', h1 | h1, h2⟩
        · cases h1; rw [hr] at h2; cases h2
        · exact ⟨w', h1, h2⟩
    | some j =>
      simp only [List.mem_cons, ih]
      constructor
      · rintro (h | ⟨w', h1, h2⟩)
        · cases h; exact ⟨w, .inl rfl, hr⟩
        · exact ⟨w', .inr h1, h2⟩
      · rintro ⟨w', h1 | h1, h2⟩
        · cases h1; rw [hr] at h2; cases h2; exact .inl rfl
        · exact .inr ⟨w', h1, h2⟩

/-! ## Texts -/

theorem rsplit_none (t : Text) : rsplit t = none ↔ '-' ∉ t := by
  induction t with
  | nil => simp [rsplit]
  | cons c rest ih =>
    simp only [rsplit]
    cases h : rsplit rest with
    | some p =>
      have : '-' ∈ rest := by
        refine Classical.not_not.1 (fun hn => ?_)
        rw [ih.2 hn] at h; cases h
      simp [this]
    | none =>
      have hn := ih.1 h
      by_cases hc : c = '-'
      · simp [hc]
      · simp only [if_neg hc, List.mem_cons, not_or, true_iff]
        exact ⟨fun h => hc h.symm, hn⟩

theorem rsplit_iff (t a b : Text) : rsplit t = some (a, b) ↔ t = a ++ '-' :: b ∧ '-' ∉ b := by
  induction t generalizing a with
  | nil => simp [rsplit]
  | cons c rest ih =>
    simp only [rsplit]
    cases h : rsplit rest with
    | some p =>
      obtain ⟨a', b'⟩ := p
      simp only [Option.some.injEq, Prod.mk.injEq]
      have ha' := (ih a')
      constructor
      · rintro ⟨h1, h2⟩
        subst h1; subst h2
        obtain ⟨h3, h4⟩ := ha'.1 h
        exact ⟨by rw [h3]; rfl, h4⟩
      · rintro ⟨h1, h2⟩
        cases a with
        | nil =>
          simp only [List.nil_append, List.cons.injEq] at h1
          rw [h1.2] at h
          rw [(rsplit_none b).2 h2] at h; cases h
        | cons d a =>
          simp only [List.cons_append, List.cons.injEq] at h1
          have := (ih a).2 ⟨h1.2, h2⟩
          rw [h] at this
          cases this
          exact ⟨by rw [h1.1], rfl⟩
    | none =>
      have hn := (rsplit_none rest).1 h
      constructor
      · intro he
        by_cases hc : c = '-'
        · simp only [if_pos hc] at he
          cases he
          exact ⟨by rw [hc]; rfl, hn⟩
        · simp only [if_neg hc] at he; cases he
      · rintro ⟨h1, _⟩
        cases a with
        | nil =>
          simp only [List.nil_append, List.cons.injEq] at h1
          simp only [if_pos h1.1, h1.2]
        | cons d a =>
          simp only [List.cons_append, List.cons.injEq] at h1
          exact absurd (by rw [h1.2]; simp) hn

end Verif.Extensions
