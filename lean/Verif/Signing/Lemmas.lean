import Verif.Signing.Spec

namespace Verif.Signing

theorem isSpace_white (c : Char) : isSpace c = true ↔ White c := by
  unfold isSpace White
  simp only [Bool.or_eq_true, Bool.and_eq_true, decide_eq_true_eq, beq_iff_eq, List.mem_cons, List.not_mem_nil, or_false]
  generalize c.toNat = n
  omega

theorem looksLikeJson_iff (data : String) : looksLikeJson data = true ↔ JsonLike data := by
  unfold looksLikeJson JsonLike
  generalize data.toList = l
  constructor
  · intro h
    have hl := List.takeWhile_append_dropWhile (p := isSpace) (l := l)
    cases hd : l.dropWhile isSpace with
    | nil =>
      rw [hd] at h
      cases h
    | cons c rest =>
      rw [hd] at h hl
      simp only [List.head?_cons, beq_iff_eq, Option.some.injEq] at h
      subst h
      refine ⟨l.takeWhile isSpace, rest, hl.symm, ?_⟩
      intro c hc
      have all : ∀ l : List Char, ∀ c ∈ l.takeWhile isSpace, isSpace c = true := by
        intro l
        induction l with
        | nil => intro c hc; cases hc
        | cons a l ih =>
          intro c hc
          rw [List.takeWhile_cons] at hc
          split at hc
          · rcases List.mem_cons.mp hc with e | hc'
            · rw [e]
              assumption
            · exact ih c hc'
          · cases hc
      exact (isSpace_white c).mp (all l c hc)
  · rintro ⟨before, rest, rfl, h⟩
    have : (before ++ '{' :: rest).dropWhile isSpace = '{' :: rest := by
      induction before with
      | nil => rfl
      | cons a before ih =>
        rw [List.cons_append, List.dropWhile_cons, if_pos ((isSpace_white a).mpr (h a List.mem_cons_self))]
        exact ih (fun c hc => h c (List.mem_cons_of_mem _ hc))
    rw [this]
    rfl

theorem For_alg (key : Key) (a : Alg) : For key a ↔ key.alg = a := by
  constructor
  · intro h
    cases h <;> rfl
  · rintro rfl
    cases key with
    | secret s kid => cases s <;> constructor
    | shared b kid => constructor

theorem checkAlg_spec (key : Key) (alg : Option Alg) :
    checkAlg key alg = if (∀ a, alg = some a → key.alg = a) then .ok key else .error := by
  cases alg with
  | none => simp [checkAlg]
  | some a =>
    cases key with
    | secret s kid => cases s <;> cases a <;> simp [checkAlg, Key.alg]
    | shared b kid => cases a <;> simp [checkAlg, Key.alg]

theorem checkAlg_ok (key key' : Key) (alg : Option Alg) :
    checkAlg key alg = .ok key' ↔ key' = key ∧ ∀ a, alg = some a → For key a := by
  rw [checkAlg_spec]
  simp only [For_alg]
  split
  · rename_i h
    simp only [Out.ok.injEq]
    exact ⟨fun e => ⟨e.symm, h⟩, fun e => e.1.symm⟩
  · rename_i h
    simp [h]

theorem checkAlg_panic (key : Key) (alg : Option Alg) : checkAlg key alg ≠ .panic := by
  rw [checkAlg_spec]
  split <;> simp

theorem bind_ok {α β : Type} (x : Out α) (f : α → Out β) (b : β) : x.bind f = .ok b ↔ ∃ a, x = .ok a ∧ f a = .ok b := by
  cases x <;> simp [Out.bind]

theorem bind_panic {α β : Type} (x : Out α) (f : α → Out β) : x.bind f = .panic ↔ x = .panic ∨ ∃ a, x = .ok a ∧ f a = .panic := by
  cases x <;> simp [Out.bind]

theorem of_ok {α : Type} (x : Option α) (a : α) : Out.of x = .ok a ↔ x = some a := by
  cases x <;> simp [Out.of]

theorem of_panic {α : Type} (x : Option α) : Out.of x ≠ .panic := by
  cases x <;> simp [Out.of]

theorem parseEc_ok (env : Env) (j : Jwk) (make : Bytes → Secret) (crv : String) (hc : j.crv = some crv) (key : Key) :
    parseEc env j make = .ok key ↔ ∃ d x y b, j.d = some d ∧ j.x = some x ∧ j.y = some y ∧ env.ecKey crv x y d = some b ∧
      key = .secret (make b) j.kid := by
  unfold parseEc ecKeyOf
  rw [hc]
  cases j.d with
  | none => simp
  | some d =>
    cases j.x with
    | none => simp [Out.of, Out.bind]
    | some x =>
      cases j.y with
      | none => simp [Out.of, Out.bind]
      | some y =>
        simp only [bind_ok, of_ok, Out.ok.injEq]
        constructor
        · rintro ⟨b, h, rfl⟩
          exact ⟨d, x, y, b, rfl, rfl, rfl, h, rfl⟩
        · rintro ⟨d', x', y', b, h1, h2, h3, h, rfl⟩
          cases h1
          cases h2
          cases h3
          exact ⟨b, h, rfl⟩

theorem parseEc_panic (env : Env) (j : Jwk) (make : Bytes → Secret) : parseEc env j make ≠ .panic := by
  unfold parseEc
  split
  · simp
  · intro h
    rw [bind_panic] at h
    rcases h with h | ⟨a, _, h⟩
    · exact of_panic _ h
    · cases h

theorem parseOct_ok (env : Env) (j : Jwk) (key : Key) :
    parseOct env j = .ok key ↔ j.alg = some "HS256" ∧ ∃ k b, j.k = some k ∧ env.base64Url k = some b ∧ key = .shared b j.kid := by
  unfold parseOct
  split
  · rename_i h
    cases j.k with
    | none => simp
    | some k =>
      simp only [bind_ok, of_ok, Out.ok.injEq]
      constructor
      · rintro ⟨b, hb, rfl⟩
        exact ⟨h, k, b, rfl, hb, rfl⟩
      · rintro ⟨_, k', b, hk, hb, rfl⟩
        cases hk
        exact ⟨b, hb, rfl⟩
  · rename_i h
    simp [h]

theorem parseOct_panic (env : Env) (j : Jwk) : parseOct env j ≠ .panic := by
  unfold parseOct
  split
  · split
    · simp
    · intro h
      rw [bind_panic] at h
      rcases h with h | ⟨a, _, h⟩
      · exact of_panic _ h
      · cases h
  · simp

theorem parseEd25519_spec (env : Env) (j : Jwk) :
    (∀ key, parseEd25519 env j = .ok key ↔ ∃ d x priv pub, j.d = some d ∧ j.x = some x ∧ env.base64Url d = some priv ∧
      env.base64Url x = some pub ∧ priv.length = 32 ∧ pub.length = 32 ∧ key = .secret (.ed25519 (priv ++ pub)) j.kid) ∧
    (parseEd25519 env j = .panic ↔ ∃ d x priv pub, j.d = some d ∧ j.x = some x ∧ env.base64Url d = some priv ∧
      env.base64Url x = some pub ∧ priv.length + pub.length = 64 ∧ priv.length ≠ 32) := by
  unfold parseEd25519
  cases j.d with
  | none => simp
  | some d =>
    cases j.x with
    | none => simp
    | some x =>
      cases hp : env.base64Url d with
      | none => simp [hp]
      | some priv =>
        cases hq : env.base64Url x with
        | none => simp [hp, hq]
        | some pub =>
          simp only [hp, hq, bind_ok, bind_panic, Out.ok.injEq, ed25519Bytes]
          constructor
          · intro key
            constructor
            · rintro ⟨b, hb, rfl⟩
              split at hb
              · cases hb
              · split at hb
                · cases hb
                · cases hb
                  exact ⟨d, x, priv, pub, rfl, rfl, hp, hq, by omega, by omega, rfl⟩
            · rintro ⟨d', x', priv', pub', h1, h2, h3, h4, h5, h6, rfl⟩
              cases h1
              cases h2
              rw [hp] at h3
              rw [hq] at h4
              cases h3
              cases h4
              exact ⟨priv ++ pub, by rw [if_neg (by omega), if_neg (by omega)], rfl⟩
          · constructor
            · rintro (h | ⟨_, _, h⟩)
              · split at h
                · cases h
                · split at h
                  · exact ⟨d, x, priv, pub, rfl, rfl, hp, hq, by omega, by omega⟩
                  · cases h
              · cases h
            · rintro ⟨d', x', priv', pub', h1, h2, h3, h4, h5, h6⟩
              cases h1
              cases h2
              rw [hp] at h3
              rw [hq] at h4
              cases h3
              cases h4
              exact Or.inl (by rw [if_neg (by omega), if_pos h6])

theorem parseJwk_spec (env : Env) (data : String) :
    (∀ key, parseJwk env data = .ok key ↔ ∃ j, env.json data = some j ∧ OfJwk env j key) ∧
    (parseJwk env data = .panic ↔ ∃ j, env.json data = some j ∧ BadLengths env j) := by
  unfold parseJwk
  cases env.json data with
  | none => simp
  | some j =>
    simp only [Option.some.injEq, exists_eq_left']
    by_cases h1 : j.kty = "EC" ∧ j.crv = some "P-256"
    · simp only [if_pos h1]
      constructor
      · intro key
        rw [parseEc_ok env j _ _ h1.2]
        constructor
        · rintro ⟨d, x, y, b, g1, g2, g3, g4, rfl⟩
          exact .p256 h1.1 h1.2 g1 g2 g3 g4
        · intro h
          cases h with
          | p256 _ _ g1 g2 g3 g4 => exact ⟨_, _, _, _, g1, g2, g3, g4, rfl⟩
          | p384 _ e => rw [h1.2] at e; exact absurd e (by decide)
          | ed25519 e => rw [h1.1] at e; exact absurd e (by decide)
          | oct e => rw [h1.1] at e; exact absurd e (by decide)
      · constructor
        · intro h
          exact absurd h (parseEc_panic _ _ _)
        · rintro ⟨e, _⟩
          rw [h1.1] at e
          exact absurd e (by decide)
    · simp only [if_neg h1]
      by_cases h2 : j.kty = "EC" ∧ j.crv = some "P-384"
      · simp only [if_pos h2]
        constructor
        · intro key
          rw [parseEc_ok env j _ _ h2.2]
          constructor
          · rintro ⟨d, x, y, b, g1, g2, g3, g4, rfl⟩
            exact .p384 h2.1 h2.2 g1 g2 g3 g4
          · intro h
            cases h with
            | p256 _ e => rw [h2.2] at e; exact absurd e (by decide)
            | p384 _ _ g1 g2 g3 g4 => exact ⟨_, _, _, _, g1, g2, g3, g4, rfl⟩
            | ed25519 e => rw [h2.1] at e; exact absurd e (by decide)
            | oct e => rw [h2.1] at e; exact absurd e (by decide)
        · constructor
          · intro h
            exact absurd h (parseEc_panic _ _ _)
          · rintro ⟨e, _⟩
            rw [h2.1] at e
            exact absurd e (by decide)
      · simp only [if_neg h2]
        by_cases h3 : j.kty = "OKP" ∧ j.crv = some "Ed25519"
        · simp only [if_pos h3]
          obtain ⟨p1, p2⟩ := parseEd25519_spec env j
          constructor
          · intro key
            rw [p1]
            constructor
            · rintro ⟨d, x, priv, pub, g1, g2, g3, g4, g5, g6, rfl⟩
              exact .ed25519 h3.1 h3.2 g1 g2 g3 g4 g5 g6
            · intro h
              cases h with
              | p256 e => rw [h3.1] at e; exact absurd e (by decide)
              | p384 e => rw [h3.1] at e; exact absurd e (by decide)
              | ed25519 _ _ g1 g2 g3 g4 g5 g6 => exact ⟨_, _, _, _, g1, g2, g3, g4, g5, g6, rfl⟩
              | oct e => rw [h3.1] at e; exact absurd e (by decide)
          · rw [p2]
            exact ⟨fun h => ⟨h3.1, h3.2, h⟩, fun h => h.2.2⟩
        · simp only [if_neg h3]
          by_cases h4 : j.kty = "oct"
          · simp only [if_pos h4]
            constructor
            · intro key
              rw [parseOct_ok]
              constructor
              · rintro ⟨g1, k, b, g2, g3, rfl⟩
                exact .oct h4 g1 g2 g3
              · intro h
                cases h with
                | p256 e => rw [h4] at e; exact absurd e (by decide)
                | p384 e => rw [h4] at e; exact absurd e (by decide)
                | ed25519 e => rw [h4] at e; exact absurd e (by decide)
                | oct _ g1 g2 g3 => exact ⟨g1, _, _, g2, g3, rfl⟩
            · constructor
              · intro h
                exact absurd h (parseOct_panic _ _)
              · rintro ⟨e, _⟩
                rw [h4] at e
                exact absurd e (by decide)
          · simp only [if_neg h4]
            constructor
            · intro key
              constructor
              · intro h
                cases h
              · intro h
                cases h with
                | p256 e1 e2 => exact absurd ⟨e1, e2⟩ h1
                | p384 e1 e2 => exact absurd ⟨e1, e2⟩ h2
                | ed25519 e1 e2 => exact absurd ⟨e1, e2⟩ h3
                | oct e => exact absurd e h4
            · constructor
              · intro h
                cases h
              · rintro ⟨e1, e2, _⟩
                exact absurd ⟨e1, e2⟩ h3

theorem loadFrom_ok (env : Env) (source : Source) (alg : Option Alg) (key : Key) :
    loadFrom env source alg = .ok key ↔ Loads env source alg key := by
  cases source with
  | inlined c id =>
    unfold loadFrom fromString
    have hl : Loads env (.inlined c id) alg key ↔ (alg = none ∨ alg = some .hmac) ∧ ∃ b, env.base64 c = some b ∧ key = .shared b none := by
      constructor
      · intro h
        cases h with
        | inlined h1 h2 => exact ⟨h1, _, h2, rfl⟩
      · rintro ⟨h1, b, h2, rfl⟩
        exact .inlined h1 h2
    rw [hl]
    have common : (Out.of (env.base64 c)).bind (fun b => Out.ok (Key.shared b none)) = .ok key ↔ ∃ b, env.base64 c = some b ∧ key = .shared b none := by
      rw [bind_ok]
      constructor
      · rintro ⟨b, h1, h2⟩
        rw [of_ok] at h1
        cases h2
        exact ⟨b, h1, rfl⟩
      · rintro ⟨b, h1, rfl⟩
        exact ⟨b, (of_ok _ _).mpr h1, rfl⟩
    cases alg with
    | none => simpa using common
    | some a => cases a <;> simp [common]
  | file n id =>
    unfold loadFrom fromFile
    cases hr : env.readFile n with
    | none =>
      simp only [hr]
      constructor
      · intro h
        cases h
      · intro h
        cases h with
        | base64 e => rw [hr] at e; cases e
        | pem e => rw [hr] at e; cases e
        | jwk e => rw [hr] at e; cases e
    | some data =>
      simp only [hr, bind_ok, checkAlg_ok]
      by_cases hj : JsonLike data
      · rw [if_pos ((looksLikeJson_iff data).mpr hj)]
        constructor
        · rintro ⟨k, h1, rfl, h2⟩
          obtain ⟨j, g1, g2⟩ := ((parseJwk_spec env data).1 _).mp h1
          exact .jwk hr hj g1 g2 h2
        · intro h
          cases h with
          | base64 e h => rw [hr] at e; cases e; exact absurd hj h
          | pem e h => rw [hr] at e; cases e; exact absurd hj h
          | jwk e _ g1 g2 h2 =>
            rw [hr] at e
            cases e
            exact ⟨key, ((parseJwk_spec env data).1 _).mpr ⟨_, g1, g2⟩, rfl, h2⟩
      · rw [if_neg (fun h => hj ((looksLikeJson_iff data).mp h))]
        by_cases ha : alg = some .hmac
        · rw [if_pos ha]
          constructor
          · rintro ⟨k, h1, rfl, h2⟩
            rw [bind_ok] at h1
            obtain ⟨b, g1, g2⟩ := h1
            rw [of_ok] at g1
            cases g2
            rw [ha]
            exact .base64 hr hj g1
          · intro h
            cases h with
            | base64 e _ h =>
              rw [hr] at e
              cases e
              refine ⟨_, (bind_ok _ _ _).mpr ⟨_, (of_ok _ _).mpr h, rfl⟩, rfl, ?_⟩
              intro a e
              cases e
              exact .hmac
            | pem e _ _ h => exact absurd ha h
            | jwk e h => rw [hr] at e; cases e; exact absurd h hj
        · rw [if_neg ha]
          constructor
          · rintro ⟨k, h1, rfl, h2⟩
            rw [bind_ok] at h1
            obtain ⟨b, g1, g2⟩ := h1
            rw [of_ok] at g1
            cases g2
            exact .pem hr hj g1 ha h2
          · intro h
            cases h with
            | base64 e _ h => exact absurd rfl ha
            | pem e _ h1 _ h2 =>
              rw [hr] at e
              cases e
              exact ⟨_, (bind_ok _ _ _).mpr ⟨_, (of_ok _ _).mpr h1, rfl⟩, rfl, h2⟩
            | jwk e h => rw [hr] at e; cases e; exact absurd h hj

theorem loadFrom_panic (env : Env) (source : Source) (alg : Option Alg) :
    loadFrom env source alg = .panic ↔ ∃ n id data j, source = .file n id ∧ env.readFile n = some data ∧ JsonLike data ∧
      env.json data = some j ∧ BadLengths env j := by
  cases source with
  | inlined c id =>
    constructor
    · intro h
      unfold loadFrom fromString at h
      simp only at h
      split at h
      · rw [bind_panic] at h
        rcases h with h | ⟨_, _, h⟩
        · exact absurd h (of_panic _)
        · cases h
      · cases h
    · rintro ⟨n, i, data, j, h, _⟩
      cases h
  | file n id =>
    unfold loadFrom fromFile
    cases hr : env.readFile n with
    | none =>
      simp only [hr]
      constructor
      · intro h
        cases h
      · rintro ⟨n', i, data, j, h, h2, _⟩
        cases h
        rw [hr] at h2
        cases h2
    | some data =>
      simp only [hr, bind_panic]
      have side : ∀ (x : Out Key), (x = .panic ∨ ∃ a, x = .ok a ∧ checkAlg a alg = .panic) ↔ x = .panic := by
        intro x
        constructor
        · rintro (h | ⟨a, _, h⟩)
          · exact h
          · exact absurd h (checkAlg_panic _ _)
        · exact Or.inl
      rw [side]
      by_cases hj : JsonLike data
      · rw [if_pos ((looksLikeJson_iff data).mpr hj), (parseJwk_spec env data).2]
        constructor
        · rintro ⟨j, h1, h2⟩
          exact ⟨n, id, data, j, rfl, hr, hj, h1, h2⟩
        · rintro ⟨n', i, data', j, h, h2, _, h3, h4⟩
          cases h
          rw [hr] at h2
          cases h2
          exact ⟨j, h3, h4⟩
      · rw [if_neg (fun h => hj ((looksLikeJson_iff data).mp h))]
        constructor
        · intro h
          split at h <;> rw [bind_panic] at h <;> rcases h with h | ⟨_, _, h⟩
          · exact absurd h (of_panic _)
          · cases h
          · exact absurd h (of_panic _)
          · cases h
        · rintro ⟨n', i, data', j, h, h2, h3, _⟩
          cases h
          rw [hr] at h2
          cases h2
          exact absurd h3 hj

/-! ## Settings -/

theorem chosen_or {α : Type} (a b : Option α) : Chosen a b (a.or b) := by
  cases a <;> constructor

theorem chosen_unique {α : Type} {a b c : Option α} (h : Chosen a b c) : c = a.or b := by
  cases h <;> rfl

theorem merged_settings (own global s : Config) : Settings own global s ↔ s = mergeConfig own global := by
  constructor
  · intro h
    obtain ⟨h1, h2, h3, h4, h5, h6, h7, h8⟩ := h
    cases s
    simp only [mergeConfig, Config.mk.injEq]
    exact ⟨chosen_unique h1, chosen_unique h2, chosen_unique h3, chosen_unique h4, chosen_unique h5, chosen_unique h6,
      chosen_unique h7, chosen_unique h8⟩
  · rintro rfl
    exact ⟨chosen_or _ _, chosen_or _ _, chosen_or _ _, chosen_or _ _, chosen_or _ _, chosen_or _ _, chosen_or _ _, chosen_or _ _⟩

theorem merge_empty (global : Config) : mergeConfig {} global = global := rfl

theorem shouldInclude_iff (p : Params) (name : String) : shouldInclude p name = true ↔ name ∉ p.excludes := by
  unfold shouldInclude
  by_cases h : name ∈ p.excludes
  · simp [h]
  · rw [if_neg (by simpa using h)]
    simp only [h, not_false_eq_true, iff_true]
    split <;> simp

theorem hopByHop_iff (name : String) : name ∈ hopByHop ↔ Hops name := by
  unfold hopByHop Hops
  simp only [List.mem_cons, List.not_mem_nil, or_false]

theorem named_iff (d : Derived) (n : String) : Named d n ↔ n = derivedName d := by
  constructor
  · intro h
    cases h <;> rfl
  · rintro rfl
    cases d <;> constructor

theorem told_spec (env : Env) (p : Params) : Told env p.keyId p.key (toldId env p) := by
  unfold toldId
  cases p.keyId with
  | some id => exact .configured
  | none =>
    cases p.key with
    | secret s kid =>
      cases kid with
      | none => exact .library
      | some id => exact .secret
    | shared b kid =>
      cases kid with
      | none => exact .nothing
      | some id => exact .shared

/-- The parameters which are made of settings. -/
structure Made (env : Env) (c : Config) (p : Params) : Prop where
  enabled : c.enabled = some true
  key : ∃ source, c.key = some source ∧ Loads env source c.algorithm p.key ∧ p.keyId = source.id
  expiry : p.expiry = c.expiry
  excludes : p.excludes = c.excludes.getD [] ++ hopByHop
  derived : p.derived = c.derived.getD [.requestTarget]
  params : p.params = c.params.getD []

theorem fromConfig_spec (env : Env) (config : Config) (global : Option Config) :
    (fromConfig env config global = .ok none ↔ (effective config global).enabled ≠ some true) ∧
    (∀ p, fromConfig env config global = .ok (some p) → Made env (effective config global) p) ∧
    ((effective config global).enabled = some true → ∀ source key, (effective config global).key = some source →
      Loads env source (effective config global).algorithm key → ∃ p, fromConfig env config global = .ok (some p)) := by
  unfold fromConfig
  generalize effective config global = c
  simp only
  have hen : c.enabled.getD false = true ↔ c.enabled = some true := by
    cases c.enabled with
    | none => simp
    | some b => simp
  by_cases h : c.enabled = some true
  · rw [if_pos (hen.mpr h)]
    cases hk : c.key with
    | none => simp [h]
    | some source =>
      refine ⟨?_, ?_, ?_⟩
      · simp only [h, ne_eq, not_true_eq_false, iff_false, bind_ok]
        rintro ⟨a, _, e⟩
        cases e
      · intro p hp
        simp only [bind_ok] at hp
        obtain ⟨key, h1, h2⟩ := hp
        cases h2
        exact ⟨h, ⟨source, hk, (loadFrom_ok _ _ _ _).mp h1, rfl⟩, rfl, rfl, rfl, rfl⟩
      · intro _ s key e hl
        cases e
        exact ⟨_, (bind_ok _ _ _).mpr ⟨key, (loadFrom_ok _ _ _ _).mpr hl, rfl⟩⟩
  · rw [if_neg (fun e => h (hen.mp e))]
    refine ⟨by simp [h], ?_, fun e => absurd e h⟩
    intro p hp
    cases hp

theorem count_headers (f : String → Bool) (n : String) (hn : f n = true) : ∀ headers : List String,
    ((headers.filter f).map Component.header).count (.header n) = headers.count n
  | [] => rfl
  | h :: headers => by
    rw [List.filter_cons]
    by_cases e : h = n
    · subst e
      rw [if_pos hn, List.map_cons, List.count_cons_self, List.count_cons_self, count_headers f h hn headers]
    · by_cases hf : f h = true
      · rw [if_pos hf, List.map_cons, List.count_cons_of_ne (by simpa using e), List.count_cons_of_ne (by simpa using e), count_headers f n hn headers]
      · rw [if_neg hf, List.count_cons_of_ne (by simpa using e), count_headers f n hn headers]

theorem sigParams_spec (env : Env) (c : Config) (p : Params) (now : Nat) (headers : List String) (sp : SigParams)
    (hm : Made env c p) (h : sigParams env p now headers = .ok sp) : Signature env c now headers p.key sp := by
  unfold sigParams headerComponents at h
  simp only [bind_ok] at h
  obtain ⟨hs, h1, h2⟩ := h
  split at h1
  · cases h1
    split at h2
    · cases h2
      refine ⟨?_, ?_, ?_, ?_, ?_, rfl, ?_, ?_⟩
      · obtain ⟨source, k1, k2, k3⟩ := hm.key
        refine ⟨source, k1, k2, p.keyId, told_spec env p, ?_⟩
        rw [k3]
        cases source with
        | file n id => exact Or.inl ⟨n, rfl⟩
        | inlined n id => exact Or.inr ⟨n, rfl⟩
      · exact (For_alg _ _).mpr rfl
      · refine ⟨_, _, rfl, ?_, ?_⟩
        · intro x
          simp only [List.mem_map, List.mem_filter, shouldInclude_iff, hm.excludes, List.mem_append, hopByHop_iff]
          constructor
          · rintro ⟨n, ⟨g1, g2⟩, rfl⟩
            refine ⟨n, g1, ?_, rfl⟩
            rintro (g | ⟨l, g3, g4⟩)
            · exact g2 (Or.inr g)
            · rw [g3] at g2
              exact g2 (Or.inl g4)
          · rintro ⟨n, g1, g2, rfl⟩
            refine ⟨n, ⟨g1, ?_⟩, rfl⟩
            rintro (g | g)
            · apply g2
              cases he : c.excludes with
              | none => rw [he] at g; cases g
              | some l => rw [he] at g; exact Or.inr ⟨l, he, g⟩
            · exact g2 (Or.inl g)
        · intro x
          rw [← hm.derived]
          simp only [List.mem_map, named_iff]
          constructor
          · rintro ⟨d, g, rfl⟩
            exact ⟨d, g, _, rfl, rfl⟩
          · rintro ⟨d, g, n, rfl, rfl⟩
            exact ⟨d, g, rfl⟩
      · intro n hn
        have hnd : ∀ l : List Derived, (l.map (fun d => Component.derived (derivedName d))).count (.header n) = 0 := by
          intro l
          rw [List.count_eq_zero]
          intro hx
          obtain ⟨d, _, e⟩ := List.mem_map.mp hx
          cases e
        have hin : shouldInclude p n = true := by
          rcases List.mem_append.mp hn with hx | hx
          · obtain ⟨m, hm1, e⟩ := List.mem_map.mp hx
            cases e
            exact (List.mem_filter.mp hm1).2
          · obtain ⟨d, _, e⟩ := List.mem_map.mp hx
            cases e
        show (_ ++ _ : List Component).count _ = _
        rw [List.count_append, hnd, Nat.add_zero, count_headers _ n hin]
      · simp only [hm.params]
        cases c.params with
        | none => simp
        | some l =>
          cases l with
          | nil => simp
          | cons x l =>
            cases x
            simp
      · intro he
        simp [hm.expiry, he]
      · intro e he
        refine ⟨now + e / 1000000000, by simp [hm.expiry, he], ?_, ?_⟩ <;> omega
    · cases h2
  · cases h1

/-! ## The signer -/

theorem subgraphParams_mem (env : Env) (global : Config) (ids : List (String × Nat)) : ∀ (subs : List (String × Option Config))
    (ps : List (Nat × Option Params)), subgraphParams env global ids subs = .ok ps →
    (∀ x ∈ ps, ∃ name own, (name, some own) ∈ subs ∧ ids.lookup name = some x.1 ∧ fromConfig env own (some global) = .ok x.2) ∧
    (∀ name own id, (name, some own) ∈ subs → ids.lookup name = some id → ∃ p, (id, p) ∈ ps)
  | [], ps, h => by
    cases h
    refine ⟨?_, ?_⟩
    · intro x hx
      cases hx
    · intro n o i hx
      cases hx
  | (name, own) :: rest, ps, h => by
    rw [subgraphParams.eq_def] at h
    simp only at h
    have skip : subgraphParams env global ids rest = .ok ps → (∀ o i, own = some o → ids.lookup name = some i → False) →
        (∀ x ∈ ps, ∃ n o, (n, some o) ∈ (name, own) :: rest ∧ ids.lookup n = some x.1 ∧ fromConfig env o (some global) = .ok x.2) ∧
        (∀ n o id, (n, some o) ∈ (name, own) :: rest → ids.lookup n = some id → ∃ p, (id, p) ∈ ps) := by
      intro h hno
      obtain ⟨i1, i2⟩ := subgraphParams_mem env global ids rest ps h
      refine ⟨?_, ?_⟩
      · intro x hx
        obtain ⟨n, o, g1, g2⟩ := i1 x hx
        exact ⟨n, o, List.mem_cons_of_mem _ g1, g2⟩
      · intro n o i hx hl
        rcases List.mem_cons.mp hx with e | hx'
        · cases e
          exact absurd hl (fun k => hno o i rfl k)
        · exact i2 n o i hx' hl
    cases hl : ids.lookup name with
    | none =>
      simp only [hl] at h
      exact skip h (fun o i _ k => by rw [hl] at k; cases k)
    | some id =>
      simp only [hl] at h
      cases own with
      | none => exact skip h (fun o i k _ => by cases k)
      | some own =>
        simp only [bind_ok] at h
        obtain ⟨p, h1, ps', h2, h3⟩ := h
        cases h3
        obtain ⟨i1, i2⟩ := subgraphParams_mem env global ids rest ps' h2
        refine ⟨?_, ?_⟩
        · intro x hx
          rcases List.mem_cons.mp hx with e | hx'
          · subst e
            exact ⟨name, own, List.mem_cons_self, hl, h1⟩
          · obtain ⟨n, o, g1, g2⟩ := i1 x hx'
            exact ⟨n, o, List.mem_cons_of_mem _ g1, g2⟩
        · intro n o i hx hi
          rcases List.mem_cons.mp hx with e | hx'
          · cases e
            rw [hl] at hi
            cases hi
            exact ⟨p, List.mem_cons_self⟩
          · obtain ⟨q, hq⟩ := i2 n o i hx' hi
            exact ⟨q, List.mem_cons_of_mem _ hq⟩

theorem lookup_mem_of {α : Type} (k : Nat) (v : α) : ∀ l : List (Nat × α), l.lookup k = some v → (k, v) ∈ l
  | [], h => by cases h
  | (k', v') :: l, h => by
    rw [List.lookup_cons] at h
    split at h
    · rename_i e
      cases h
      have : k = k' := by simpa using e
      rw [this]
      exact List.mem_cons_self
    · exact List.mem_cons_of_mem _ (lookup_mem_of k v l h)

theorem lookup_none_of {α : Type} (k : Nat) : ∀ l : List (Nat × α), l.lookup k = none → ∀ v, (k, v) ∉ l
  | [], _, v, h => by cases h
  | (k', v') :: l, h, v, hm => by
    rw [List.lookup_cons] at h
    split at h
    · cases h
    · rename_i e
      rcases List.mem_cons.mp hm with e' | hm'
      · cases e'
        simp at e
      · exact lookup_none_of k l h v hm'

/-- No subgraph is in the way. -/
theorem subgraphParams_ready (env : Env) (global : Config) (ids : List (String × Nat)) : ∀ subs : List (String × Option Config),
    (∃ ps, subgraphParams env global ids subs = .ok ps) ↔
      ∀ name own, (name, some own) ∈ subs → (∃ id, ids.lookup name = some id) → ∃ p, fromConfig env own (some global) = .ok p
  | [] => by simp [subgraphParams]
  | (name, own) :: rest => by
    have ih := subgraphParams_ready env global ids rest
    rw [subgraphParams.eq_def]
    simp only
    have skip : (∀ o i, own = some o → ids.lookup name = some i → False) →
        ((∀ n o, (n, some o) ∈ (name, own) :: rest → (∃ id, ids.lookup n = some id) → ∃ p, fromConfig env o (some global) = .ok p) ↔
          ∀ n o, (n, some o) ∈ rest → (∃ id, ids.lookup n = some id) → ∃ p, fromConfig env o (some global) = .ok p) := by
      intro hno
      constructor
      · intro h n o hm
        exact h n o (List.mem_cons_of_mem _ hm)
      · rintro h n o hm ⟨id, hi⟩
        rcases List.mem_cons.mp hm with e | hm'
        · cases e
          exact absurd hi (fun k => hno o id rfl k)
        · exact h n o hm' ⟨id, hi⟩
    cases hl : ids.lookup name with
    | none =>
      rw [skip (fun o i _ k => by rw [hl] at k; cases k)]
      exact ih
    | some id =>
      cases own with
      | none =>
        rw [skip (fun o i k _ => by cases k)]
        exact ih
      | some own =>
        simp only [bind_ok]
        constructor
        · rintro ⟨ps, p, h1, ps', h2, h3⟩ n o hm hi
          rcases List.mem_cons.mp hm with e | hm'
          · cases e
            exact ⟨p, h1⟩
          · exact ih.mp ⟨ps', h2⟩ n o hm' hi
        · intro h
          obtain ⟨p, hp⟩ := h name own List.mem_cons_self ⟨id, hl⟩
          obtain ⟨ps, hps⟩ := ih.mpr (fun n o hm => h n o (List.mem_cons_of_mem _ hm))
          exact ⟨_, p, hp, ps, hps, rfl⟩

theorem signer_params (env : Env) (global : Config) (ids : List (String × Nat)) (subs : List (String × Option Config)) (signer : Signer)
    (name : String) (id : Nat) (own : Config) (h : newSigner env global ids subs = .ok signer)
    (hi : ids.lookup name = some id) (hinj : ∀ other, ids.lookup other = some id → other = name)
    (hown : ∀ a b, (name, some a) ∈ subs → (name, some b) ∈ subs → a = b) (ho : Own subs name own) :
    ∃ config g, effective config g = mergeConfig own global ∧ fromConfig env config g = .ok (signer.params id) := by
  unfold newSigner at h
  simp only [bind_ok] at h
  obtain ⟨d, h1, ps, h2, h3⟩ := h
  cases h3
  obtain ⟨i1, i2⟩ := subgraphParams_mem env global ids subs ps h2
  unfold Signer.params
  simp only
  cases hl : ps.reverse.lookup id with
  | none =>
    have hn := lookup_none_of id _ hl
    cases ho with
    | configured hm =>
      obtain ⟨p, hp⟩ := i2 name own id hm hi
      exact absurd (List.mem_reverse.mpr hp) (hn p)
    | unset _ => exact ⟨global, none, by rw [merge_empty]; rfl, h1⟩
  | some p =>
    have hm := List.mem_reverse.mp (lookup_mem_of id p _ hl)
    obtain ⟨n, o, g1, g2, g3⟩ := i1 _ hm
    have := hinj n g2
    subst this
    cases ho with
    | configured hm' =>
      have := hown _ _ g1 hm'
      subst this
      exact ⟨o, some global, rfl, g3⟩
    | unset hno => exact absurd g1 (hno o)

end Verif.Signing
