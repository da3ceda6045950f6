import Verif.Signing.Lemmas

/-!
# C85: requests to subgraphs are signed as configured
-/
namespace Verif.Signing

/-- A key is the one the configuration names, of the algorithm it asks for, or there is none. -/
theorem C85_key (env : Env) (source : Source) (alg : Option Alg) (key : Key) :
    loadFrom env source alg = .ok key ↔ Loads env source alg key :=
  loadFrom_ok env source alg key

/-- Just the keys of 64 bytes which are not 32 each panic. -/
theorem C85_panic (env : Env) (source : Source) (alg : Option Alg) :
    loadFrom env source alg = .panic ↔ ∃ n id data j, source = .file n id ∧ env.readFile n = some data ∧ JsonLike data ∧
      env.json data = some j ∧ BadLengths env j :=
  loadFrom_panic env source alg

/-- A key has one source. -/
theorem C85_source (file inlined id : Option String) (s : Source) :
    readSource file inlined id = some s ↔ (∃ n, file = some n ∧ inlined = none ∧ s = .file n id) ∨
      ∃ c, file = none ∧ inlined = some c ∧ s = .inlined c id := by
  cases file <;> cases inlined <;> simp [readSource, eq_comm]

theorem ready_iff (env : Env) (config : Config) (g : Option Config) :
    (∃ p, fromConfig env config g = .ok p) ↔ Ready env (effective config g) := by
  obtain ⟨h1, h2, h3⟩ := fromConfig_spec env config g
  constructor
  · rintro ⟨p, hp⟩ he
    cases p with
    | none => exact absurd he (h1.mp hp)
    | some p =>
      obtain ⟨source, k1, k2, _⟩ := (h2 p hp).key
      exact ⟨source, _, k1, k2⟩
  · intro h
    by_cases he : (effective config g).enabled = some true
    · obtain ⟨source, key, k1, k2⟩ := h he
      obtain ⟨p, hp⟩ := h3 he source key k1 k2
      exact ⟨_, hp⟩
    · exact ⟨none, h1.mpr he⟩

/-- The gateway starts just when there is a key wherever signing is enabled: for the gateway, and for the subgraphs which have
settings and are in the schema. -/
theorem C85_built (env : Env) (global : Config) (ids : List (String × Nat)) (subs : List (String × Option Config)) :
    (∃ signer, newSigner env global ids subs = .ok signer) ↔ Ready env global ∧
      ∀ name own s, (name, some own) ∈ subs → (∃ id, ids.lookup name = some id) → Settings own global s → Ready env s := by
  unfold newSigner
  simp only [bind_ok]
  have hg := ready_iff env global none
  have hs := subgraphParams_ready env global ids subs
  constructor
  · rintro ⟨signer, d, h1, ps, h2, h3⟩
    refine ⟨hg.mp ⟨d, h1⟩, ?_⟩
    intro name own s hm hi hset
    rw [(merged_settings _ _ _).mp hset]
    exact (ready_iff env own (some global)).mp (hs.mp ⟨ps, h2⟩ name own hm hi)
  · rintro ⟨h1, h2⟩
    obtain ⟨d, hd⟩ := hg.mpr h1
    obtain ⟨ps, hps⟩ := hs.mpr (fun name own hm hi =>
      (ready_iff env own (some global)).mpr (h2 name own _ hm hi ((merged_settings _ _ _).mpr rfl)))
    exact ⟨_, d, hd, ps, hps, rfl⟩

/-- A request over HTTP is signed if signing is enabled by the subgraph's settings, or those of the gateway where it has none: with
the key, the headers which are not left out, the derived components, the nonce and the expiry of those settings. If a header is
no component, or the components are refused, it fails. Otherwise it is sent as it is. -/
theorem C85_signed_partial (env : Env) (global : Config) (ids : List (String × Nat)) (subs : List (String × Option Config))
    (signer : Signer) (name : String) (id now : Nat) (own s : Config) (headers : List String)
    (h : newSigner env global ids subs = .ok signer)
    (hi : ids.lookup name = some id) (hinj : ∀ other, ids.lookup other = some id → other = name)
    (hown : ∀ a b, (name, some a) ∈ subs → (name, some b) ∈ subs → a = b) (ho : Own subs name own) (hset : Settings own global s) :
    (s.enabled ≠ some true → send env signer .http id now headers = .plain) ∧
    (s.enabled = some true →
      (∃ key p, send env signer .http id now headers = .signed key p ∧ Signature env s now headers key p ∧ env.accepts p.components = true ∧
        ∀ n ∈ headers, ¬ LeftOut s n → env.component n = true) ∨
      (send env signer .http id now headers = .failed ∧
        ((∃ n ∈ headers, ¬ LeftOut s n ∧ env.component n = false) ∨
          ∃ cs, Covers cs headers (s.derived.getD [.requestTarget]) (LeftOut s) ∧ env.accepts cs = false))) := by
  obtain ⟨config, g, he, hf⟩ := signer_params env global ids subs signer name id own h hi hinj hown ho
  rw [(merged_settings _ _ _).mp hset]
  obtain ⟨h1, h2, _⟩ := fromConfig_spec env config g
  rw [he] at h1 h2
  generalize mergeConfig own global = c at h1 h2
  show (_ → sign env signer id now headers = .plain) ∧ (_ → (∃ key p, sign env signer id now headers = .signed key p ∧ _) ∨
    (sign env signer id now headers = .failed ∧ _))
  unfold sign
  cases hp : signer.params id with
  | none =>
    rw [hp] at hf
    exact ⟨fun _ => rfl, fun e => absurd e (h1.mp hf)⟩
  | some p =>
    rw [hp] at hf
    have hm := h2 p hf
    refine ⟨fun e => absurd hm.enabled e, fun _ => ?_⟩
    simp only
    have out : ∀ n, shouldInclude p n = true ↔ ¬ LeftOut c n := by
      intro n
      rw [shouldInclude_iff, hm.excludes, List.mem_append, hopByHop_iff]
      unfold LeftOut
      cases c.excludes with
      | none => simp
      | some l =>
        simp
        constructor
        · rintro ⟨a, b⟩
          exact ⟨b, a⟩
        · rintro ⟨a, b⟩
          exact ⟨b, a⟩
    by_cases hc : (headers.filter (shouldInclude p)).all env.component = true
    · have all : ∀ n ∈ headers, ¬ LeftOut c n → env.component n = true := fun n hn ho =>
        List.all_eq_true.mp hc n (List.mem_filter.mpr ⟨hn, (out n).mpr ho⟩)
      by_cases ha : env.accepts ((headers.filter (shouldInclude p)).map .header ++ p.derived.map (fun d => .derived (derivedName d))) = true
      · have hok : ∃ sp, sigParams env p now headers = .ok sp ∧ env.accepts sp.components = true := by
          unfold sigParams headerComponents
          simp only [if_pos hc, Out.bind, if_pos ha]
          exact ⟨_, rfl, ha⟩
        obtain ⟨sp, hsp, hacc⟩ := hok
        exact Or.inl ⟨p.key, sp, by rw [hsp], sigParams_spec env c p now headers sp hm hsp, hacc, all⟩
      · refine Or.inr ⟨?_, Or.inr ⟨_, ⟨_, _, rfl, ?_, ?_⟩, by simpa using ha⟩⟩
        · unfold sigParams headerComponents
          simp only [if_pos hc, Out.bind, if_neg ha]
        · intro x
          simp only [List.mem_map, List.mem_filter, out]
          constructor
          · rintro ⟨n, ⟨g1, g2⟩, rfl⟩
            exact ⟨n, g1, g2, rfl⟩
          · rintro ⟨n, g1, g2, rfl⟩
            exact ⟨n, ⟨g1, g2⟩, rfl⟩
        · intro x
          rw [← hm.derived]
          simp only [List.mem_map, named_iff]
          constructor
          · rintro ⟨d, g, rfl⟩
            exact ⟨d, g, _, rfl, rfl⟩
          · rintro ⟨d, g, n, rfl, rfl⟩
            exact ⟨d, g, rfl⟩
    · refine Or.inr ⟨?_, Or.inl ?_⟩
      · unfold sigParams headerComponents
        simp only [if_neg hc, Out.bind]
      · rw [Bool.not_eq_true, List.all_eq_false] at hc
        obtain ⟨n, hn, hne⟩ := hc
        obtain ⟨g1, g2⟩ := List.mem_filter.mp hn
        exact ⟨n, g1, (out n).mp g2, by simpa using hne⟩

/-! ## Cases -/

/-- Files and libraries: components are accepted unless one is there twice. -/
def env : Env where
  readFile := fun n => if n = "ec.json" then some " {ec}" else if n = "ed.json" then some "{ed}" else if n = "secret" then some "a2V5" else none
  base64 := fun s => if s = "a2V5" then some [107, 101, 121] else none
  base64Url := fun s => if s = "short" then some (List.replicate 31 1) else if s = "long" then some (List.replicate 33 2) else none
  pem := fun _ => none
  json := fun s => if s = " {ec}" then some { kty := "EC", crv := some "P-256", kid := some "k1", d := some "d", x := some "x", y := some "y" }
    else if s = "{ed}" then some { kty := "OKP", crv := some "Ed25519", d := some "short", x := some "long" } else none
  ecKey := fun _ _ _ _ => some [1, 2, 3]
  secretId := fun _ => "library"
  sharedId := fun _ => "made up"
  component := fun _ => true
  accepts := fun cs => cs.all (fun c => cs.count c == 1)

/-- The gateway signs with a shared key; one subgraph has its own and leaves a header out, one does not sign. -/
def gateway : Config := { enabled := some true, key := some (.inlined "a2V5" none), expiry := some 1500000000 }

def subs : List (String × Option Config) :=
  [("products", some { key := some (.file "ec.json" none), excludes := some ["authorization"], params := some [.nonce] }),
    ("reviews", some { enabled := some false }), ("users", none)]

def ids : List (String × Nat) := [("products", 0), ("reviews", 1), ("users", 2)]

theorem C85_signed_case : ∃ signer, newSigner env gateway ids subs = .ok signer ∧
    send env signer .http 0 100 ["accept", "authorization", "te"] = .signed (.secret (.p256 [1, 2, 3]) (some "k1"))
      ⟨[.header "accept", .derived "@request-target"], .p256, some "k1", true, 100, some 101⟩ ∧
    send env signer .http 1 100 ["accept"] = .plain ∧
    send env signer .http 2 100 ["accept", "authorization", "te"] = .signed (.shared [107, 101, 121] none)
      ⟨[.header "accept", .header "authorization", .derived "@request-target"], .hmac, none, false, 100, some 101⟩ :=
  ⟨_, rfl, by decide +kernel, by decide +kernel, by decide +kernel⟩

theorem C85_key_case : Loads env (.file "secret" (some "a")) (some .hmac) (.shared [107, 101, 121] none) :=
  (C85_key _ _ _ _).mp (by decide +kernel)

/-- FALSE that just the headers which are to be included are signed: that setting has no effect. -/
theorem C85_include_false :
    (∀ (p : Params) (l : Option (List String)) (n : String), shouldInclude { p with includes := l } n = shouldInclude p n) ∧
    ∃ signer, newSigner env { gateway with includes := some ["accept"] } ids [] = .ok signer ∧
      send env signer .http 0 100 ["accept", "cookie"] = .signed (.shared [107, 101, 121] none)
        ⟨[.header "accept", .header "cookie", .derived "@request-target"], .hmac, none, false, 100, some 101⟩ := by
  refine ⟨?_, _, rfl, by decide +kernel⟩
  intro p l n
  rw [Bool.eq_iff_iff, shouldInclude_iff, shouldInclude_iff]

/-- FALSE that the headers which are to be excluded are not signed: their names must be in lower case. -/
theorem C85_exclude_false : ∃ signer, newSigner env { gateway with excludes := some ["Authorization"] } ids [] = .ok signer ∧
    send env signer .http 0 100 ["authorization"] = .signed (.shared [107, 101, 121] none)
      ⟨[.header "authorization", .derived "@request-target"], .hmac, none, false, 100, some 101⟩ :=
  ⟨_, rfl, by decide +kernel⟩

/-- FALSE that no header which hops is signed: the one which tells the trailers is `trailer`. -/
theorem C85_trailer_false : ∃ signer, newSigner env gateway ids [] = .ok signer ∧
    send env signer .http 0 100 ["trailer", "trailers"] = .signed (.shared [107, 101, 121] none)
      ⟨[.header "trailer", .derived "@request-target"], .hmac, none, false, 100, some 101⟩ :=
  ⟨_, rfl, by decide +kernel⟩

/-- FALSE that all requests are signed where it is enabled: those of subscriptions are not. -/
theorem C85_stream_false (env : Env) (signer : Signer) (id now : Nat) (headers : List String) :
    send env signer .sse id now headers = .plain ∧ send env signer .websocket id now headers = .plain :=
  ⟨rfl, rfl⟩

/-- FALSE that a wrong key is an error: one of 31 bytes with a public key of 33 panics. -/
theorem C85_lengths_false : newSigner env { gateway with key := some (.file "ed.json" none) } ids [] = .panic := by decide +kernel

/-- FALSE that a request with a header of two values is signed, if components which are there twice are refused. -/
theorem C85_repeated_false : ∃ signer, newSigner env gateway ids [] = .ok signer ∧
    send env signer .http 0 100 ["x-tag", "x-tag"] = .failed ∧ send env signer .http 0 100 ["x-tag"] ≠ .failed :=
  ⟨_, rfl, by decide +kernel, by decide +kernel⟩

/-- FALSE that a signature is valid for as long as is configured: half a second is none. -/
theorem C85_expiry_false : ∃ signer, newSigner env { gateway with expiry := some 500000000 } ids [] = .ok signer ∧
    send env signer .http 0 100 [] = .signed (.shared [107, 101, 121] none) ⟨[.derived "@request-target"], .hmac, none, false, 100, some 100⟩ :=
  ⟨_, rfl, by decide +kernel⟩

/-- FALSE that signing may be enabled for all with a key for each subgraph. -/
theorem C85_each_false : newSigner env { enabled := some true } ids
    [("products", some { key := some (.file "ec.json" none) }), ("reviews", some { key := some (.inlined "a2V5" none) }),
      ("users", some { key := some (.inlined "a2V5" none) })] = .error := by decide +kernel

end Verif.Signing
