import Verif.Cors.Lemmas

/-!
# C87: sites reach the gateway, and read its responses, as the settings of cross-origin requests allow
-/
namespace Verif.Cors

/-- The layer of settings. -/
theorem start_ok {glob : Str → Str → Bool} {cfg : Option Config} (h : Starts (settings cfg)) :
    ∃ l, start glob cfg = .ok l ∧ l.credentials = (settings cfg).credentials ∧ l.privateNetwork = (settings cfg).privateNetwork ∧
      l.maxAge = (settings cfg).maxAge ∧ l.methods = methodList (settings cfg).methods ∧ l.headers = valueOf (settings cfg).headers ∧
      l.expose = valueOf (settings cfg).expose ∧
      (∀ o v, l.origin.header (some o) = some v ↔
        ((settings cfg).origins = some .any ∧ v = ['*']) ∨ ((settings cfg).origins ≠ some .any ∧ v = o ∧ OriginAllowed glob (settings cfg) o)) := by
  cases cfg with
  | none =>
    refine ⟨Layer.permissive, rfl, rfl, rfl, rfl, rfl, rfl, rfl, ?_⟩
    intro o v
    constructor
    · intro e
      have e : some ['*'] = some v := e
      exact Or.inl ⟨rfl, (Option.some.inj e).symm⟩
    · rintro (⟨_, rfl⟩ | ⟨h, _⟩)
      · rfl
      · exact absurd rfl h
  | some c =>
    have hh := headerList_ok h.headers
    have he := headerList_ok h.expose
    have hstart : ∃ l, corsLayer glob c = .ok l ∧ l = ⟨c.credentials, c.privateNetwork,
        originOf glob c.origins, c.maxAge, methodList c.methods, valueOf c.headers, valueOf c.expose⟩ := by
      refine ⟨_, ?_, rfl⟩
      unfold corsLayer
      have h1 : headerList c.headers = .ok (valueOf c.headers) := hh
      have h2 : headerList c.expose = .ok (valueOf c.expose) := he
      simp only [h1, h2]
    obtain ⟨l, hl, e⟩ := hstart
    have wild : l.origin.isWildcard = true → c.origins = some .any := by
      rw [e]
      cases ho : c.origins with
      | none => intro h; cases h
      | some a =>
        cases a with
        | any => intro _; rfl
        | explicit a =>
          simp only [originOf, allowOrigin]
          cases splitOrigins a with
          | mk x y =>
            simp only
            split
            · intro h; cases h
            · split <;> (intro h; cases h)
    have usable : l.usable = true := by
      unfold Layer.usable
      rw [Bool.not_eq_true', Bool.and_eq_false_iff]
      cases hc : l.credentials with
      | false => exact Or.inl rfl
      | true =>
        right
        have hcc : c.credentials = true := by rw [e] at hc; exact hc
        obtain ⟨w1, w2, w3, w4, w5, w6⟩ := h.wild hcc
        rw [Bool.eq_false_iff]
        intro hw
        simp only [Bool.or_eq_true_iff, beq_iff_eq] at hw
        rcases hw with ((hw | hw) | hw) | hw
        · rw [e] at hw
          rcases (valueOf_wild (s := c.headers) h.headers).mp hw with hw | hw
          · exact w3 hw
          · exact w5 hw
        · rw [e] at hw
          exact w2 (methodList_wild.mp hw)
        · exact w1 (wild hw)
        · rw [e] at hw
          rcases (valueOf_wild (s := c.expose) h.expose).mp hw with hw | hw
          · exact w4 hw
          · exact w6 hw
    refine ⟨l, ?_, by rw [e]; rfl, by rw [e]; rfl, by rw [e]; rfl, by rw [e]; rfl, by rw [e]; rfl, by rw [e]; rfl, ?_⟩
    · rw [start, hl]
      simp only
      rw [if_pos usable]
    · intro o v
      rw [e]
      simp only [settings]
      cases ho : c.origins with
      | none =>
        constructor
        · intro h; simp [originOf, Layer.new, AllowOrigin.header] at h
        · rintro (⟨h, _⟩ | ⟨_, _, h⟩)
          · cases h
          · cases h with
            | any h => rw [ho] at h; cases h
            | listed h => rw [ho] at h; cases h
            | pattern h => rw [ho] at h; cases h
      | some a =>
        cases a with
        | any =>
          constructor
          · intro e
            have e : some ['*'] = some v := e
            exact Or.inl ⟨rfl, (Option.some.inj e).symm⟩
          · rintro (⟨_, rfl⟩ | ⟨h, _⟩)
            · rfl
            · exact absurd rfl h
        | explicit a =>
          rw [originOf, allowOrigin_explicit]
          constructor
          · rintro ⟨hv, h | ⟨p, h1, h2, h3⟩⟩
            · exact Or.inr ⟨by simp, hv, .listed ho h.1 h.2⟩
            · exact Or.inr ⟨by simp, hv, .pattern ho h1 h2 h3⟩
          · rintro (⟨h, _⟩ | ⟨_, hv, h⟩)
            · cases h
            · refine ⟨hv, ?_⟩
              cases h with
              | any h => rw [ho] at h; cases h
              | listed h h1 h2 =>
                rw [ho] at h
                cases h
                exact Or.inl ⟨h1, h2⟩
              | pattern h h1 h2 h3 =>
                rw [ho] at h
                cases h
                exact Or.inr ⟨_, h1, h2, h3⟩

/-- The gateway starts just with settings whose names of headers are tokens and which do not allow credentials to all; else it panics. -/
theorem C87_start (glob : Str → Str → Bool) (cfg : Option Config) : start glob cfg ≠ .panic ↔ Starts (settings cfg) := by
  constructor
  · intro h
    cases cfg with
    | none => exact ⟨by (intro l e; cases e), by (intro l e; cases e), by (intro e; cases e)⟩
    | some c =>
      have hh : Fine c.headers := by
        by_cases hf : Fine c.headers
        · exact hf
        · exfalso; apply h
          rw [start, corsLayer, headerList_panic hf]
      have he : Fine c.expose := by
        by_cases hf : Fine c.expose
        · exact hf
        · exfalso; apply h
          rw [start, corsLayer, headerList_ok hh, headerList_panic hf]
      refine ⟨hh, he, ?_⟩
      intro hc
      have hc : c.credentials = true := hc
      rw [start, corsLayer, headerList_ok hh, headerList_ok he] at h
      simp only at h
      split at h
      · rename_i hu
        unfold Layer.usable at hu
        simp only [hc, Bool.true_and, Bool.not_eq_true', Bool.or_eq_false_iff, beq_eq_false_iff_ne, wildcard] at hu
        obtain ⟨⟨⟨u1, u2⟩, u3⟩, u4⟩ := hu
        refine ⟨?_, fun e => u2 (methodList_wild.mpr e), fun e => u1 ((valueOf_wild hh).mpr (Or.inl e)), fun e => u4 ((valueOf_wild he).mpr (Or.inl e)),
          fun e => u1 ((valueOf_wild hh).mpr (Or.inr e)), fun e => u4 ((valueOf_wild he).mpr (Or.inr e))⟩
        intro e
        have e : c.origins = some .any := e
        rw [e] at u3
        cases u3
      · exact absurd rfl h
  · intro h
    obtain ⟨l, hl, _⟩ := start_ok (glob := glob) h
    rw [hl]
    intro e
    cases e

theorem starts_of {glob : Str → Str → Bool} {cfg : Option Config} {l : Layer} (h : start glob cfg = .ok l) : Starts (settings cfg) :=
  (C87_start glob cfg).mp (by rw [h]; intro e; cases e)

/-- The check passes just for origins which are allowed, and with credentials just where these are. -/
theorem check_iff {glob : Str → Str → Bool} {cfg : Option Config} {l : Layer} (h : start glob cfg = .ok l) (o : Str) (credentials : Bool) (hd : Headers)
    (ho : hd.allowOrigin = l.origin.header (some o)) (hc : hd.allowCredentials = if l.credentials then some trueValue else none) :
    CorsCheck hd o credentials ↔ OriginAllowed glob (settings cfg) o ∧ (credentials = true → (settings cfg).credentials = true) := by
  have hst := starts_of h
  obtain ⟨l', hl, e1, _, _, _, _, _, hor⟩ := start_ok (glob := glob) hst
  rw [h] at hl
  cases hl
  have cr : hd.allowCredentials = some ['t', 'r', 'u', 'e'] ↔ (settings cfg).credentials = true := by
    rw [hc, e1]
    cases (settings cfg).credentials
    · simp
    · simp [trueValue]
  unfold CorsCheck
  rw [ho, cr]
  constructor
  · rintro ⟨v, hv, h'⟩
    rcases (hor o v).mp hv with ⟨ha, _⟩ | ⟨_, rfl, ha⟩
    · refine ⟨.any ha, ?_⟩
      intro hcr
      rcases h' with ⟨h1, _⟩ | ⟨_, h2⟩
      · rw [h1] at hcr; cases hcr
      · exact h2 hcr
    · refine ⟨ha, ?_⟩
      intro hcr
      rcases h' with ⟨h1, _⟩ | ⟨_, h2⟩
      · rw [h1] at hcr; cases hcr
      · exact h2 hcr
  · rintro ⟨ha, hcr⟩
    by_cases hany : (settings cfg).origins = some .any
    · refine ⟨['*'], (hor o _).mpr (Or.inl ⟨hany, rfl⟩), ?_⟩
      cases credentials with
      | false => exact Or.inl ⟨rfl, rfl⟩
      | true => exact absurd hany (hst.wild (hcr rfl)).1
    · exact ⟨o, (hor o _).mpr (Or.inr ⟨hany, rfl, ha⟩), Or.inr ⟨rfl, hcr⟩⟩

/-- A site may read a response just when its origin is allowed, with credentials where these are; if the service itself sets no such headers. -/
theorem C87_read (glob : Str → Str → Bool) (cfg : Option Config) (l : Layer) (h : start glob cfg = .ok l) (r : Request) (o : Str) (credentials : Bool)
    (service : Request → Headers) (hr : r.origin = some o) (hm : r.method ≠ "OPTIONS".toList)
    (hs : (service r).allowOrigin = none ∧ (service r).allowCredentials = none) :
    CorsCheck (l.call r service).1 o credentials ↔
      OriginAllowed glob (settings cfg) o ∧ (credentials = true → (settings cfg).credentials = true) := by
  apply check_iff h
  · rw [Layer.call, if_neg (show ¬ r.method = Method.options.name from hm)]
    simp only [Headers.over, Layer.common, hs.1, hr, Option.or_none]
  · rw [Layer.call, if_neg (show ¬ r.method = Method.options.name from hm)]
    simp only [Headers.over, Layer.common, hs.2, Option.or_none]

/-- The service answers everything but `OPTIONS` requests, whatever the origin. -/
theorem C87_called (l : Layer) (r : Request) (service : Request → Headers) :
    (l.call r service).2 = true ↔ r.method ≠ ['O', 'P', 'T', 'I', 'O', 'N', 'S'] := by
  have : Method.options.name = ['O', 'P', 'T', 'I', 'O', 'N', 'S'] := by decide
  rw [Layer.call, this]
  split <;> simp_all

theorem settings_creds {c : Config} (h : Starts c) {credentials : Bool} (hc : credentials = true → c.credentials = true)
    {s : Option (AnyOr Str)} (hs : s = c.headers ∨ s = c.expose) (ha : s = some .any) : credentials = false := by
  cases credentials with
  | false => rfl
  | true =>
    have := h.wild (hc rfl)
    rcases hs with hs | hs
    · exact absurd (hs ▸ ha) this.2.2.1
    · exact absurd (hs ▸ ha) this.2.2.2.1

/-- What names of headers the value of a setting has. -/
theorem names_iff {s : Option (AnyOr Str)} (h : Fine s) (name : Str) (hn : s ≠ some .any) :
    (∃ n ∈ values (valueOf s), sameName n name) ↔ ∃ l, s = some (.explicit l) ∧ ∃ n ∈ l, sameName n name := by
  match s, h, hn with
  | none, _, _ => simp [valueOf, values]
  | some (.explicit l), h, _ =>
    rw [values_valueOf (h l rfl)]
    constructor
    · rintro ⟨n, h1, h2⟩
      obtain ⟨m, hm, rfl⟩ := List.mem_map.mp h1
      exact ⟨l, rfl, m, hm, (sameName_lower m name).mp h2⟩
    · rintro ⟨l', e, m, hm, h2⟩
      cases e
      exact ⟨_, List.mem_map.mpr ⟨m, hm, rfl⟩, (sameName_lower m name).mpr h2⟩

theorem star_iff {s : Option (AnyOr Str)} (h : Fine s) :
    (['*'] : Str) ∈ values (valueOf s) ↔ s = some .any ∨ ∃ l, s = some (.explicit l) ∧ ['*'] ∈ l := by
  match s, h with
  | none, _ => simp [valueOf, values]
  | some .any, _ => simp [valueOf, values, parts]
  | some (.explicit l), h =>
    rw [values_valueOf (h l rfl)]
    constructor
    · intro hm
      obtain ⟨m, hm, e⟩ := List.mem_map.mp hm
      rw [map_lower_star.mp e] at hm
      exact Or.inr ⟨l, rfl, hm⟩
    · rintro (e | ⟨l', e, hm⟩)
      · cases e
      · cases e
        exact List.mem_map.mpr ⟨_, hm, rfl⟩

/-- Scripts may read a header of a response just when its name is exposed. -/
theorem C87_exposed (glob : Str → Str → Bool) (cfg : Option Config) (l : Layer) (h : start glob cfg = .ok l) (r : Request) (credentials : Bool)
    (service : Request → Headers) (name : Str) (hm : r.method ≠ "OPTIONS".toList) (hs : (service r).exposeHeaders = none)
    (hc : credentials = true → (settings cfg).credentials = true) :
    Exposed (l.call r service).1 credentials name ↔ Listed (settings cfg).expose credentials name := by
  have hst := starts_of h
  obtain ⟨l', hl, _, _, _, _, _, e6, _⟩ := start_ok (glob := glob) hst
  rw [h] at hl
  cases hl
  have he : (l.call r service).1.exposeHeaders = valueOf (settings cfg).expose := by
    rw [Layer.call, if_neg (show ¬ r.method = Method.options.name from hm)]
    simp only [Headers.over, hs, Option.or_none, e6]
  have hf : Fine (settings cfg).expose := hst.expose
  unfold Exposed
  rw [he, star_iff hf]
  by_cases ha : (settings cfg).expose = some .any
  · have hcf := settings_creds hst hc (Or.inr rfl) ha
    constructor
    · intro _; exact .any ha hcf
    · intro _; exact Or.inr ⟨hcf, Or.inl ha⟩
  · rw [names_iff hf name ha]
    constructor
    · rintro (⟨l, e, n, h1, h2⟩ | ⟨h1, h2 | ⟨l, e, h2⟩⟩)
      · exact .named e h1 h2
      · exact absurd h2 ha
      · exact .star e h2 h1
    · intro hl
      cases hl with
      | any h1 _ => exact absurd h1 ha
      | named e h1 h2 => exact Or.inl ⟨_, e, _, h1, h2⟩
      | star e h1 h2 => exact Or.inr ⟨h2, Or.inr ⟨_, e, h1⟩⟩

theorem method_iff {c : Config} (h : Starts c) {credentials : Bool} (hc : credentials = true → c.credentials = true) (hd : Headers)
    (hm : hd.allowMethods = methodList c.methods) (m : Str) : MethodPasses hd credentials m ↔ MethodAllowed c m := by
  unfold MethodPasses
  rw [hm]
  constructor
  · rintro (h1 | h1 | ⟨_, h1⟩)
    · cases hmm : c.methods with
      | none => rw [hmm] at h1; cases h1
      | some a =>
        cases a with
        | any => exact .any hmm
        | explicit ms =>
          rw [hmm, methodList, values_methods] at h1
          obtain ⟨x, hx, rfl⟩ := List.mem_map.mp h1
          cases x with
          | get => exact .safe (by decide)
          | post => exact .safe (by decide)
          | head => exact .safe (by decide)
          | put => exact .put hmm hx
          | delete => exact .delete hmm hx
          | options => exact .options hmm hx
          | connect => exact .connect hmm hx
          | patch => exact .patch hmm hx
          | trace => exact .trace hmm hx
    · exact .safe h1
    · cases hmm : c.methods with
      | none => rw [hmm] at h1; cases h1
      | some a =>
        cases a with
        | any => exact .any hmm
        | explicit ms =>
          rw [hmm, methodList, values_methods] at h1
          obtain ⟨x, _, e⟩ := List.mem_map.mp h1
          exact absurd e (method_star x)
  · intro ha
    have listed : ∀ {ms : List Method} {x : Method}, c.methods = some (.explicit ms) → x ∈ ms → x.name ∈ values (methodList c.methods) := by
      intro ms x e hx
      rw [e, methodList, values_methods]
      exact List.mem_map.mpr ⟨x, hx, rfl⟩
    cases ha with
    | safe h1 => exact Or.inr (Or.inl h1)
    | any h1 =>
      refine Or.inr (Or.inr ⟨?_, by rw [h1]; exact List.mem_singleton.mpr rfl⟩)
      cases credentials with
      | false => rfl
      | true => exact absurd h1 (h.wild (hc rfl)).2.1
    | put e hx => exact Or.inl (listed e hx)
    | delete e hx => exact Or.inl (listed e hx)
    | options e hx => exact Or.inl (listed e hx)
    | connect e hx => exact Or.inl (listed e hx)
    | patch e hx => exact Or.inl (listed e hx)
    | trace e hx => exact Or.inl (listed e hx)

/-- A header passes: it is named, or all are allowed and it is not `authorization`. -/
theorem header_iff {c : Config} (h : Starts c) {credentials : Bool} (hc : credentials = true → c.credentials = true) (hd : Headers)
    (hm : hd.allowHeaders = valueOf c.headers) (name : Str) :
    HeaderPasses hd credentials name ↔ (∃ l, c.headers = some (.explicit l) ∧ ∃ n ∈ l, sameName n name) ∨
      (Listed c.headers credentials name ∧ ¬ sameName name "authorization".toList) := by
  have hf : Fine c.headers := h.headers
  unfold HeaderPasses
  rw [hm, star_iff hf]
  by_cases ha : c.headers = some .any
  · have hcf := settings_creds h hc (Or.inl rfl) ha
    constructor
    · rintro (⟨n, h1, h2⟩ | ⟨_, _, h3⟩)
      · right
        refine ⟨.any ha hcf, ?_⟩
        rw [ha] at h1
        have h1 : n ∈ [['*']] := h1
        rw [List.mem_singleton] at h1
        rw [h1] at h2
        intro h3
        unfold sameName at h2 h3
        rw [← h2] at h3
        exact absurd h3 (by decide)
      · exact Or.inr ⟨.any ha hcf, h3⟩
    · rintro (⟨l, e, _⟩ | ⟨_, h3⟩)
      · rw [ha] at e; cases e
      · exact Or.inr ⟨hcf, Or.inl ha, h3⟩
  · rw [names_iff hf name ha]
    constructor
    · rintro (h1 | ⟨h1, h2 | ⟨l, e, h2⟩, h3⟩)
      · exact Or.inl h1
      · exact absurd h2 ha
      · exact Or.inr ⟨.star e h2 h1, h3⟩
    · rintro (h1 | ⟨h1, h3⟩)
      · exact Or.inl h1
      · cases h1 with
        | any h1 _ => exact absurd h1 ha
        | named e h1 h2 => exact Or.inl ⟨_, e, _, h1, h2⟩
        | star e h1 h2 => exact Or.inr ⟨h2, Or.inr ⟨_, e, h1⟩, h3⟩

/-- A request of a site which is not simple is sent just when its origin, its method and its headers are allowed; but `authorization` has to
be named. -/
theorem C87_sent_partial (glob : Str → Str → Bool) (cfg : Option Config) (l : Layer) (h : start glob cfg = .ok l) (r : Request) (o : Str)
    (credentials : Bool) (service : Request → Headers) (hr : r.origin = some o) (hm : r.method = "OPTIONS".toList) (method : Str) (names : List Str) :
    Sent (l.call r service).1 o credentials method names ↔
      (OriginAllowed glob (settings cfg) o ∧ (credentials = true → (settings cfg).credentials = true)) ∧ MethodAllowed (settings cfg) method ∧
        ∀ n ∈ names, (∃ l, (settings cfg).headers = some (.explicit l) ∧ ∃ m ∈ l, sameName m n) ∨
          (Listed (settings cfg).headers credentials n ∧ ¬ sameName n "authorization".toList) := by
  have hst := starts_of h
  obtain ⟨l', hl, _, _, _, e4, e5, _, _⟩ := start_ok (glob := glob) hst
  rw [h] at hl
  cases hl
  have hcheck := check_iff h o credentials (l.call r service).1 (by rw [Layer.call, if_pos (show r.method = Method.options.name from hm)]; simp only [Layer.common, hr])
    (by rw [Layer.call, if_pos (show r.method = Method.options.name from hm)]; simp only [Layer.common])
  have hmet : (l.call r service).1.allowMethods = methodList (settings cfg).methods := by
    rw [Layer.call, if_pos (show r.method = Method.options.name from hm)]
    exact e4
  have hhead : (l.call r service).1.allowHeaders = valueOf (settings cfg).headers := by
    rw [Layer.call, if_pos (show r.method = Method.options.name from hm)]
    exact e5
  unfold Sent
  rw [hcheck]
  constructor
  · rintro ⟨h1, h2, h3⟩
    exact ⟨h1, (method_iff hst h1.2 _ hmet method).mp h2, fun n hn => (header_iff hst h1.2 _ hhead n).mp (h3 n hn)⟩
  · rintro ⟨h1, h2, h3⟩
    exact ⟨h1, (method_iff hst h1.2 _ hmet method).mpr h2, fun n hn => (header_iff hst h1.2 _ hhead n).mpr (h3 n hn)⟩

/-- The other headers of preflight responses are as configured. -/
theorem C87_preflight_rest (glob : Str → Str → Bool) (cfg : Option Config) (l : Layer) (h : start glob cfg = .ok l) (r : Request)
    (service : Request → Headers) (hm : r.method = "OPTIONS".toList) :
    (l.call r service).1.maxAge = (settings cfg).maxAge ∧
      ((l.call r service).1.allowPrivateNetwork = some ['t', 'r', 'u', 'e'] ↔ r.privateNetwork = true ∧ (settings cfg).privateNetwork = true) := by
  obtain ⟨l', hl, _, e2, e3, _⟩ := start_ok (glob := glob) (starts_of h)
  rw [h] at hl
  cases hl
  rw [Layer.call, if_pos (show r.method = Method.options.name from hm)]
  refine ⟨e3, ?_⟩
  simp only [Layer.common, e2]
  cases r.privateNetwork <;> cases (settings cfg).privateNetwork <;> simp [trueValue]

/-- A string is a value, but for `*` and `any`, which are everything; a list is a list of values. -/
theorem C87_setting {α : Type} (parse : Str → Option α) (s : Setting α) (a : AnyOr α) :
    AnyOr.read parse s = some a ↔
      match s with
      | .str t => (a = .any ∧ (t = ['*'] ∨ t = ['a', 'n', 'y'])) ∨ (t ≠ ['*'] ∧ t ≠ ['a', 'n', 'y'] ∧ ∃ v, parse t = some v ∧ a = .explicit [v])
      | .seq l => a = .explicit l := by
  have e1 : "*".toList = ['*'] := by decide
  have e2 : "any".toList = ['a', 'n', 'y'] := by decide
  cases s with
  | seq l =>
    simp only [AnyOr.read, Option.some.injEq]
    exact ⟨fun h => h.symm, fun h => h.symm⟩
  | str t =>
    simp only [AnyOr.read, e1, e2]
    split
    · rename_i ht
      constructor
      · intro h; exact Or.inl ⟨(Option.some.inj h).symm, ht⟩
      · rintro (⟨rfl, _⟩ | ⟨h1, h2, _⟩)
        · rfl
        · rcases ht with ht | ht
          · exact absurd ht h1
          · exact absurd ht h2
    · rename_i ht
      rw [not_or] at ht
      cases hp : parse t with
      | none =>
        constructor
        · intro h; cases h
        · rintro (⟨_, h⟩ | ⟨_, _, v, hv, _⟩)
          · exact absurd h (by rw [not_or]; exact ht)
          · cases hv
      | some v =>
        constructor
        · intro h; exact Or.inr ⟨ht.1, ht.2, v, rfl, (Option.some.inj h).symm⟩
        · rintro (⟨_, h⟩ | ⟨_, _, w, hv, rfl⟩)
          · exact absurd h (by rw [not_or]; exact ht)
          · cases hv; rfl

/-! ## Cases -/

def app : Str := "https://app.example.com".toList

/-- Settings with credentials. -/
def usual : Config :=
  { credentials := true, origins := some (.explicit [app, "https://*.example.org".toList]), methods := some (.explicit [.get, .post, .put]),
    headers := some (.explicit ["Authorization".toList, "x-id".toList]), maxAge := some 60 }

def noGlob : Str → Str → Bool := fun _ _ => false

theorem C87_start_case : start noGlob (some usual) ≠ .panic := by
  rw [C87_start]
  have tok : ∀ s ∈ ["Authorization".toList, "x-id".toList], Token s := by
    unfold Token
    decide +kernel
  refine ⟨?_, ?_, ?_⟩
  · intro l e
    cases e
    exact tok
  · intro l e; cases e
  · intro _
    refine ⟨by (intro e; cases e), by (intro e; cases e), by (intro e; cases e), by (intro e; cases e), by (intro e; cases e), by (intro e; cases e)⟩

/-- A preflight request of the application. -/
theorem C87_sent_case :
    (match start noGlob (some usual) with
      | .ok l => some (l.call ⟨"OPTIONS".toList, some app, false⟩ (fun _ => {})).1
      | .panic => none) =
      some { allowOrigin := some app, allowCredentials := some "true".toList, allowMethods := some "GET,POST,PUT".toList,
             allowHeaders := some "authorization,x-id".toList, maxAge := some 60 } := by
  decide +kernel

/-- FALSE that the gateway tells of settings it does not accept: it panics. -/
theorem C87_start_false :
    (match start noGlob (some { headers := some (.explicit ["my header".toList]) }) with | .ok _ => false | .panic => true) = true ∧
    (match start noGlob (some { credentials := true, origins := some .any }) with | .ok _ => false | .panic => true) = true := by
  decide +kernel

/-- What fast_glob does with classes of characters (which have no ranges and are not negated): where the pattern has a class, the text has one
of its characters. -/
def Classes (glob : Str → Str → Bool) : Prop :=
  ∀ pre cls post s : Str, (∀ c ∈ pre ++ cls, special c = false ∧ c ≠ '^' ∧ c ≠ '-') → cls ≠ [] →
    glob (pre ++ '[' :: (cls ++ ']' :: post)) s = true → ∃ c rest, c ∈ cls ∧ s = pre ++ c :: rest

/-- A matcher of the pattern `[ab]x`. -/
def oneGlob (p s : Str) : Bool := p = ['[', 'a', 'b', ']', 'x'] && (s = ['a', 'x'] || s = ['b', 'x'])

theorem C87_ipv6_met : Classes oneGlob := by
  intro pre cls post s hs _ hg
  simp only [oneGlob, Bool.and_eq_true, Bool.or_eq_true_iff, decide_eq_true_eq] at hg
  obtain ⟨hp, hg⟩ := hg
  match pre, hs, hp with
  | c :: pre, hs, hp =>
    simp only [List.cons_append, List.cons.injEq] at hp
    have := (hs c (by simp)).1
    rw [hp.1] at this
    exact absurd this (by decide)
  | [], hs, hp =>
    match cls, hs, hp with
    | [], _, hp => simp at hp
    | [_], _, hp => simp at hp
    | [a, b], _, hp =>
      simp only [List.nil_append, List.cons_append, List.cons.injEq] at hp
      rw [hp.2.1, hp.2.2.1]
      rcases hg with rfl | rfl
      · exact ⟨'a', ['x'], by simp, rfl⟩
      · exact ⟨'b', ['x'], by simp, rfl⟩
    | a :: b :: c :: _, hs, hp =>
      simp only [List.nil_append, List.cons_append, List.cons.injEq] at hp
      have := (hs c (by simp)).1
      rw [hp.2.2.2.1] at this
      exact absurd this (by decide)

/-- FALSE that an origin which is listed is allowed: one with an address of IPv6 is taken as a pattern, in which the address is a class of
characters. -/
theorem C87_ipv6_false (glob : Str → Str → Bool) (hclass : Classes glob) :
    ∃ l, start glob (some { origins := some (.explicit ["http://[::1]:3000".toList]) }) = .ok l ∧
      ¬ CorsCheck (l.call ⟨"POST".toList, some "http://[::1]:3000".toList, false⟩ (fun _ => {})).1 "http://[::1]:3000".toList false := by
  have hst : Starts (settings (some { origins := some (.explicit ["http://[::1]:3000".toList]) })) :=
    ⟨by (intro l e; cases e), by (intro l e; cases e), by (intro e; cases e)⟩
  obtain ⟨l, hl, _⟩ := start_ok (glob := glob) hst
  refine ⟨l, hl, ?_⟩
  rw [C87_read glob _ l hl _ _ false _ rfl (by decide) ⟨rfl, rfl⟩]
  rintro ⟨ha, _⟩
  have hp : Pattern "http://[::1]:3000".toList := ⟨'[', by decide, by decide⟩
  cases ha with
  | any h => cases h
  | listed h h1 h2 => exact h2 hp
  | @pattern l p h h1 h2 h3 =>
    cases h
    rw [List.mem_singleton] at h1
    rw [h1] at h3
    obtain ⟨c, rest, hc, hs⟩ := hclass "http://".toList "::1".toList ":3000".toList _ (by decide) (by decide) h3
    have hs : "http://".toList ++ '[' :: "::1]:3000".toList = "http://".toList ++ c :: rest := hs
    have := List.append_cancel_left hs
    simp only [List.cons.injEq] at this
    rw [← this.1] at hc
    exact absurd hc (by decide)

/-- FALSE that everything is allowed without settings: a request with `authorization` is not sent. -/
theorem C87_authorization_false (o : Str) :
    start noGlob none = .ok Layer.permissive ∧
    Listed (settings none).headers false "authorization".toList ∧
    ¬ Sent (Layer.permissive.call ⟨"OPTIONS".toList, some o, false⟩ (fun _ => {})).1 o false "POST".toList ["authorization".toList] ∧
    Sent (Layer.permissive.call ⟨"OPTIONS".toList, some o, false⟩ (fun _ => {})).1 o false "POST".toList ["content-type".toList] := by
  refine ⟨rfl, .any rfl rfl, ?_, ?_⟩
  · rw [C87_sent_partial noGlob none Layer.permissive rfl _ o false _ rfl rfl]
    rintro ⟨_, _, h⟩
    rcases h _ (List.mem_singleton.mpr rfl) with ⟨l, e, _⟩ | ⟨_, h⟩
    · cases e
    · exact h rfl
  · rw [C87_sent_partial noGlob none Layer.permissive rfl _ o false _ rfl rfl]
    refine ⟨⟨.any rfl, by (intro e; cases e)⟩, .safe (by decide), ?_⟩
    intro n hn
    rw [List.mem_singleton] at hn
    rw [hn]
    exact Or.inr ⟨.any rfl rfl, by unfold sameName; decide +kernel⟩

end Verif.Cors
