import Verif.Csrf.Model

namespace Verif.Csrf

/-! ## Specification -/

/-- Equality of ASCII strings without regard to case, character by character. -/
def SameName : Str → Str → Prop
  | [], [] => True
  | a :: as, b :: bs => a.toLower = b.toLower ∧ SameName as bs
  | _, _ => False

def Carries (r : Request) (name : Str) : Prop := ∃ h ∈ r.headers, SameName h.1 name

/-- Names of headers in a request are those of an `http::HeaderMap`. -/
def Request.Ok (r : Request) : Prop := ∀ h ∈ r.headers, ∃ s, toHeaderName s = some h.1

/-! ## Lemmas -/

theorem toLower_of_not_upper {c : Char} (h : ¬ (c.val ≥ 'A'.val ∧ c.val ≤ 'Z'.val)) : c.toLower = c := by
  unfold Char.toLower
  rw [dif_neg h]

theorem toLower_of_upper {c : Char} (h : c.val ≥ 'A'.val ∧ c.val ≤ 'Z'.val) : c.toLower.val = c.val + 32 := by
  unfold Char.toLower
  rw [dif_pos h]
  rfl

theorem toLower_idem (c : Char) : c.toLower.toLower = c.toLower := by
  by_cases h : c.val ≥ 'A'.val ∧ c.val ≤ 'Z'.val
  · apply toLower_of_not_upper
    rw [toLower_of_upper h]
    have h1 := UInt32.le_iff_toNat_le.1 h.1
    have h2 := UInt32.le_iff_toNat_le.1 h.2
    intro ⟨_, h4⟩
    have h4 := UInt32.le_iff_toNat_le.1 h4
    rw [UInt32.toNat_add] at h4
    have e1 : 'A'.val.toNat = 65 := rfl
    have e2 : 'Z'.val.toNat = 90 := rfl
    have e3 : (32 : UInt32).toNat = 32 := rfl
    omega
  · rw [toLower_of_not_upper h, toLower_of_not_upper h]

theorem isToken_toLower (c : Char) : isToken c.toLower = isToken c := by
  by_cases h : c.isUpper
  · have h' := h
    simp only [Char.isUpper, Bool.and_eq_true, decide_eq_true_eq] at h
    have hv := toLower_of_upper h
    have h1 := UInt32.le_iff_toNat_le.1 h.1
    have h2 := UInt32.le_iff_toNat_le.1 h.2
    have e1 : 'A'.val.toNat = 65 := rfl
    have e2 : 'Z'.val.toNat = 90 := rfl
    have e3 : (32 : UInt32).toNat = 32 := rfl
    have : c.toLower.isLower = true := by
      simp only [Char.isLower, Bool.and_eq_true, decide_eq_true_eq, hv]
      have e4 : 'a'.val.toNat = 97 := rfl
      have e5 : 'z'.val.toNat = 122 := rfl
      constructor
      · apply UInt32.le_iff_toNat_le.2; rw [UInt32.toNat_add]; omega
      · apply UInt32.le_iff_toNat_le.2; rw [UInt32.toNat_add]; omega
    simp [isToken, Char.isAlphanum, Char.isAlpha, this, h']
  · have : c.toLower = c := by
      simp only [Char.isUpper, Bool.and_eq_true, decide_eq_true_eq] at h
      unfold Char.toLower
      rw [dif_neg h]
    rw [this]

theorem sameName_iff (a b : Str) : SameName a b ↔ a.map Char.toLower = b.map Char.toLower := by
  induction a generalizing b with
  | nil => cases b <;> simp [SameName]
  | cons x a ih => cases b <;> simp [SameName, ih]

theorem toHeaderName_lower {s n : Str} (h : toHeaderName s = some n) : n.map Char.toLower = n := by
  unfold toHeaderName at h
  split at h
  · simp at h
    subst h
    simp [Function.comp_def, toLower_idem]
  · simp at h

theorem toHeaderName_sameName {s n key : Str} (h : toHeaderName s = some n) (hk : SameName n key) :
    toHeaderName key = some n := by
  have hl := toHeaderName_lower h
  rw [sameName_iff, hl] at hk
  have : toHeaderName n = some n := by
    unfold toHeaderName at h
    split at h
    · rename_i hs
      simp at h
      subst h
      unfold toHeaderName
      rw [if_pos, hl]
      simp only [ne_eq, List.map_eq_nil_iff, List.all_map, Function.comp_def, isToken_toLower]
      exact hs
    · simp at h
  unfold toHeaderName at this ⊢
  split at this
  · rename_i hs
    rw [if_pos, hk]
    constructor
    · intro e; subst e; simp at hk; exact hs.1 hk
    · have := hs.2
      rw [hk, List.all_map] at this
      simpa [Function.comp_def, isToken_toLower] using this
  · simp at this

theorem containsKey_iff {r : Request} (hr : r.Ok) (key : Str) :
    containsKey r.headers key = true ↔ Carries r key := by
  unfold containsKey Carries
  constructor
  · intro h
    split at h
    · rename_i name hn
      simp only [List.any_eq_true, beq_iff_eq] at h
      obtain ⟨x, hx, e⟩ := h
      refine ⟨x, hx, ?_⟩
      rw [sameName_iff, e, toHeaderName_lower hn]
      unfold toHeaderName at hn
      split at hn
      · simpa using hn.symm
      · simp at hn
    · simp at h
  · rintro ⟨x, hx, hs⟩
    obtain ⟨s, e⟩ := hr x hx
    rw [toHeaderName_sameName e hs]
    simp only [List.any_eq_true, beq_iff_eq]
    exact ⟨x, hx, rfl⟩

/-! ## C35 -/

/-- With protection on, a request that is not a preflight (`OPTIONS`) reaches the service behind the layers iff it
carries the configured header, in whatever case its name is written. -/
theorem C35_enabled (config : Config) (he : config.enabled = true) (r : Request) (hr : r.Ok)
    (hm : r.method ≠ .options) : router config r = .service ↔ Carries r config.headerName := by
  rw [← containsKey_iff hr]
  simp [router, cors, csrf, validCsrf, hm, he]

/-- Otherwise it is answered with 403. -/
theorem C35_forbidden (config : Config) (r : Request) (hm : r.method ≠ .options) (hs : router config r ≠ .service) :
    router config r = .forbidden := by
  simp only [router, cors, hm, if_false, csrf] at *
  split <;> simp_all

/-- With protection off, every request that is not a preflight reaches the service. -/
theorem C35_disabled (config : Config) (he : config.enabled = false) (r : Request) (hm : r.method ≠ .options) :
    router config r = .service := by
  simp [router, cors, csrf, validCsrf, hm, he]

/-- The exception for `OPTIONS` in the CSRF layer does not open a way past it: such requests are answered by the
CORS layer and never reach the service. -/
theorem C35_options (config : Config) (r : Request) (hm : r.method = .options) : router config r = .preflight := by
  simp [router, cors, hm]

/-- The CSRF layer alone lets any `OPTIONS` request through: that it is behind the CORS layer is needed. -/
theorem C35_order_matters : ∃ (config : Config) (r : Request), config.enabled = true ∧ r.headers = [] ∧
    csrf config (fun _ => .service) r = .service :=
  ⟨⟨true, ['x']⟩, ⟨.options, []⟩, rfl, rfl, by decide⟩

/-! ## Non-vacuity -/

def sample : Request := ⟨.post, [("x-csrf".toList, "1".toList)]⟩

example : sample.Ok ∧ sample.method ≠ .options ∧ Carries sample "X-CSRF".toList := by
  refine ⟨?_, by decide, ?_⟩
  · intro h hh
    simp [sample] at hh
    subst hh
    exact ⟨"x-csrf".toList, by decide⟩
  · exact ⟨_, List.mem_cons_self .., by rw [sameName_iff]; decide⟩
example : router ⟨true, "X-CSRF".toList⟩ sample = .service := by decide
example : router ⟨true, "X-Other".toList⟩ sample = .forbidden := by decide

end Verif.Csrf
