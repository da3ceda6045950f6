import Verif.AutoDetect.Lemmas

/-!
# The candidates and the vector they are ranges of
-/

namespace Verif.AutoDetect

open Verif.Views (Out Item Data Val Obj Json Inj)
open Verif.Injection

variable {S : Schema} {batch : Bool} {key : List (Item Unit)} {args : List Nat}

/-- `t` is the only required argument, if there is one. -/
def Only (S : Schema) (args : List Nat) (t : Nat) : Prop :=
  args.length ≤ 64 → ∀ t' ∈ args, (S.input t').ty.wrap.isNonNull = true → t' = t

/-- A candidate that may be found. -/
inductive Found (S : Schema) (batch : Bool) (key : List (Item Unit)) (args : List Nat) : List (Nat × Arg) → Prop where
  | direct (kvs : List (Nat × Inj)) (h : key.length = 1 ∨ batch = false)
      (hm : mapKey S args key (subInjections S key) batch = .ok (some kvs)) :
      Found S batch key args (kvs.map fun (i, inj) => (i, .value inj))
  | object (t id : Nat) (inj : Inj) (ht : t ∈ args) (hon : Only S args t) (hid : (S.input t).ty.definition = .input id)
      (hone : S.oneOf id = false) (hlen : 1 < key.length) (hdepth : depth (S.input t).ty.wrap = batch.toNat)
      (ho : objectInjection S key (S.inputFields id) = .ok (some inj)) : Found S batch key args [(t, .value inj)]
  | single (t id : Nat) (item : Item Unit) (i : Nat) (inj : Inj) (ht : t ∈ args) (hon : Only S args t)
      (hid : (S.input t).ty.definition = .input id) (hone : S.oneOf id = true) (hl : (S.input t).ty.wrap.isList = false)
      (hkey : key = [item]) (ho : oneOfSingle S batch item (S.inputFields id) = .ok (some (i, inj))) :
      Found S batch key args [(t, .object [(i, .value inj)])]
  | field (t id : Nat) (i id' : Nat) (inj : Inj) (ht : t ∈ args) (hon : Only S args t)
      (hid : (S.input t).ty.definition = .input id) (hone : S.oneOf id = true) (hl : (S.input t).ty.wrap.isList = false)
      (hlen : key.length ≠ 1) (hi : i ∈ S.inputFields id) (hid' : (S.input i).ty.definition = .input id')
      (hdepth : depth (S.input i).ty.wrap = batch.toNat)
      (ho : objectInjection S key (S.inputFields id') = .ok (some inj)) :
      Found S batch key args [(t, .object [(i, .value inj)])]

def slice (arena : List (Nat × Arg)) (c : Nat × Nat) : List (Nat × Arg) := (arena.drop c.1).take c.2

/-- A single candidate is either gone or as it was found; what was in the vector before stays. -/
structure Inv (S : Schema) (batch : Bool) (key : List (Item Unit)) (args : List Nat) (arena : List (Nat × Arg)) (s : State) :
    Prop where
  found : s.candidates.length ≤ 1 → ∀ c ∈ s.candidates, c.1 + c.2 ≤ s.arena.length → Found S batch key args (slice s.arena c)
  old : ∃ ext, s.arena = arena ++ ext

theorem Inv.push {arena : List (Nat × Arg)} {s : State} (h : Inv S batch key args arena s) (n : Nat)
    {range : List (Nat × Arg)} (hr : Found S batch key args range) : Inv S batch key args arena (s.push n range) := by
  refine ⟨?_, ?_⟩
  · intro hlen c hc _
    have hnil : s.candidates = [] := by
      cases hs : s.candidates with
      | nil => rfl
      | cons c cs => simp [State.push, hs] at hlen
    simp only [State.push, hnil, List.nil_append, List.mem_singleton] at hc
    subst hc
    simp only [State.push, slice]
    rw [List.drop_append_of_le_length (by simp)]
    rw [List.drop_of_length_le (by simp), List.nil_append, List.take_length]
    exact hr
  · obtain ⟨ext, he⟩ := h.old
    exact ⟨ext ++ List.replicate n (0, .object []) ++ range, by simp [State.push, he]⟩

theorem Inv.reset {arena : List (Nat × Arg)} {s : State} (h : Inv S batch key args arena s) {n : Nat} (hn : arena.length ≤ n) :
    Inv S batch key args arena (s.reset n) := by
  refine ⟨?_, ?_⟩
  · intro hlen c hc hle
    simp only [State.reset, List.length_take] at hle hlen hc ⊢
    have := h.found hlen c hc (by omega)
    have heq : slice (s.arena.take n) c = slice s.arena c := by
      rw [slice, slice, List.drop_take, List.take_take]
      congr 1
      omega
    rw [heq]
    exact this
  · obtain ⟨ext, he⟩ := h.old
    refine ⟨ext.take (n - arena.length), ?_⟩
    simp only [State.reset, he]
    rw [List.take_append, List.take_of_length_le hn]

theorem direct_inv {arena : List (Nat × Arg)} {s s' : State} (hs : Inv S batch key args arena s)
    (h : direct S batch key args s = .ok s') : Inv S batch key args arena s' := by
  rw [direct] at h
  split at h
  · rename_i hc
    obtain ⟨o, ho, heq⟩ := Views.map_ok.1 h
    cases o with
    | none => cases heq; exact hs
    | some kvs => cases heq; exact hs.push 0 (.direct kvs hc ho)
  · cases h
    exact hs

theorem oneOfFields_inv {arena : List (Nat × Arg)} {t id state : Nat} (ht : t ∈ args) (hon : Only S args t)
    (hid : (S.input t).ty.definition = .input id) (hone : S.oneOf id = true) (hl : (S.input t).ty.wrap.isList = false)
    (hlen : key.length ≠ 1) (hn : arena.length ≤ state) : ∀ {is : List Nat} {s s' : State}, (∀ i ∈ is, i ∈ S.inputFields id) →
    Inv S batch key args arena s → oneOfFields S batch key t state is s = .ok s' → Inv S batch key args arena s'
  | [], s, s', _, hs, h => by
    cases h
    exact hs
  | i :: is, s, s', his, hs, h => by
    have his' := fun x hx => his x (List.mem_cons_of_mem _ hx)
    rw [oneOfFields] at h
    split at h
    · rename_i id' hid'
      split at h
      · rename_i hd
        obtain ⟨o, ho, h⟩ := bind_ok.1 h
        cases o with
        | none => exact oneOfFields_inv ht hon hid hone hl hlen hn his' (hs.reset hn) h
        | some inj =>
          exact oneOfFields_inv ht hon hid hone hl hlen hn his'
            (hs.push 1 (.field t id i id' inj ht hon hid hone hl hlen (his i List.mem_cons_self) hid' hd ho)) h
      · exact oneOfFields_inv ht hon hid hone hl hlen hn his' hs h
    · exact oneOfFields_inv ht hon hid hone hl hlen hn his' hs h

theorem nested_inv {arena : List (Nat × Arg)} {t : Nat} {s s' : State} (ht : t ∈ args)
    (hon : isInput (S.input t).ty.definition = true → Only S args t)
    (hs : Inv S batch key args arena s) (h : nested S batch key t s = .ok s') : Inv S batch key args arena s' := by
  rw [nested] at h
  split at h
  · rename_i id hid
    have hon := hon (by rw [hid]; rfl)
    split at h
    · rename_i hone
      split at h
      · cases h
        exact hs
      · rename_i hl
        have hl : (S.input t).ty.wrap.isList = false := by simpa using hl
        split at h
        · obtain ⟨o, ho, heq⟩ := Views.map_ok.1 h
          cases o with
          | none => cases heq; exact hs
          | some r =>
            obtain ⟨i, inj⟩ := r
            cases heq
            exact hs.push 1 (.single t id _ i inj ht hon hid hone hl rfl ho)
        · rename_i hk
          refine oneOfFields_inv ht hon hid hone hl ?_ ?_ (fun _ h => h) hs h
          · intro hlen
            cases key with
            | nil => cases hlen
            | cons x xs =>
              cases xs with
              | nil => exact hk x rfl
              | cons => simp at hlen
          · obtain ⟨ext, he⟩ := hs.old
            rw [he]
            simp
    · rename_i hone
      have hone : S.oneOf id = false := by simpa using hone
      split at h
      · rename_i hlen
        split at h
        · rename_i hd
          obtain ⟨o, ho, heq⟩ := Views.map_ok.1 h
          cases o with
          | none => cases heq; exact hs
          | some inj => cases heq; exact hs.push 0 (.object t id inj ht hon hid hone hlen hd ho)
        · cases h; exact hs
      · cases h; exact hs
  · cases h; exact hs

theorem only_of {i t : Nat} (ht : args[i]? = some t) (h : otherRequired (requiredArgs S args) i = false) :
    Only S args t := by
  intro hlen t' ht' hn
  obtain ⟨r, hr, hr'⟩ := List.mem_iff_getElem.1 ht'
  have hmem : r ∈ requiredArgs S args := by
    rw [requiredArgs, List.mem_filter]
    refine ⟨List.mem_range.2 hr, ?_⟩
    rw [List.getElem?_eq_getElem hr, hr']
    exact hn
  have := (List.any_eq_false.1 h) r hmem
  have hi : i < args.length := by
    rcases Nat.lt_or_ge i args.length with h' | h'
    · exact h'
    · rw [List.getElem?_eq_none h'] at ht; cases ht
  have hri : r = i := by
    have : r % 64 = i % 64 := by simpa using this
    omega
  subst hri
  rw [List.getElem?_eq_getElem hr, hr'] at ht
  cases ht
  rfl

theorem nestedAll_inv {arena : List (Nat × Arg)} : ∀ {ts : List Nat} {i : Nat} {s s' : State}, args.drop i = ts →
    Inv S batch key args arena s → nestedAll S batch key (requiredArgs S args) i ts s = .ok s' → Inv S batch key args arena s'
  | [], i, s, s', _, hs, h => by
    cases h
    exact hs
  | t :: ts, i, s, s', hdrop, hs, h => by
    have ht : args[i]? = some t := by
      have := List.getElem?_drop (xs := args) (i := i) (j := 0)
      rw [hdrop] at this
      simpa using this.symm
    have hdrop' : args.drop (i + 1) = ts := by
      rw [← List.drop_drop, hdrop]
      rfl
    rw [nestedAll] at h
    split at h
    · exact nestedAll_inv hdrop' hs h
    · rename_i hc
      obtain ⟨s1, h1, h⟩ := bind_ok.1 h
      refine nestedAll_inv hdrop' (nested_inv (List.mem_of_getElem? ht) (fun hin => only_of ht ?_) hs h1) h
      rw [hin] at hc
      simpa using hc

theorem allCandidates_inv {arena : List (Nat × Arg)} {s : State} (h : allCandidates S batch key args arena = .ok s) :
    Inv S batch key args arena s := by
  rw [allCandidates] at h
  obtain ⟨s1, h1, h⟩ := bind_ok.1 h
  have hs1 := direct_inv (args := args) (arena := arena) (s := ⟨arena, []⟩) ⟨by simp, [], by simp⟩ h1
  split at h
  · cases h
    exact hs1
  · exact nestedAll_inv (by simp) hs1 h

/-- The range that is returned. -/
theorem detect_found {arena arena' : List (Nat × Arg)} {range : Nat × Nat}
    (h : detect S batch key args arena = .ok (some range, arena')) {l : List (Nat × Arg)}
    (hr : records arena' range = .ok l) : Found S batch key args l := by
  rw [detect] at h
  obtain ⟨s, hs, heq⟩ := Views.map_ok.1 h
  have hinv := allCandidates_inv hs
  split at heq
  · cases heq
  · rename_i c hc
    cases heq
    rw [records] at hr
    split at hr
    · rename_i hle
      cases hr
      exact hinv.found (by rw [hc]; simp) range (by rw [hc]; simp) hle
    · cases hr
  · cases heq

theorem detect_old {arena arena' : List (Nat × Arg)} {range : Option (Nat × Nat)}
    (h : detect S batch key args arena = .ok (range, arena')) : ∃ ext, arena' = arena ++ ext := by
  rw [detect] at h
  obtain ⟨s, hs, heq⟩ := Views.map_ok.1 h
  obtain ⟨ext, he⟩ := (allCandidates_inv hs).old
  split at heq
  · cases heq; exact ⟨ext, he⟩
  · cases heq; exact ⟨ext, he⟩
  · cases heq
    exact ⟨[], by rw [he]; simp⟩

/-! ## Ranges -/

/-- All candidates are there. -/
def Within (s : State) : Prop := ∀ c ∈ s.candidates, c.1 + c.2 ≤ s.arena.length

theorem Within.push {s : State} (h : Within s) (n : Nat) (range : List (Nat × Arg)) : Within (s.push n range) := by
  intro c hc
  simp only [State.push, List.mem_append, List.mem_singleton] at hc
  rcases hc with hc | rfl
  · have := h c hc
    simp only [State.push, List.length_append]
    omega
  · simp only [State.push, List.length_append, List.length_replicate]
    omega

theorem nested_within {t : Nat} {s s' : State} (hk : isOneOf S t = true → key.length = 1) (hs : Within s)
    (h : nested S batch key t s = .ok s') : Within s' := by
  rw [nested] at h
  split at h
  · rename_i id hid
    split at h
    · rename_i hone
      split at h
      · cases h; exact hs
      · split at h
        · obtain ⟨o, ho, heq⟩ := Views.map_ok.1 h
          cases o with
          | none => cases heq; exact hs
          | some r => cases heq; exact hs.push _ _
        · rename_i hk'
          have := hk (by rw [isOneOf, hid]; exact hone)
          exfalso
          cases key with
          | nil => cases this
          | cons x xs =>
            cases xs with
            | nil => exact hk' x rfl
            | cons => simp at this
    · split at h
      · split at h
        · obtain ⟨o, ho, heq⟩ := Views.map_ok.1 h
          cases o with
          | none => cases heq; exact hs
          | some r => cases heq; exact hs.push _ _
        · cases h; exact hs
      · cases h; exact hs
  · cases h; exact hs

theorem nestedAll_within {required : List Nat} : ∀ {ts : List Nat} {i : Nat} {s s' : State},
    (∀ t ∈ ts, isOneOf S t = true → key.length = 1) → Within s →
    nestedAll S batch key required i ts s = .ok s' → Within s'
  | [], i, s, s', _, hs, h => by
    cases h
    exact hs
  | t :: ts, i, s, s', hk, hs, h => by
    have hk' := fun t ht => hk t (List.mem_cons_of_mem _ ht)
    rw [nestedAll] at h
    split at h
    · exact nestedAll_within hk' hs h
    · obtain ⟨s1, h1, h⟩ := bind_ok.1 h
      exact nestedAll_within hk' (nested_within (hk t List.mem_cons_self) hs h1) h

theorem detect_within {arena arena' : List (Nat × Arg)} {range : Nat × Nat}
    (hk : ∀ t ∈ args, isOneOf S t = true → key.length = 1)
    (h : detect S batch key args arena = .ok (some range, arena')) : range.1 + range.2 ≤ arena'.length := by
  rw [detect] at h
  obtain ⟨s, hs, heq⟩ := Views.map_ok.1 h
  have hw : Within s := by
    rw [allCandidates] at hs
    obtain ⟨s1, h1, hs⟩ := bind_ok.1 hs
    have hs1 : Within s1 := by
      rw [direct] at h1
      split at h1
      · obtain ⟨o, ho, heq⟩ := Views.map_ok.1 h1
        have hw0 : Within ⟨arena, []⟩ := by
          intro c hc
          cases hc
        cases o with
        | none => cases heq; exact hw0
        | some kvs => cases heq; exact hw0.push _ _
      · cases h1
        intro c hc
        cases hc
    split at hs
    · cases hs
      exact hs1
    · exact nestedAll_within hk hs1 hs
  split at heq
  · cases heq
  · rename_i c hc
    cases heq
    exact hw range (by rw [hc]; simp)
  · cases heq

end Verif.AutoDetect
