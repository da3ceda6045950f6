import Verif.Documents.Model

namespace Verif.Documents

variable {Op : Type}

/-! ## Specification -/

/-- The document id a request asks for under enforcement: the persisted-query hash, else the document id, else
the hash of the query text. -/
def requestedId (cr : Crypto) (req : Request) : Option Bytes :=
  match req.ext with
  | some ext => some (cr.hex ext.hash)
  | none =>
    match req.docId with
    | some id => some id
    | none =>
      match req.query with
      | some q => if q = [] then none else some (cr.hex (cr.sha256 q))
      | none => none

/-- Operation names contain no NUL. -/
def NameOk (req : Request) : Prop := ∀ n, req.opName = some n → ∀ b ∈ n, b ≠ 0

/-- Sizes fit in the machine types, schema hashes are 32 bytes. -/
structure Wf (cr : Crypto) (ev : Event) : Prop where
  schema : ev.schemaHash.length = 32
  version : ∀ x, ev.req.ext = some x → x.version < 256 ^ 4
  client : ∀ c, ev.ctx.clientName = some c → c.length < 256 ^ 8
  id : ∀ i, ev.req.docId = some i → i.length < 256 ^ 8
  hex : ∀ b, (cr.hex b).length < 256 ^ 8

/-- Names that the cache treats alike: absent and empty. -/
def SameName (a b : Option Bytes) : Prop := a.getD [] = b.getD []

/-- Two keys stand for the same document and (up to `SameName`) operation. -/
def SameDocument : DocumentKey → DocumentKey → Prop
  | .apq n e, .apq n' e' => SameName n n' ∧ e = e'
  | .trusted n c d, .trusted n' c' d' => SameName n n' ∧ c = c' ∧ d = d'
  | .text n d, .text n' d' => SameName n n' ∧ d = d'
  | _, _ => False

/-! ## Keys -/

def DocumentKey.NameOk (k : DocumentKey) : Prop := ∀ n, k.opName = some n → ∀ b ∈ n, b ≠ 0

def DocumentKey.Wf : DocumentKey → Prop
  | .apq _ e => e.version < 256 ^ 4
  | .trusted _ c d => c.length < 256 ^ 8 ∧ d.length < 256 ^ 8
  | .text _ _ => True

theorem getD_ok {n : Option Bytes} (h : ∀ m, n = some m → ∀ b ∈ m, b ≠ 0) : ∀ b ∈ n.getD [], b ≠ 0 := by
  cases n with
  | none => simp
  | some m => exact h m rfl

/-- The kind of document is part of the key, whatever the names are. -/
theorem keyBytes_kind {s s' : Bytes} (hs : s.length = s'.length) {k k' : DocumentKey}
    (h : keyBytes s k = keyBytes s' k') :
    s = s' ∧ match k, k' with
      | .apq _ _, .apq _ _ => True
      | .trusted _ _ _, .trusted _ _ _ => True
      | .text _ _, .text _ _ => True
      | _, _ => False := by
  cases k <;> cases k' <;> simp only [keyBytes] at h <;> obtain ⟨rfl, h⟩ := List.append_inj h hs <;>
    simp at h ⊢

theorem keyBytes_inj {s s' : Bytes} (hs : s.length = s'.length) {k k' : DocumentKey} (hn : k.NameOk)
    (hn' : k'.NameOk) (hw : k.Wf) (hw' : k'.Wf) (h : keyBytes s k = keyBytes s' k') :
    s = s' ∧ SameDocument k k' := by
  obtain ⟨e, hk⟩ := keyBytes_kind hs h
  subst e
  refine ⟨rfl, ?_⟩
  cases k <;> cases k' <;> simp only at hk
  · simp only [keyBytes] at h
    have h1 := (List.append_right_inj _).1 ((List.append_right_inj _).1 h)
    simp only [List.cons.injEq, true_and] at h1
    obtain ⟨a, b⟩ := zero_split (getD_ok hn) (getD_ok hn') h1
    obtain ⟨c, d⟩ := le_append_inj hw hw' b
    rename_i e1 _ e2
    cases e1
    cases e2
    simp only at c d
    exact ⟨a, by rw [c, d]⟩
  · simp only [keyBytes] at h
    have h1 := (List.append_right_inj _).1 ((List.append_right_inj _).1 h)
    simp only [List.cons.injEq, true_and] at h1
    obtain ⟨a, b⟩ := zero_split (getD_ok hn) (getD_ok hn') h1
    obtain ⟨c, d⟩ := le_append_inj hw.1 hw'.1 b
    obtain ⟨c, d⟩ := List.append_inj d c
    obtain ⟨_, d⟩ := le_append_inj hw.2 hw'.2 d
    exact ⟨a, c, d⟩
  · simp only [keyBytes] at h
    have h1 := (List.append_right_inj _).1 ((List.append_right_inj _).1 h)
    simp only [List.cons.injEq, true_and] at h1
    exact zero_split (getD_ok hn) (getD_ok hn') h1

/-! ## Extraction -/

theorem nonEmpty_some {q : Option Bytes} {d : Bytes} (h : nonEmpty q = some d) : q = some d ∧ d ≠ [] := by
  cases q with
  | none => simp [nonEmpty] at h
  | some q =>
    cases q with
    | nil => simp [nonEmpty, Option.filter] at h
    | cons a q => simp [nonEmpty, Option.filter] at h; subst h; simp

/-- What extraction returns, by kind of key. -/
theorem extract_spec {cr : Crypto} {c : Ctx} {req : Request} {k : DocumentKey} {src : Source}
    (h : extract cr c req = .ok (k, src)) :
    k.opName = req.opName ∧
    ((∃ d, k = .text req.opName d ∧ src = .document d ∧ req.query = some d) ∨
     (∃ client id, k = .trusted req.opName client id ∧ src = .trusted client id ∧ c.clientName = some client ∧
        (req.docId = some id ∨ ∃ b, id = cr.hex b)) ∨
     (∃ ext, k = .apq req.opName ext ∧ src = .apq req.query ext ∧ req.ext = some ext)) := by
  have hinline : ∀ {k src}, inlineDocument req = .ok (k, src) → k.opName = req.opName ∧
      ∃ d, k = .text req.opName d ∧ src = .document d ∧ req.query = some d := by
    intro k src h
    unfold inlineDocument at h
    split at h
    · rename_i q hq
      simp only [Except.ok.injEq, Prod.mk.injEq] at h
      obtain ⟨rfl, rfl⟩ := h
      exact ⟨rfl, q, rfl, rfl, hq⟩
    · simp at h
  have hperm : ∀ {client id k src}, permissive req.opName req.query client id = (k, src) →
      k.opName = req.opName ∧ ((∃ d, k = .text req.opName d ∧ src = .document d ∧ req.query = some d) ∨
        (k = .trusted req.opName client id ∧ src = .trusted client id)) := by
    intro client id k src h
    unfold permissive at h
    split at h
    · rename_i q hq
      simp only [Prod.mk.injEq] at h
      obtain ⟨rfl, rfl⟩ := h
      exact ⟨rfl, Or.inl ⟨q, rfl, rfl, (nonEmpty_some hq).1⟩⟩
    · simp only [Prod.mk.injEq] at h
      obtain ⟨rfl, rfl⟩ := h
      exact ⟨rfl, Or.inr ⟨rfl, rfl⟩⟩
  unfold extract at h
  split at h
  · split at h
    · obtain ⟨a, b⟩ := hinline h
      exact ⟨a, Or.inl b⟩
    · split at h
      · split at h
        · simp at h
        · rename_i hc
          simp only [Except.ok.injEq, Prod.mk.injEq] at h
          obtain ⟨rfl, rfl⟩ := h
          exact ⟨rfl, Or.inr (Or.inl ⟨_, _, rfl, rfl, hc, Or.inr ⟨_, rfl⟩⟩)⟩
      · simp at h
  · split at h
    · simp at h
    · rename_i hc
      simp only [Except.ok.injEq, Prod.mk.injEq] at h
      obtain ⟨rfl, rfl⟩ := h
      exact ⟨rfl, Or.inr (Or.inl ⟨_, _, rfl, rfl, hc, Or.inr ⟨_, rfl⟩⟩)⟩
  · rename_i hid
    split at h
    · simp at h
    · rename_i hc
      simp only [Except.ok.injEq, Prod.mk.injEq] at h
      obtain ⟨rfl, rfl⟩ := h
      exact ⟨rfl, Or.inr (Or.inl ⟨_, _, rfl, rfl, hc, Or.inl hid⟩)⟩
  · rename_i hid
    split at h
    · simp at h
    · rename_i hc
      simp only [Except.ok.injEq] at h
      obtain ⟨a, b | ⟨rfl, rfl⟩⟩ := hperm h
      · exact ⟨a, Or.inl b⟩
      · exact ⟨rfl, Or.inr (Or.inl ⟨_, _, rfl, rfl, hc, Or.inl hid⟩)⟩
  · rename_i hext _
    split at h
    · split at h
      · simp at h
      · rename_i hc
        simp only [Except.ok.injEq] at h
        obtain ⟨a, b | ⟨rfl, rfl⟩⟩ := hperm h
        · exact ⟨a, Or.inl b⟩
        · exact ⟨rfl, Or.inr (Or.inl ⟨_, _, rfl, rfl, hc, Or.inr ⟨_, rfl⟩⟩)⟩
    · simp only [Except.ok.injEq, Prod.mk.injEq] at h
      obtain ⟨rfl, rfl⟩ := h
      exact ⟨rfl, Or.inr (Or.inr ⟨_, rfl, rfl, hext⟩)⟩
  · rename_i hext
    split at h
    · simp at h
    · simp only [Except.ok.injEq, Prod.mk.injEq] at h
      obtain ⟨rfl, rfl⟩ := h
      exact ⟨rfl, Or.inr (Or.inr ⟨_, rfl, rfl, hext⟩)⟩
  · obtain ⟨a, b⟩ := hinline h
    exact ⟨a, Or.inl b⟩
  · obtain ⟨a, b⟩ := hinline h
    exact ⟨a, Or.inl b⟩

theorem extract_wf {cr : Crypto} {ev : Event} (hw : Wf cr ev) {k src}
    (h : extract cr ev.ctx ev.req = .ok (k, src)) : k.Wf := by
  obtain ⟨-, ⟨d, rfl, -⟩ | ⟨c, id, rfl, -, hc, hid⟩ | ⟨x, rfl, -, hx⟩⟩ := extract_spec h
  · trivial
  · refine ⟨hw.client c hc, ?_⟩
    rcases hid with hid | ⟨b, rfl⟩
    · exact hw.id id hid
    · exact hw.hex b
  · exact hw.version x hx

theorem extract_name {cr : Crypto} {c : Ctx} {req : Request} (hn : NameOk req) {k src}
    (h : extract cr c req = .ok (k, src)) : k.NameOk := by
  intro n hk
  rw [(extract_spec h).1] at hk
  exact hn n hk

/-- Under enforcement without bypass only trusted keys are produced. -/
theorem extract_enforced {cr : Crypto} {c : Ctx} {req : Request} (hm : c.mode = .enforce)
    (hb : c.bypassed = false) {k src} (h : extract cr c req = .ok (k, src)) :
    ∃ client id, c.clientName = some client ∧ requestedId cr req = some id ∧
      k = .trusted req.opName client id ∧ src = .trusted client id := by
  unfold extract at h
  rw [hm] at h
  split at h
  · rename_i hext hid
    simp only [hb, Bool.false_eq_true, if_false] at h
    split at h
    · rename_i q hq
      split at h
      · simp at h
      · rename_i client hc
        simp only [Except.ok.injEq, Prod.mk.injEq] at h
        obtain ⟨rfl, rfl⟩ := h
        obtain ⟨h1, h2⟩ := nonEmpty_some hq
        exact ⟨client, _, hc, by simp [requestedId, hext, hid, h1, h2], rfl, rfl⟩
    · simp at h
  · rename_i ext _ hext
    split at h
    · simp at h
    · rename_i client hc
      simp only [Except.ok.injEq, Prod.mk.injEq] at h
      obtain ⟨rfl, rfl⟩ := h
      exact ⟨client, _, hc, by simp [requestedId, hext], rfl, rfl⟩
  · rename_i id hext hid
    split at h
    · simp at h
    · rename_i client hc
      simp only [Except.ok.injEq, Prod.mk.injEq] at h
      obtain ⟨rfl, rfl⟩ := h
      exact ⟨client, _, hc, by simp [requestedId, hext, hid], rfl, rfl⟩
  all_goals simp_all

/-! ## Histories -/

/-- Where a prepared operation comes from. -/
def Origin (e : Engine Op) (ev : Event) (en : Entry Op) : Prop :=
  ∃ k src, extract e.crypto ev.ctx ev.req = .ok (k, src) ∧ en.key = keyBytes ev.schemaHash k ∧
    resolve e.crypto ev.store src = .ok en.content ∧ e.parse ev.schemaHash k.opName en.content = some en.op

theorem prepare_entry {e : Engine Op} {entries : List (Entry Op)} {ev : Event} {en : Entry Op}
    (h : (prepare e entries ev).2 = some en) : Origin e ev en := by
  unfold prepare at h
  split at h
  · simp at h
  · rename_i k src hx
    split at h
    · simp at h
    · split at h
      · simp at h
      · rename_i content hr
        split at h
        · simp at h
        · rename_i op hp
          split at h
          · simp at h
          · simp only [Option.some.injEq] at h
            subst h
            exact ⟨k, src, hx, rfl, hr, hp⟩

theorem entries_origin (e : Engine Op) (h : List Event) :
    ∀ en ∈ entriesAfter e h, ∃ ev ∈ h, Origin e ev en := by
  have key : ∀ (h : List Event) (h₀ : List Event) (entries : List (Entry Op)),
      (∀ en ∈ entries, ∃ ev ∈ h₀, Origin e ev en) →
      ∀ en ∈ h.foldl (fun entries ev => entries ++ (prepare e entries ev).2.toList) entries,
        ∃ ev ∈ h₀ ++ h, Origin e ev en := by
    intro h
    induction h with
    | nil => intro h₀ entries hi; simpa using hi
    | cons ev h ih =>
      intro h₀ entries hi
      have := ih (h₀ ++ [ev]) (entries ++ (prepare e entries ev).2.toList) ?_
      · simpa using this
      · intro en hen
        rw [List.mem_append] at hen
        rcases hen with hen | hen
        · obtain ⟨ev', h1, h2⟩ := hi en hen
          exact ⟨ev', by simp [h1], h2⟩
        · simp at hen
          exact ⟨ev, by simp, prepare_entry hen⟩
  simpa [entriesAfter] using key h [] [] (by simp)

theorem check_ok {e : Engine Op} {c : Ctx} {content : Bytes} {op : Op} {p : Prepared Op}
    (h : checkMethod e c content op = .ok p) :
    p = ⟨content, op⟩ ∧ (e.isMutation op = true → c.canMutate = true) := by
  unfold checkMethod at h
  split at h
  · simp at h
  · rename_i hn
    simp at h hn
    exact ⟨h.symm, hn⟩

/-- A successful request executes a freshly resolved document or one from an earlier request with the same
key. -/
theorem result_ok {e : Engine Op} {h : List Event} {ev : Event} {p : Prepared Op} (hr : result e h ev = .ok p) :
    ∃ k src, extract e.crypto ev.ctx ev.req = .ok (k, src) ∧ (e.isMutation p.op = true → ev.ctx.canMutate = true) ∧
      ∃ ev' k' src', (ev' = ev ∨ ev' ∈ h) ∧ extract e.crypto ev'.ctx ev'.req = .ok (k', src') ∧
        keyBytes ev'.schemaHash k' = keyBytes ev.schemaHash k ∧
        resolve e.crypto ev'.store src' = .ok p.content ∧
        e.parse ev'.schemaHash k'.opName p.content = some p.op := by
  unfold result prepare at hr
  split at hr
  · simp at hr
  · rename_i k src hx
    refine ⟨k, src, hx, ?_⟩
    split at hr
    · rename_i entry hl
      simp only at hr
      obtain ⟨rfl, hm⟩ := check_ok hr
      refine ⟨hm, ?_⟩
      unfold lookup at hl
      rw [Option.filter_eq_some_iff] at hl
      obtain ⟨hl, hk⟩ := hl
      have hmem : entry ∈ entriesAfter e h := by
        cases hs : ev.sees with
        | none => rw [hs] at hl; simp at hl
        | some i => rw [hs] at hl; exact List.mem_of_getElem? hl
      obtain ⟨ev', h1, k', src', h2, h3, h4, h5⟩ := entries_origin e h entry hmem
      refine ⟨ev', k', src', Or.inr h1, h2, ?_, h4, h5⟩
      rw [← h3]
      simpa using hk
    · split at hr
      · simp at hr
      · rename_i content hres
        split at hr
        · simp at hr
        · rename_i op hp
          split at hr
          · simp at hr
          · rename_i p' hc
            simp only [Except.ok.injEq] at hr
            subst hr
            obtain ⟨rfl, hm⟩ := check_ok hc
            exact ⟨hm, ev, k, src, Or.inl rfl, hx, rfl, hres, hp⟩

/-! ## C16 -/

/-- Under enforcement and without bypass, for any history of requests: a successful request has a client name and
a document id, and what it executes is what the store returned for exactly these (now, or at an earlier request
that filled the cache). Missing: operation names with NUL bytes (`C16_nul_counterexample`). -/
theorem C16_trusted_partial (e : Engine Op) (h : List Event) (ev : Event) (p : Prepared Op)
    (hw : ∀ ev' ∈ ev :: h, Wf e.crypto ev') (hn : ∀ ev' ∈ ev :: h, NameOk ev'.req)
    (hm : ev.ctx.mode = .enforce) (hb : ev.ctx.bypassed = false) (hr : result e h ev = .ok p) :
    ∃ client id, ev.ctx.clientName = some client ∧ requestedId e.crypto ev.req = some id ∧
      ∃ ev' ∈ ev :: h, ev'.store client id = .ok p.content := by
  obtain ⟨k, src, hx, -, ev', k', src', hev, hx', hkey, hres, -⟩ := result_ok hr
  obtain ⟨client, id, hc, hid, rfl, rfl⟩ := extract_enforced hm hb hx
  have hmem : ev' ∈ ev :: h := by simpa using hev
  obtain ⟨-, hsame⟩ := keyBytes_inj (by rw [(hw ev' hmem).schema, (hw ev (by simp)).schema])
    (extract_name (hn ev' hmem) hx') (extract_name (hn ev (by simp)) hx)
    (extract_wf (hw ev' hmem) hx') (extract_wf (hw ev (by simp)) hx) hkey
  refine ⟨client, id, hc, hid, ev', hmem, ?_⟩
  obtain ⟨-, ⟨d, rfl, -⟩ | ⟨c', id', rfl, rfl, -⟩ | ⟨x, rfl, -⟩⟩ := extract_spec hx'
  · exact hsame.elim
  · obtain ⟨-, rfl, rfl⟩ := hsame
    exact hres
  · exact hsame.elim

/-- Without any assumption on operation names: what is executed was returned by the store for some client and
document id. -/
theorem C16_from_store (e : Engine Op) (h : List Event) (ev : Event) (p : Prepared Op)
    (hs : ∀ ev' ∈ ev :: h, ev'.schemaHash.length = 32)
    (hm : ev.ctx.mode = .enforce) (hb : ev.ctx.bypassed = false) (hr : result e h ev = .ok p) :
    ∃ client id, ∃ ev' ∈ ev :: h, ev'.store client id = .ok p.content := by
  obtain ⟨k, src, hx, -, ev', k', src', hev, hx', hkey, hres, -⟩ := result_ok hr
  obtain ⟨client, id, hc, hid, rfl, rfl⟩ := extract_enforced hm hb hx
  have hmem : ev' ∈ ev :: h := by simpa using hev
  obtain ⟨-, hkind⟩ := keyBytes_kind (by rw [hs ev' hmem, hs ev (by simp)]) hkey
  obtain ⟨-, ⟨d, rfl, -⟩ | ⟨c', id', rfl, rfl, -⟩ | ⟨x, rfl, -⟩⟩ := extract_spec hx'
  · exact hkind.elim
  · exact ⟨c', id', ev', hmem, hres⟩
  · exact hkind.elim

/-- Under enforcement and without bypass, requests without client name or document id are refused. -/
theorem C16_refused (e : Engine Op) (h : List Event) (ev : Event)
    (hm : ev.ctx.mode = .enforce) (hb : ev.ctx.bypassed = false)
    (hreq : ev.ctx.clientName = none ∨ requestedId e.crypto ev.req = none) :
    ∃ err, result e h ev = .error err := by
  cases hr : result e h ev with
  | error err => exact ⟨err, rfl⟩
  | ok p =>
    obtain ⟨k, src, hx, -⟩ := result_ok hr
    obtain ⟨client, id, hc, hid, -⟩ := extract_enforced hm hb hx
    rcases hreq with h | h
    · rw [hc] at h; simp at h
    · rw [hid] at h; simp at h

/-- A persisted query (when not handled as a trusted document) executes a text whose hash is the one of the
request, and whose protocol version is 1. -/
theorem C16_apq_hash (e : Engine Op) (h : List Event) (ev : Event) (p : Prepared Op) (ext : Ext)
    (hw : ∀ ev' ∈ ev :: h, Wf e.crypto ev') (hn : ∀ ev' ∈ ev :: h, NameOk ev'.req)
    (hext : ev.req.ext = some ext)
    (hmode : ev.ctx.mode = .ignore ∨ (ev.ctx.mode = .allow ∧ ev.req.docId = none ∧ ev.ctx.apqEnabled = true))
    (hr : result e h ev = .ok p) :
    e.crypto.sha256 p.content = ext.hash ∧ ext.version = 1 := by
  obtain ⟨k, src, hx, -, ev', k', src', hev, hx', hkey, hres, -⟩ := result_ok hr
  have hmem : ev' ∈ ev :: h := by simpa using hev
  obtain ⟨-, hsame⟩ := keyBytes_inj (by rw [(hw ev' hmem).schema, (hw ev (by simp)).schema])
    (extract_name (hn ev' hmem) hx') (extract_name (hn ev (by simp)) hx)
    (extract_wf (hw ev' hmem) hx') (extract_wf (hw ev (by simp)) hx) hkey
  have hk : k = .apq ev.req.opName ext := by
    unfold extract at hx
    rw [hext] at hx
    rcases hmode with hmode | ⟨hmode, hd, ha⟩
    · rw [hmode] at hx
      simp only at hx
      split at hx
      · simp at hx
      · simp only [Except.ok.injEq, Prod.mk.injEq] at hx; exact hx.1.symm
    · rw [hmode, hd] at hx
      simp only [ha, Bool.not_true, Bool.false_eq_true, if_false, Except.ok.injEq, Prod.mk.injEq] at hx
      exact hx.1.symm
  subst hk
  obtain ⟨-, ⟨d, rfl, -⟩ | ⟨c', id', rfl, -⟩ | ⟨x, rfl, rfl, -⟩⟩ := extract_spec hx'
  · exact hsame.elim
  · exact hsame.elim
  · obtain ⟨-, rfl⟩ := hsame
    simp only [resolve, handleApq] at hres
    split at hres
    · simp at hres
    · rename_i hv
      split at hres
      · split at hres
        · simp at hres
        · rename_i hh
          simp only [Except.ok.injEq] at hres
          subst hres
          exact ⟨by simpa using hh, by simpa using hv⟩
      · simp at hres

/-! ## C17 -/

/-- For any history: a request executes an operation that was parsed with the same schema from the document the
same key stands for, under the same operation name (absent and empty names are alike to the cache).
Missing: names with NUL bytes and the distinction between no name and an empty name
(`C17_empty_name_counterexample`, `C17_nul_counterexample`). -/
theorem C17_same_operation_partial (e : Engine Op) (h : List Event) (ev : Event) (p : Prepared Op)
    (hw : ∀ ev' ∈ ev :: h, Wf e.crypto ev') (hn : ∀ ev' ∈ ev :: h, NameOk ev'.req)
    (hr : result e h ev = .ok p) :
    ∃ k src ev' k' src', extract e.crypto ev.ctx ev.req = .ok (k, src) ∧ ev' ∈ ev :: h ∧
      extract e.crypto ev'.ctx ev'.req = .ok (k', src') ∧ ev'.schemaHash = ev.schemaHash ∧ SameDocument k' k ∧
      e.parse ev.schemaHash k'.opName p.content = some p.op := by
  obtain ⟨k, src, hx, -, ev', k', src', hev, hx', hkey, -, hp⟩ := result_ok hr
  have hmem : ev' ∈ ev :: h := by simpa using hev
  obtain ⟨hs, hsame⟩ := keyBytes_inj (by rw [(hw ev' hmem).schema, (hw ev (by simp)).schema])
    (extract_name (hn ev' hmem) hx') (extract_name (hn ev (by simp)) hx)
    (extract_wf (hw ev' hmem) hx') (extract_wf (hw ev (by simp)) hx) hkey
  exact ⟨k, src, ev', k', src', hx, hmem, hx', hs, hsame, hs ▸ hp⟩

/-- For a request with inline text and a non-empty name without NUL (or all requests of the history named), the
cache is invisible: the operation executed is the one its own text and name parse to. -/
theorem C17_text_transparent (e : Engine Op) (h : List Event) (ev : Event) (p : Prepared Op) (d n : Bytes)
    (hw : ∀ ev' ∈ ev :: h, Wf e.crypto ev') (hn : ∀ ev' ∈ ev :: h, NameOk ev'.req)
    (hname : ev.req.opName = some n) (hne : n ≠ [])
    (hx : extract e.crypto ev.ctx ev.req = .ok (.text (some n) d, .document d))
    (hr : result e h ev = .ok p) :
    p.content = d ∧ e.parse ev.schemaHash (some n) d = some p.op := by
  obtain ⟨k, src, hx0, -, ev', k', src', hev, hx', hkey, hres, hp⟩ := result_ok hr
  rw [hx] at hx0
  simp only [Except.ok.injEq, Prod.mk.injEq] at hx0
  obtain ⟨rfl, rfl⟩ := hx0
  have hmem : ev' ∈ ev :: h := by simpa using hev
  obtain ⟨hs, hsame⟩ := keyBytes_inj (by rw [(hw ev' hmem).schema, (hw ev (by simp)).schema])
    (extract_name (hn ev' hmem) hx') (extract_name (hn ev (by simp)) hx)
    (extract_wf (hw ev' hmem) hx') (extract_wf (hw ev (by simp)) hx) hkey
  obtain ⟨-, ⟨d', rfl, rfl, -⟩ | ⟨c', id', rfl, -⟩ | ⟨x, rfl, -⟩⟩ := extract_spec hx'
  · obtain ⟨hname', rfl⟩ := hsame
    simp only [resolve, Except.ok.injEq] at hres
    have : ev'.req.opName = some n := by
      unfold SameName at hname'
      cases ho : ev'.req.opName with
      | none => rw [ho] at hname'; simp at hname'; exact absurd hname' (by simpa using hne)
      | some m => rw [ho] at hname'; simp at hname'; rw [hname']
    rw [← hres] at hp
    simp only [DocumentKey.opName, this] at hp
    exact ⟨hres.symm, hs ▸ hp⟩
  · exact hsame.elim
  · exact hsame.elim

def mkEvent (opName query : Option Bytes) (sees : Option Nat) : Event :=
  ⟨List.replicate 32 7, ⟨.ignore, false, none, fun _ => none, none, true⟩, ⟨query, none, none, opName⟩,
    fun _ _ => .error .storeError, sees⟩

/-- An engine that accepts every document, only under the names that occur in it: here, the operation is the
name it was parsed with. -/
def nameEngine : Engine (Option Bytes) := ⟨⟨id, id⟩, fun _ n _ => some n, fun _ => false⟩

/-- A request with an empty operation name executes the operation cached for a request without a name. -/
theorem C17_empty_name_counterexample :
    ∃ h ev p, result nameEngine h ev = .ok p ∧
      nameEngine.parse ev.schemaHash ev.req.opName p.content ≠ some p.op := by
  refine ⟨[mkEvent none (some [123]) none], mkEvent (some []) (some [123]) (some 0), ⟨[123], none⟩, rfl,
    by simp [nameEngine, mkEvent]⟩

/-- With NUL in the operation name, two requests with different texts share an entry. -/
theorem C17_nul_counterexample :
    ∃ h ev p, result nameEngine h ev = .ok p ∧ ev.req.query ≠ some p.content := by
  refine ⟨[mkEvent (some [65]) (some [66, 0, 67]) none], mkEvent (some [65, 0, 66]) (some [67]) (some 0),
    ⟨[66, 0, 67], some [65]⟩, rfl, by simp [mkEvent]⟩

/-! ## C16 and NUL -/

def trustedEvent (opName : Option Bytes) (client id : Bytes) (store : Store) (sees : Option Nat) : Event :=
  ⟨List.replicate 32 7, ⟨.enforce, false, none, fun _ => none, some client, true⟩, ⟨none, none, some id, opName⟩,
    store, sees⟩

/-- A document id with NUL bytes, made to look like the end of an operation name and another pair. -/
def oddId : Bytes := [0] ++ le 8 1 ++ [98] ++ le 8 1 ++ [1]

/-- With NUL in the operation name, a request of client `b` for document `[1]` is answered with a document of
client `a` that the store does not have for `b`. -/
theorem C16_nul_counterexample :
    ∃ (store : Store) (h : List Event) (ev : Event) (p : Prepared (Option Bytes)),
      result nameEngine h ev = .ok p ∧ ev.ctx.mode = .enforce ∧ ev.ctx.clientName = some [98] ∧
      requestedId nameEngine.crypto ev.req = some [1] ∧ (∀ ev' ∈ ev :: h, ev'.store [98] [1] = .error .notFound) := by
  refine ⟨fun c _ => if c = [97] then .ok [123] else .error .notFound,
    [trustedEvent none [97] oddId (fun c _ => if c = [97] then .ok [123] else .error .notFound) none],
    trustedEvent (some ([0] ++ le 8 1 ++ [97] ++ le 8 oddId.length)) [98] [1]
      (fun c _ => if c = [97] then .ok [123] else .error .notFound) (some 0), ⟨[123], none⟩, rfl, rfl, rfl, rfl, ?_⟩
  intro ev' hev
  simp at hev
  rcases hev with rfl | rfl <;> rfl

/-! ## C48 -/

/-- For any history and cache contents: a request over GET never executes a mutation. -/
theorem C48_get_never_mutates (e : Engine Op) (h : List Event) (ev : Event) (p : Prepared Op) (mcp mcpMutations : Bool)
    (hget : ev.ctx.canMutate = canMutate true mcp mcpMutations) (hr : result e h ev = .ok p) :
    e.isMutation p.op = false := by
  obtain ⟨k, src, hx, hm, -⟩ := result_ok hr
  cases hmut : e.isMutation p.op with
  | false => rfl
  | true =>
    have := hm hmut
    rw [hget] at this
    simp [canMutate] at this

/-- The same for MCP requests unless mutations are enabled there. -/
theorem C48_mcp (e : Engine Op) (h : List Event) (ev : Event) (p : Prepared Op) (isGet : Bool)
    (hctx : ev.ctx.canMutate = canMutate isGet true false) (hr : result e h ev = .ok p) :
    e.isMutation p.op = false := by
  obtain ⟨k, src, hx, hm, -⟩ := result_ok hr
  cases hmut : e.isMutation p.op with
  | false => rfl
  | true =>
    have := hm hmut
    rw [hctx] at this
    simp [canMutate] at this

/-! ## Non-vacuity -/

/-- A trusted document executed from the store, then from the cache while the store is down. -/
def trustedHistory : List Event := [trustedEvent (some [81]) [97] [1] (fun _ _ => .ok [123]) none]

example : result nameEngine trustedHistory (trustedEvent (some [81]) [97] [1] (fun _ _ => .error .storeError) (some 0)) =
    .ok ⟨[123], some [81]⟩ := rfl
example : result nameEngine trustedHistory (trustedEvent (some [81]) [97] [2] (fun _ _ => .error .notFound) (some 0)) =
    .error .notFound := rfl
example : Wf ⟨id, fun b => b.take 64⟩ (trustedEvent (some [81]) [97] [1] (fun _ _ => .ok [123]) none) :=
  ⟨rfl, by simp [trustedEvent], by simp [trustedEvent], by simp [trustedEvent],
    fun b => by simp; omega⟩
example : ∀ ev ∈ trustedHistory, NameOk ev.req := by
  intro ev hev n hn
  simp [trustedHistory] at hev
  subst hev
  simp [trustedEvent] at hn
  subst hn
  simp
/-- A mutation is refused over GET, also from the cache. -/
example :
    let e : Engine Unit := ⟨⟨id, id⟩, fun _ _ _ => some (), fun _ => true⟩
    let post := mkEvent none (some [123]) none
    let get := { mkEvent none (some [123]) (some 0) with
      ctx := ⟨.ignore, false, none, fun _ => none, none, canMutate true false false⟩ }
    result e [] post = .ok ⟨[123], ()⟩ ∧ result e [post] get = .error .mutationNotAllowed := ⟨rfl, rfl⟩

end Verif.Documents
