import Verif.Batches.Spec

namespace Verif.Batches

variable {σ Q O P : Type}

theorem default_told (cfg : Settings) (ctx : Ctx) :
    (defaultExt cfg ctx : Option (Ext P)) = told ctx.shows cfg.includeTraceId cfg.includePlan ctx.traceId none := by
  unfold defaultExt told
  cases ctx.shows <;> cases cfg.includeTraceId <;> cases cfg.includePlan <;> rfl

theorem prepared_told (cfg : Settings) (ctx : Ctx) (plan : P) :
    preparedExt cfg ctx plan = told ctx.shows cfg.includeTraceId cfg.includePlan ctx.traceId (some plan) := by
  unfold preparedExt defaultExt told
  cases ctx.shows <;> cases cfg.includeTraceId <;> cases cfg.includePlan <;> rfl

theorem withExt_none {r : Resp P} (h : r.ext = none) (e : Option (Ext P)) : r.withExt e = ⟨r.kind, r.body, e, r.known⟩ := by
  unfold Resp.withExt
  rw [h]
  cases e <;> rfl

theorem single_answer {w : World σ Q O P} (hw : w.Plain) (cfg : Settings) (ctx : Ctx) (q : Q) (s : σ) :
    Answer w cfg ctx q s (executeSingle w cfg ctx q s).val (executeSingle w cfg ctx q s).state (executeSingle w cfg ctx q s).time := by
  unfold executeSingle
  have hp := hw.1 q s
  cases hs : w.prepare q s with
  | mk t v s' c =>
    rw [hs] at hp
    cases v with
    | error r =>
      simp only
      rw [withExt_none (hp r rfl), default_told]
      exact .unprepared hs
    | ok o =>
      simp only
      cases ho : o.subscription with
      | true =>
        simp only [if_true]
        rw [withExt_none rfl, prepared_told]
        exact .subscription hs ho
      | false =>
        simp only [Bool.false_eq_true, if_false]
        have hr := hw.2 o.op s'
        cases he : w.run o.op s' with
        | mk t' r s'' c' =>
          rw [he] at hr
          simp only
          rw [withExt_none (r := { r with known := true }) hr, prepared_told]
          exact Answer.executed (r := r) hs ho he

theorem answer_unique {w : World σ Q O P} {cfg : Settings} {ctx : Ctx} {q : Q} {s : σ} {r r' s' s'' t t'}
    (h : Answer w cfg ctx q s r s' t) (h' : Answer w cfg ctx q s r' s'' t') : r = r' ∧ s' = s'' ∧ t = t' := by
  cases h with
  | unprepared h =>
    cases h' with
    | unprepared g => rw [h] at g; cases g; exact ⟨rfl, rfl, rfl⟩
    | subscription g _ => rw [h] at g; cases g
    | executed g _ _ => rw [h] at g; cases g
  | subscription h ho =>
    cases h' with
    | unprepared g => rw [h] at g; cases g
    | subscription g _ => rw [h] at g; cases g; exact ⟨rfl, rfl, rfl⟩
    | executed g go _ => rw [h] at g; cases g; rw [ho] at go; cases go
  | executed h ho hr =>
    cases h' with
    | unprepared g => rw [h] at g; cases g
    | subscription g go => rw [h] at g; cases g; rw [ho] at go; cases go
    | executed g go gr => rw [h] at g; cases g; rw [hr] at gr; cases gr; exact ⟨rfl, rfl, rfl⟩

theorem answers_unique {w : World σ Q O P} {cfg : Settings} {ctx : Ctx} {qs : List Q} {s : σ} {rs rs' s' s'' t t'}
    (h : Answers w cfg ctx qs s rs s' t) (h' : Answers w cfg ctx qs s rs' s'' t') : rs = rs' ∧ s' = s'' ∧ t = t' := by
  induction h generalizing rs' s'' t' with
  | nil => cases h'; exact ⟨rfl, rfl, rfl⟩
  | cons h _ ih =>
    cases h' with
    | cons g gs =>
      obtain ⟨rfl, rfl, rfl⟩ := answer_unique h g
      obtain ⟨rfl, rfl, rfl⟩ := ih gs
      exact ⟨rfl, rfl, rfl⟩

theorem all_answers {w : World σ Q O P} (hw : w.Plain) (cfg : Settings) (ctx : Ctx) : ∀ (qs : List Q) (s : σ),
    Answers w cfg ctx qs s (executeAll w cfg ctx qs s).val (executeAll w cfg ctx qs s).state (executeAll w cfg ctx qs s).time
  | [], _ => .nil
  | q :: qs, s => .cons (single_answer hw cfg ctx q s) (all_answers hw cfg ctx qs _)

theorem inTime_iff (T : Nat) (tie : Bool) (t : Nat) : (decide (t < T) || (t == T && tie)) = true ↔ InTime T tie t := by
  unfold InTime
  simp

theorem withTimeout_in {α : Type} {T : Nat} {tie : Bool} {st : Step σ α} (h : InTime T tie st.time) :
    withTimeout T tie st = (some st.val, st.time, st.state) := by
  unfold withTimeout
  rw [if_pos ((inTime_iff T tie st.time).2 h)]

theorem withTimeout_out {α : Type} {T : Nat} {tie : Bool} {st : Step σ α} (h : ¬ InTime T tie st.time) :
    withTimeout T tie st = (none, T, st.cut T) := by
  unfold withTimeout
  rw [if_neg (fun hc => h ((inTime_iff T tie st.time).1 hc))]

theorem mk_in {α : Type} {T : Nat} {tie : Bool} {t : Nat} {v : α} {s : σ} {c : Nat → σ} (h : InTime T tie t) :
    withTimeout T tie ⟨t, v, s, c⟩ = (some v, t, s) := withTimeout_in (st := ⟨t, v, s, c⟩) h

theorem mk_out {α : Type} {T : Nat} {tie : Bool} {t : Nat} {v : α} {s : σ} {c : Nat → σ} (h : ¬ InTime T tie t) :
    withTimeout T tie ⟨t, v, s, c⟩ = (none, T, c T) := withTimeout_out (st := ⟨t, v, s, c⟩) h

theorem withTimeout_le {α : Type} (T : Nat) (tie : Bool) (st : Step σ α) : (withTimeout T tie st).2.1 ≤ T := by
  by_cases h : InTime T tie st.time
  · rw [withTimeout_in h]
    rcases h with h | h
    · exact Nat.le_of_lt h
    · exact Nat.le_of_eq h.1
  · rw [withTimeout_out h]; exact Nat.le_refl T

theorem InTime.mono {T : Nat} {tie : Bool} {t t' : Nat} (h : InTime T tie t) (hle : t' ≤ t) : InTime T tie t' := by
  rcases h with h | ⟨h, ht⟩
  · exact .inl (Nat.lt_of_le_of_lt hle h)
  · rcases Nat.lt_or_ge t' T with h' | h'
    · exact .inl h'
    · exact .inr ⟨by omega, ht⟩

theorem over_iff (cfg : Settings) (n : Nat) : overLimit cfg.limit n = true ↔ ∃ l, cfg.limit = some l ∧ l < n := by
  unfold overLimit
  cases cfg.limit <;> simp

theorem batch_eq {w : World σ Q O P} {cfg : Settings} {hive : Bool} {ctx : Ctx} {f : Nat} (hf : ctx.format = .complete f)
    {qs : List Q} (ha : Allowed cfg qs.length) (s : σ) :
    executeRequests w cfg hive ctx s (.batch qs) =
      match withTimeout cfg.timeout w.tie (executeAll w cfg ctx qs s) with
        | (none, t, s) => { http := errorWith cfg ctx timeoutMessage, time := t, state := s }
        | (some rs, t, s) => { http := .batch f rs, time := t, state := s } := by
  have ho : overLimit cfg.limit qs.length = false := by
    cases h : overLimit cfg.limit qs.length
    · rfl
    · obtain ⟨l, hl, hlt⟩ := (over_iff cfg _).1 h
      have := ha.2 l hl
      omega
  unfold executeRequests
  simp only [hf, ha.1, ho, Bool.not_true, Bool.false_eq_true, if_false]
  rfl

theorem cut_all {w : World σ Q O P} (hw : w.Plain) (cfg : Settings) (ctx : Ctx) : ∀ (qs : List Q) (s : σ) (d : Nat),
    d < (executeAll w cfg ctx qs s).time →
    ∃ (done : List Q) (q : Q) (rest : List Q) (rs : List (Resp P)) (s₁ : σ) (t₁ : Nat), qs = done ++ q :: rest ∧
      Answers w cfg ctx done s rs s₁ t₁ ∧ t₁ ≤ d ∧ d - t₁ < (executeSingle w cfg ctx q s₁).time ∧
      (executeAll w cfg ctx qs s).cut d = (executeSingle w cfg ctx q s₁).cut (d - t₁)
  | [], s, d, h => absurd h (Nat.not_lt_zero d)
  | q :: qs, s, d, h => by
    simp only [executeAll] at h ⊢
    by_cases hd : d < (executeSingle w cfg ctx q s).time
    · rw [if_pos hd]
      exact ⟨[], q, qs, [], s, 0, rfl, .nil, Nat.zero_le d, hd, rfl⟩
    · rw [if_neg hd]
      obtain ⟨done, q', rest, rs, s₁, t₁, hq, han, hle, hlt, hc⟩ :=
        cut_all hw cfg ctx qs (executeSingle w cfg ctx q s).state (d - (executeSingle w cfg ctx q s).time) (by omega)
      refine ⟨q :: done, q', rest, _ :: rs, s₁, (executeSingle w cfg ctx q s).time + t₁, by rw [hq]; rfl,
        .cons (single_answer hw cfg ctx q s) han, ?_, ?_, ?_⟩
      · exact Nat.add_le_of_le_sub' (Nat.le_of_not_lt hd) hle
      · rw [← Nat.sub_sub]; exact hlt
      · rw [← Nat.sub_sub]; exact hc

theorem cut_end {w : World σ Q O P} (cfg : Settings) (ctx : Ctx) : ∀ (qs : List Q) (s : σ),
    (executeAll w cfg ctx qs s).cut (executeAll w cfg ctx qs s).time = (executeAll w cfg ctx qs s).state
  | [], _ => rfl
  | q :: qs, s => by
    simp only [executeAll]
    rw [if_neg (by omega), Nat.add_sub_cancel_left]
    exact cut_end cfg ctx qs _

theorem dropped {w : World σ Q O P} (cfg : Settings) (ctx : Ctx) (q : Q) (s : σ) (d : Nat)
    (h : d < (executeSingle w cfg ctx q s).time) : Dropped w q s d ((executeSingle w cfg ctx q s).cut d) := by
  unfold executeSingle at h ⊢
  cases hs : w.prepare q s with
  | mk t v s' c =>
    simp only [hs] at h ⊢
    cases v with
    | error r => exact .preparing hs h
    | ok o =>
      simp only at h ⊢
      cases ho : o.subscription with
      | true =>
        simp only [ho, if_true] at h ⊢
        exact .preparing hs h
      | false =>
        simp only [ho, Bool.false_eq_true, if_false] at h ⊢
        cases hr : w.run o.op s' with
        | mk t' r s'' c' =>
          simp only [hr] at h ⊢
          by_cases hd : d < t
          · rw [if_pos hd]; exact .preparing hs hd
          · rw [if_neg hd]; exact .executing hs ho hr (Nat.le_of_not_lt hd) h

theorem isToken_iff (c : Char) : isTokenChar c = true ↔ c.isAlphanum = true ∨ c ∈ "!#$%&'*+-.^_`|~".toList := by
  unfold isTokenChar
  rw [Bool.or_eq_true_iff, decide_eq_true_iff]
  rfl

theorem name_iff (s : Str) : IsName s ↔ headerName s = some (s.map Char.toLower) := by
  unfold IsName headerName
  constructor
  · rintro ⟨h, hc⟩
    rw [if_pos ⟨h, List.all_eq_true.2 (fun c hm => (isToken_iff c).2 (hc c hm))⟩]
  · intro h
    split at h
    · rename_i hc
      exact ⟨hc.1, fun c hm => (isToken_iff c).1 (List.all_eq_true.1 hc.2 c hm)⟩
    · cases h

theorem name_none (s : Str) : ¬ IsName s ↔ headerName s = none := by
  rw [name_iff]
  unfold headerName
  split <;> simp

theorem tab_iff (c : Char) : c.toNat = 9 ↔ c = '\t' := by
  constructor
  · intro h
    apply Char.ext
    apply UInt32.toNat_inj.1
    exact h
  · rintro rfl; rfl

theorem value_iff (s : Str) : IsValue s ↔ headerValue s = some s := by
  unfold IsValue headerValue
  constructor
  · intro hc
    rw [if_pos]
    refine List.all_eq_true.2 ?_
    intro c hm
    rcases hc c hm with h | h
    · simp [h.1, Nat.lt_succ_of_le h.2]
    · simp [(tab_iff c).2 h]
  · intro h
    split at h
    · rename_i hc
      intro c hm
      have := List.all_eq_true.1 hc c hm
      rw [Bool.or_eq_true_iff, Bool.and_eq_true, decide_eq_true_iff, decide_eq_true_iff, beq_iff_eq, tab_iff] at this
      rcases this with h | h
      · exact .inl ⟨h.1, Nat.le_of_lt_succ h.2⟩
      · exact .inr h
    · cases h

theorem value_none (s : Str) : ¬ IsValue s ↔ headerValue s = none := by
  rw [value_iff]
  unfold headerValue
  split <;> simp

/-- What a rule becomes. -/
def lowered : RuleConfig → Rule
  | .deny => .deny
  | .header n v => .header (n.map Char.toLower) v

theorem ruleOf_some {c : RuleConfig} (h : Sensible c) : ruleOf c = some (lowered c) := by
  cases c with
  | deny => rfl
  | header n v =>
    have hn := (name_iff n).1 h.1
    cases v with
    | none => simp only [ruleOf, hn, lowered]
    | some v =>
      have hv := (value_iff v).1 (h.2 v rfl)
      simp only [ruleOf, hn, hv, lowered]

theorem ruleOf_none {c : RuleConfig} (h : ¬ Sensible c) : ruleOf c = none := by
  cases c with
  | deny => exact absurd trivial h
  | header n v =>
    by_cases hn : IsName n
    · cases v with
      | none => exact absurd ⟨hn, fun x hx => by cases hx⟩ h
      | some v =>
        have : ¬ IsValue v := fun hv => h ⟨hn, fun x hx => by cases hx; exact hv⟩
        have hv := (value_none v).1 this
        simp only [ruleOf, (name_iff n).1 hn, hv]
    · have hn := (name_none n).1 hn
      unfold ruleOf
      cases v <;> simp only [hn]

theorem rules_iff : ∀ cs : List RuleConfig,
    ((∀ c ∈ cs, Sensible c) → rulesOf cs = some (cs.map lowered)) ∧ ((∃ c ∈ cs, ¬ Sensible c) → rulesOf cs = none)
  | [] => ⟨fun _ => rfl, fun ⟨_, h, _⟩ => nomatch h⟩
  | c :: cs => by
    obtain ⟨ih1, ih2⟩ := rules_iff cs
    constructor
    · intro h
      simp only [rulesOf, ruleOf_some (h c (List.mem_cons_self)), ih1 (fun c hc => h c (List.mem_cons_of_mem _ hc)), List.map_cons]
    · rintro ⟨c', hm, hc'⟩
      rcases List.mem_cons.1 hm with rfl | hm
      · simp only [rulesOf, ruleOf_none hc']
      · have := ih2 ⟨c', hm, hc'⟩
        cases hr : ruleOf c <;> simp only [rulesOf, hr, this]

theorem get_iff (hs : List (Str × Str)) (n x : Str) :
    getHeader hs n = some x ↔ ∃ pre post, hs = pre ++ (n, x) :: post ∧ ∀ h ∈ pre, h.1 ≠ n := by
  induction hs with
  | nil => simp [getHeader]
  | cons h hs ih =>
    unfold getHeader at ih ⊢
    rw [List.find?_cons]
    by_cases hn : h.1 = n
    · have hb : (h.1 == n) = true := by simp [hn]
      simp only [hb, Option.map_some, Option.some.injEq]
      constructor
      · rintro rfl
        exact ⟨[], hs, by rw [← hn]; rfl, by intro _ hm; cases hm⟩
      · rintro ⟨pre, post, he, hp⟩
        cases pre with
        | nil => cases he; rfl
        | cons p pre => cases he; exact absurd hn (hp h List.mem_cons_self)
    · have hb : (h.1 == n) = false := by simp [hn]
      simp only [hb]
      rw [ih]
      constructor
      · rintro ⟨pre, post, he, hp⟩
        refine ⟨h :: pre, post, by rw [he]; rfl, ?_⟩
        intro h' hm
        rcases List.mem_cons.1 hm with rfl | hm
        · exact hn
        · exact hp _ hm
      · rintro ⟨pre, post, he, hp⟩
        cases pre with
        | nil => cases he; exact absurd rfl hn
        | cons p pre => cases he; exact ⟨pre, post, rfl, fun h' hm => hp h' (List.mem_cons_of_mem _ hm)⟩

theorem allows_iff (hs : List (Str × Str)) (n : Str) (v : Option Str) :
    Rule.allows hs (.header n v) = true ↔ ∃ x, getHeader hs n = some x ∧ ∀ e, v = some e → x = e := by
  unfold Rule.allows
  cases hg : getHeader hs n with
  | none => simp [hg]
  | some x =>
    cases v with
    | none => simp [hg]
    | some e => simp [hg]

theorem told_some {shows trace plans : Bool} {id : Nat} {plan : Option P} {e : Ext P} (h : told shows trace plans id plan = some e) :
    shows = true ∧ (∀ i, e.traceId = some i → trace = true ∧ i = id) ∧ (∀ p, e.plan = some p → plans = true) := by
  unfold told at h
  cases shows with
  | false => cases h
  | true =>
    cases h
    refine ⟨rfl, ?_, ?_⟩
    · intro i hi
      cases trace with
      | false => cases hi
      | true => cases hi; exact ⟨rfl, rfl⟩
    · intro p hp
      cases plans with
      | false => cases hp
      | true => rfl

theorem answer_told {w : World σ Q O P} {cfg : Settings} {ctx : Ctx} {q : Q} {s : σ} {r s' t} (h : Answer w cfg ctx q s r s' t) :
    ∃ plan, r.ext = told ctx.shows cfg.includeTraceId cfg.includePlan ctx.traceId plan := by
  cases h with
  | unprepared => exact ⟨none, rfl⟩
  | subscription => exact ⟨some _, rfl⟩
  | executed => exact ⟨some _, rfl⟩

theorem answers_told {w : World σ Q O P} {cfg : Settings} {ctx : Ctx} {qs : List Q} {s : σ} {rs s' t}
    (h : Answers w cfg ctx qs s rs s' t) :
    ∀ r ∈ rs, ∃ plan, r.ext = told ctx.shows cfg.includeTraceId cfg.includePlan ctx.traceId plan := by
  induction h with
  | nil => intro r h; cases h
  | cons h _ ih =>
    intro r hr
    rcases List.mem_cons.1 hr with rfl | hr
    · exact answer_told h
    · exact ih r hr

theorem error_told (cfg : Settings) (ctx : Ctx) (m : Str) :
    ∀ r ∈ (errorWith cfg ctx m : Http Q P).responses,
      ∃ plan, r.ext = told ctx.shows cfg.includeTraceId cfg.includePlan ctx.traceId plan := by
  intro r hr
  cases List.mem_singleton.1 hr
  exact ⟨none, by rw [withExt_none rfl, default_told]⟩

theorem requests_told {w : World σ Q O P} (hw : w.Plain) (cfg : Settings) (hive : Bool) (ctx : Ctx) (s : σ) (qs : Requests Q) :
    ∀ r ∈ (executeRequests w cfg hive ctx s qs).http.responses,
      ∃ plan, r.ext = told ctx.shows cfg.includeTraceId cfg.includePlan ctx.traceId plan := by
  unfold executeRequests
  cases qs with
  | single q =>
    cases ctx.format with
    | streaming f => intro r hr; cases hr
    | complete f =>
      by_cases h : InTime cfg.timeout w.tie (executeSingle w cfg ctx q s).time
      · simp only [withTimeout_in h]
        intro r hr
        cases List.mem_singleton.1 hr
        exact answer_told (single_answer hw cfg ctx q s)
      · simp only [withTimeout_out h]
        exact error_told cfg ctx _
  | batch qs =>
    cases ctx.format with
    | streaming f => exact error_told cfg ctx _
    | complete f =>
      simp only
      split
      · exact error_told cfg ctx _
      · split
        · exact error_told cfg ctx _
        · by_cases h : InTime cfg.timeout w.tie (executeAll w cfg ctx qs s).time
          · simp only [withTimeout_in h]
            exact answers_told (all_answers hw cfg ctx qs s)
          · simp only [withTimeout_out h]
            exact error_told cfg ctx _

theorem requests_time (w : World σ Q O P) (cfg : Settings) (hive : Bool) (ctx : Ctx) (s : σ) (qs : Requests Q) :
    (executeRequests w cfg hive ctx s qs).time ≤ cfg.timeout := by
  unfold executeRequests
  cases qs with
  | single q =>
    cases ctx.format with
    | streaming f => exact Nat.zero_le _
    | complete f =>
      have := withTimeout_le cfg.timeout w.tie (executeSingle w cfg ctx q s)
      simp only
      split <;> rename_i h <;> rw [h] at this <;> exact this
  | batch qs =>
    cases ctx.format with
    | streaming f => exact Nat.zero_le _
    | complete f =>
      simp only
      split
      · exact Nat.zero_le _
      · split
        · exact Nat.zero_le _
        · have := withTimeout_le cfg.timeout w.tie (executeAll w cfg ctx qs s)
          split <;> rename_i h <;> rw [h] at this <;> exact this

end Verif.Batches
