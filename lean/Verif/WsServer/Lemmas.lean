import Verif.WsServer.Spec

/-!
# The transitions, one by one, and what holds in every state
-/
namespace Verif.WsServer

variable {P Q R S T : Type}

/-- `step` as a relation. -/
inductive Step (c : Cfg P Q R T) (st : St P Q R S) : In R S T → St P Q R S → Prop
  | accStay (f) (ha : st.at_ = .accRecv) : Step c st (.frame f) st
  | accOver (f) (ha : st.at_ = .accRecv) : Step c st (.frame f) { st with at_ := .over }
  | accInit (f p) (ha : st.at_ = .accRecv) : Step c st (.frame f) { st with at_ := .accCreating p }
  | accPing (f) (ha : st.at_ = .accRecv) : Step c st (.frame f) { st with at_ := .accSending .ping .again }
  | accEarly (f) (ha : st.at_ = .accRecv) : Step c st (.frame f) { st with at_ := .accSending (.close 4401) .stop }
  | createdSome (p s) (ha : st.at_ = .accCreating p) :
      Step c st (.created (some s)) { st with at_ := .accSending .ack (.serve s) }
  | createdNone (p) (ha : st.at_ = .accCreating p) :
      Step c st (.created none) { st with at_ := .accSending (.close 4403) .stop }
  | accFailed (m a ok) (ha : st.at_ = .accSending m a) (hw : st.closed = true ∨ ok = false) :
      Step c st (.accSent ok) { st with at_ := .over }
  | accAgain (m) (ha : st.at_ = .accSending m .again) (hc : st.closed = false) :
      Step c st (.accSent true) { st with at_ := .accRecv, out := st.out ++ [⟨none, m⟩], closed := isClose m }
  | accStop (m) (ha : st.at_ = .accSending m .stop) (hc : st.closed = false) :
      Step c st (.accSent true) { st with at_ := .over, out := st.out ++ [⟨none, m⟩], closed := isClose m }
  | accServe (m s) (ha : st.at_ = .accSending m (.serve s)) (hc : st.closed = false) :
      Step c st (.accSent true) { st with at_ := .recv s, out := st.out ++ [⟨none, m⟩], closed := isClose m }
  | lateFailed (ok) (ha : st.at_ = .timedOut) (hw : st.closed = true ∨ ok = false) :
      Step c st (.accSent ok) { st with at_ := .over }
  | lateSent (ha : st.at_ = .timedOut) (hc : st.closed = false) :
      Step c st (.accSent true) { st with at_ := .over, out := st.out ++ [⟨none, .close 4408⟩], closed := true }
  | timeoutRecv (w) (ha : st.at_ = .accRecv) : Step c st (.timeout w) { st with at_ := .timedOut }
  | timeoutCreating (p w) (ha : st.at_ = .accCreating p) : Step c st (.timeout w) { st with at_ := .timedOut }
  | timeoutLost (m a w) (ha : st.at_ = .accSending m a) : Step c st (.timeout w) { st with at_ := .timedOut }
  | timeoutWritten (m a w) (ha : st.at_ = .accSending m a) (hc : st.closed = false) :
      Step c st (.timeout w) { st with at_ := .timedOut, out := st.out ++ [⟨none, m⟩], closed := isClose m }
  | ignored (s f) (ha : st.at_ = .recv s) (hf : (content f).bind c.parse = none) : Step c st (.frame f) st
  | hangup (s f) (ha : st.at_ = .recv s) (hf : content f = none) : Step c st (.frame f) (finish st)
  | duplicate (s f id q t) (ha : st.at_ = .recv s) (hf : (content f).bind c.parse = some (.subscribe id q))
      (hl : lookup id st.subs = some t) : Step c st (.frame f) { st with at_ := .sending s (.close 4409) }
  | subscribed (s f id q) (ha : st.at_ = .recv s) (hf : (content f).bind c.parse = some (.subscribe id q))
      (hl : lookup id st.subs = none) :
      Step c st (.frame f)
        { st with tasks := st.tasks ++ [{ id := id, request := q, at_ := .next, aborted := false }],
                  subs := (id, st.tasks.length) :: st.subs }
  | completed (s f id t) (ha : st.at_ = .recv s) (hf : (content f).bind c.parse = some (.complete id))
      (hl : lookup id st.subs = some t) :
      Step c st (.frame f)
        { st with subs := st.subs.filter (fun e => decide (e.1 ≠ id)),
                  tasks := modifyTask st.tasks t (fun k => { k with aborted := true }) }
  | unknown (s f id) (ha : st.at_ = .recv s) (hf : (content f).bind c.parse = some (.complete id))
      (hl : lookup id st.subs = none) : Step c st (.frame f) st
  | ponged (s f) (ha : st.at_ = .recv s) (hf : (content f).bind c.parse = some .pong) : Step c st (.frame f) st
  | pinged (s f) (ha : st.at_ = .recv s) (hf : (content f).bind c.parse = some .ping) :
      Step c st (.frame f) { st with at_ := .sending s .pong }
  | again (s f p) (ha : st.at_ = .recv s) (hf : (content f).bind c.parse = some (.init p)) :
      Step c st (.frame f) { st with at_ := .sending s (.close 4429) }
  | loopClose (s m) (ha : st.at_ = .sending s m) (hs : canSend st = true) (hm : isClose m = true) :
      Step c st .loopSent (finish { st with queue := st.queue ++ [⟨none, m⟩] })
  | loopSent (s m) (ha : st.at_ = .sending s m) (hs : canSend st = true) (hm : isClose m = false) :
      Step c st .loopSent { st with queue := st.queue ++ [⟨none, m⟩], at_ := .recv s }
  | loopFailed (s m) (ha : st.at_ = .sending s m) (hp : st.pump = .dead) : Step c st .loopFailed (finish st)
  | item (t r k) (hk : st.tasks[t]? = some k) (hn : k.at_ = .next) :
      Step c st (.item t r) (setTask st t k (.sending (toMessage c k.id r) false))
  | streamEnd (t k) (hk : st.tasks[t]? = some k) (hn : k.at_ = .next) :
      Step c st (.streamEnd t) (setTask st t k (.sending (.complete k.id) true))
  | taskSent (t k m last) (hk : st.tasks[t]? = some k) (hn : k.at_ = .sending m last) (hs : canSend st = true) :
      Step c st (.taskSent t)
        (setTask { st with queue := st.queue ++ [⟨some t, m⟩] } t k (if last then .finished else .next))
  | taskFailed (t k m last) (hk : st.tasks[t]? = some k) (hn : k.at_ = .sending m last) (hp : st.pump = .dead) :
      Step c st (.taskFailed t) (setTask st t k .finished)
  | cancel (t k) (hk : st.tasks[t]? = some k) (hab : k.aborted = true) (hr : k.at_.running = true) :
      Step c st (.cancel t) (setTask st t k .cancelled)
  | pumpTake (m q) (hp : st.pump = .idle) (hq : st.queue = m :: q) :
      Step c st .pumpTake { st with pump := .sending m, queue := q }
  | pumpSent (m) (hp : st.pump = .sending m) (hc : st.closed = false) :
      Step c st (.pumpSent true) { st with out := st.out ++ [m], closed := isClose m.msg, pump := .idle }
  | pumpFailed (m ok) (hp : st.pump = .sending m) (hw : st.closed = true ∨ ok = false) :
      Step c st (.pumpSent ok) (die st)
  | unencodable (m) (hp : st.pump = .sending m) : Step c st .pumpUnencodable (die st)
  | pumpEnd (hp : st.pump = .idle) (hq : st.queue = []) (ha : st.at_ = .over)
      (hr : ∀ k ∈ st.tasks, k.at_.running = false) : Step c st .pumpEnd (die st)

theorem recvMessage_text {f : Frame T} {t : T} (h : recvMessage f = .text t) : content f = some t := by
  cases f with
  | binary b => cases b <;> simp_all [recvMessage, content]
  | _ => simp_all [recvMessage, content]

theorem recvMessage_none {f : Frame T} (h : ∀ t, recvMessage f ≠ .text t) : content f = none := by
  cases f with
  | binary b => cases b <;> simp_all [recvMessage, content]
  | _ => simp_all [recvMessage, content]

theorem step_sound {c : Cfg P Q R T} {st st' : St P Q R S} {i : In R S T} (h : step c st i = some st') :
    Step c st i st' := by
  cases i with
  | frame f =>
    cases ha : st.at_ with
    | accRecv =>
      simp only [step, ha] at h
      injection h with h
      subst h
      unfold acceptFrame
      split
      · exact .accStay f ha
      · exact .accOver f ha
      · split
        · exact .accOver f ha
        · exact .accInit f _ ha
        · exact .accPing f ha
        · exact .accEarly f ha
        · exact .accStay f ha
        · exact .accStay f ha
    | recv s =>
      simp only [step, ha] at h
      injection h with h
      subst h
      unfold serveFrame
      split
      · rename_i hr
        refine .ignored s f ha ?_
        rw [recvMessage_none (by simp [hr])]
        rfl
      · rename_i hr
        exact .hangup s f ha (recvMessage_none (by simp [hr]))
      · rename_i t hr
        have hc := recvMessage_text hr
        cases he : c.parse t with
        | none => exact .ignored s f ha (by rw [hc]; exact he)
        | some e =>
          have hf : (content f).bind c.parse = some e := by rw [hc]; exact he
          cases e with
          | init p => exact .again s f p ha hf
          | ping => exact .pinged s f ha hf
          | pong => exact .ponged s f ha hf
          | subscribe id q =>
            cases hl : lookup id st.subs with
            | none => simp only [handle, hl]; exact .subscribed s f id q ha hf hl
            | some t => simp only [handle, hl]; exact .duplicate s f id q t ha hf hl
          | complete id =>
            cases hl : lookup id st.subs with
            | none => simp only [handle, hl]; exact .unknown s f id ha hf hl
            | some t => simp only [handle, hl]; exact .completed s f id t ha hf hl
    | _ => simp [step, ha] at h
  | created s =>
    cases ha : st.at_ with
    | accCreating p =>
      cases s with
      | some s => simp only [step, ha] at h; injection h with h; subst h; exact .createdSome p s ha
      | none => simp only [step, ha] at h; injection h with h; subst h; exact .createdNone p ha
    | _ => simp [step, ha] at h
  | accSent ok =>
    cases ha : st.at_ with
    | accSending m a =>
      simp only [step, ha] at h
      injection h with h
      subst h
      unfold accSent write
      by_cases hw : (st.closed || !ok) = true
      · simp only [hw, if_true]
        refine .accFailed m a ok ha ?_
        simpa using hw
      · have hc : st.closed = false := by simp at hw; exact hw.1
        have hok : ok = true := by simp at hw; exact hw.2
        subst hok
        simp only [hc]
        cases a with
        | again => exact .accAgain m ha hc
        | stop => exact .accStop m ha hc
        | serve s => exact .accServe m s ha hc
    | timedOut =>
      simp only [step, ha] at h
      injection h with h
      subst h
      unfold accSent write
      by_cases hw : (st.closed || !ok) = true
      · simp only [hw, if_true]
        refine .lateFailed ok ha ?_
        simpa using hw
      · have hc : st.closed = false := by simp at hw; exact hw.1
        have hok : ok = true := by simp at hw; exact hw.2
        subst hok
        simp only [hc]
        exact .lateSent ha hc
    | _ => simp [step, ha] at h
  | timeout w =>
    cases ha : st.at_ with
    | accRecv => simp only [step, timeout, ha] at h; injection h with h; subst h; exact .timeoutRecv w ha
    | accCreating p => simp only [step, timeout, ha] at h; injection h with h; subst h; exact .timeoutCreating p w ha
    | accSending m a =>
      simp only [step, timeout, ha] at h
      unfold write at h
      by_cases hw : (st.closed || !w) = true
      · simp only [hw, if_true] at h
        injection h with h
        subst h
        exact .timeoutLost m a w ha
      · have hc : st.closed = false := by simp at hw; exact hw.1
        simp only [hw] at h
        injection h with h
        subst h
        exact .timeoutWritten m a w ha hc
    | _ => simp [step, timeout, ha] at h
  | loopSent =>
    cases ha : st.at_ with
    | sending s m =>
      simp only [step, ha] at h
      by_cases hs : canSend st = true
      · rw [if_pos hs] at h
        injection h with h
        subst h
        cases hm : isClose m with
        | true => exact .loopClose s m ha hs hm
        | false => exact .loopSent s m ha hs hm
      · rw [if_neg hs] at h
        simp at h
    | _ => simp [step, ha] at h
  | loopFailed =>
    cases ha : st.at_ with
    | sending s m =>
      simp only [step, ha] at h
      cases hp : st.pump with
      | dead =>
        simp only [pumpDead, hp, if_true] at h
        injection h with h
        subst h
        exact .loopFailed s m ha hp
      | _ => simp [pumpDead, hp] at h
    | _ => simp [step, ha] at h
  | item t r =>
    cases hk : st.tasks[t]? with
    | none => simp [step, hk] at h
    | some k =>
      cases hn : k.at_ with
      | next => simp only [step, hk, hn] at h; injection h with h; subst h; exact .item t r k hk hn
      | _ => simp [step, hk, hn] at h
  | streamEnd t =>
    cases hk : st.tasks[t]? with
    | none => simp [step, hk] at h
    | some k =>
      cases hn : k.at_ with
      | next => simp only [step, hk, hn] at h; injection h with h; subst h; exact .streamEnd t k hk hn
      | _ => simp [step, hk, hn] at h
  | taskSent t =>
    cases hk : st.tasks[t]? with
    | none => simp [step, hk] at h
    | some k =>
      cases hn : k.at_ with
      | sending m last =>
        simp only [step, hk, hn] at h
        by_cases hs : canSend st = true
        · rw [if_pos hs] at h; injection h with h; subst h; exact .taskSent t k m last hk hn hs
        · rw [if_neg hs] at h; simp at h
      | _ => simp [step, hk, hn] at h
  | taskFailed t =>
    cases hk : st.tasks[t]? with
    | none => simp [step, hk] at h
    | some k =>
      cases hn : k.at_ with
      | sending m last =>
        cases hp : st.pump with
        | dead =>
          simp only [step, hk, hn, pumpDead, hp, if_true] at h
          injection h with h; subst h; exact .taskFailed t k m last hk hn hp
        | _ => simp [step, hk, hn, pumpDead, hp] at h
      | _ => simp [step, hk, hn] at h
  | cancel t =>
    cases hk : st.tasks[t]? with
    | none => simp [step, hk] at h
    | some k =>
      simp only [step, hk] at h
      by_cases hb : (k.aborted && k.at_.running) = true
      · rw [if_pos hb] at h
        injection h with h
        subst h
        simp at hb
        exact .cancel t k hk hb.1 hb.2
      · rw [if_neg hb] at h; simp at h
  | pumpTake =>
    cases hp : st.pump with
    | idle =>
      cases hq : st.queue with
      | nil => simp [step, hp, hq] at h
      | cons m q => simp only [step, hp, hq] at h; injection h with h; subst h; exact .pumpTake m q hp hq
    | _ => simp [step, hp] at h
  | pumpSent ok =>
    cases hp : st.pump with
    | sending m =>
      simp only [step, hp] at h
      unfold write at h
      by_cases hw : (st.closed || !ok) = true
      · simp only [hw, if_true] at h
        injection h with h
        subst h
        exact .pumpFailed m ok hp (by simpa using hw)
      · have hc : st.closed = false := by simp at hw; exact hw.1
        have hok : ok = true := by simp at hw; exact hw.2
        subst hok
        simp only [hw] at h
        injection h with h
        subst h
        exact .pumpSent m hp hc
    | _ => simp [step, hp] at h
  | pumpUnencodable =>
    cases hp : st.pump with
    | sending m =>
      simp only [step, hp] at h
      split at h
      · simp at h
      · injection h with h; subst h; exact .unencodable m hp
    | _ => simp [step, hp] at h
  | pumpEnd =>
    cases hp : st.pump with
    | idle =>
      cases hq : st.queue with
      | cons m q => simp [step, hp, hq] at h
      | nil =>
        simp only [step, hp, hq] at h
        split at h
        · rename_i hb
          injection h with h
          subst h
          simp at hb
          refine .pumpEnd hp hq ?_ hb.2
          have := hb.1
          cases ha : st.at_ <;> simp_all [isOver]
        · simp at h
    | _ => simp [step, hp] at h

/-- Invariants. -/
theorem runFrom_inv {c : Cfg P Q R T} (I : List (In R S T) → St P Q R S → Prop)
    (hs : ∀ is st i st', I is st → step c st i = some st' → I (is ++ [i]) st') :
    ∀ (js is : List (In R S T)) (st st' : St P Q R S), I is st → runFrom c st js = some st' → I (is ++ js) st' := by
  intro js
  induction js with
  | nil =>
    intro is st st' hi h
    simp only [runFrom] at h
    injection h with h
    subst h
    simpa using hi
  | cons j js ih =>
    intro is st st' hi h
    rw [runFrom] at h
    cases hj : step c st j with
    | none => simp [hj] at h
    | some st1 =>
      simp only [hj] at h
      have := ih (is ++ [j]) st1 st' (hs is st j st1 hi hj) h
      simpa using this

theorem run_inv {c : Cfg P Q R T} (I : List (In R S T) → St P Q R S → Prop) (h0 : I [] start)
    (hs : ∀ is st i st', I is st → step c st i = some st' → I (is ++ [i]) st') {is : List (In R S T)}
    {st : St P Q R S} (h : run c is = some st) : I is st := by
  simpa using runFrom_inv I hs is [] start st h0 h

end Verif.WsServer
