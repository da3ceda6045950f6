import Verif.WsServer.Lemmas

/-!
# Invariants: the messages written, and the operations
-/
namespace Verif.WsServer

variable {P Q R S T : Type}

theorem seen_snoc (c : Cfg P Q R T) (is : List (In R S T)) (i : In R S T) :
    seen c (is ++ [i]) = see c (seen c is) i := by
  simp [seen]

theorem follow_append (p : Place) (a b : List (Msg R)) :
    follow p (a ++ b) = (follow p a).bind (fun q => follow q b) := by
  induction a generalizing p with
  | nil => cases p <;> simp [follow]
  | cons m ms ih =>
    rw [List.cons_append]
    cases p <;> cases m <;> simp only [follow, ih] <;> rfl

/-- Messages of the connection after its acknowledgement. -/
def later : Msg R → Bool
  | .ack => false
  | .ping => false
  | _ => true

theorem follow_later {m : Msg R} (h : later m = true) :
    follow .acknowledged [m] = some (if isClose m then .closed else .acknowledged) := by
  cases m <;> simp_all [follow, later, isClose]

def accepting : At P R S → Bool
  | .accRecv => true
  | .accCreating _ => true
  | .accSending _ _ => true
  | _ => false

/-- What the tasks are sending. -/
def Saying (tasks : List (Task Q R)) : Prop :=
  ∀ k ∈ tasks, ∀ m l, k.at_ = .sending m l → later m = true

theorem Saying.finish {tasks : List (Task Q R)} (h : Saying tasks) :
    Saying (tasks.map (fun k => { k with aborted := true })) := by
  intro k hk m l hm
  obtain ⟨k', hk', e⟩ := List.mem_map.mp hk
  subst e
  exact h k' hk' m l hm

structure Shape (w : Seen P Q) (st : St P Q R S) : Prop where
  unopened : (accepting st.at_ = true ∨ st.at_ = .timedOut) → w.opened = false
  unclosed : accepting st.at_ = true → st.closed = false
  unmade : (st.at_ = .accRecv ∨ (∃ p, st.at_ = .accCreating p) ∨ st.at_ = .timedOut) → w.made = false
  empty : w.opened = false → st.tasks = [] ∧ st.subs = [] ∧ st.queue = [] ∧ (∀ m, st.pump ≠ .sending m) ∧
    w.events = []
  first : ∀ m a, st.at_ = .accSending m a →
    (m = .ping ∧ a = .again ∧ w.made = false) ∨ (m = .ack ∧ (∃ s, a = .serve s) ∧ w.made = true) ∨
      ((∃ n, m = .close n) ∧ a = .stop ∧ w.made = false)
  opened : serving st.at_ = true → w.opened = true
  reply : ∀ s m, st.at_ = .sending s m → m = .pong ∨ m = .close 4409 ∨ m = .close 4429
  place : ∃ p, follow .connecting (written st) = some p ∧ (st.closed = true ↔ p = .closed) ∧
    (w.opened = true → p ≠ .connecting) ∧ (accepting st.at_ = true → p = .connecting)
  waiting : (∀ m ∈ st.queue, later m.msg = true) ∧ (∀ m, st.pump = .sending m → later m.msg = true)
  saying : Saying st.tasks
  ended : st.at_ = .over → ∀ k ∈ st.tasks, k.aborted = true

theorem shape_start : Shape ⟨false, false, []⟩ (start : St P Q R S) := by
  constructor <;> simp [start, Saying, accepting, serving, written, follow]

theorem toMessage_later (c : Cfg P Q R T) (id : Id) (r : R) : later (toMessage c id r) = true := by
  unfold toMessage
  split <;> rfl

theorem see_frame_made (c : Cfg P Q R T) (s : Seen P Q) (f : Frame T) :
    (see c s (In.frame f : In R S T)).made = s.made ∧ (see c s (In.frame f : In R S T)).opened = s.opened ∧
      (s.opened = false → (see c s (In.frame f : In R S T)).events = s.events) := by
  simp only [see]
  split
  · split <;> simp_all
  · simp_all

theorem mem_set {α : Type} {l : List α} {t : Nat} {a x : α} (h : x ∈ l.set t a) : x ∈ l ∨ x = a :=
  List.mem_or_eq_of_mem_set h

theorem mem_modifyTask {tasks : List (Task Q R)} {t : Nat} {f : Task Q R → Task Q R} {x : Task Q R}
    (h : x ∈ modifyTask tasks t f) : x ∈ tasks ∨ ∃ k, tasks[t]? = some k ∧ x = f k := by
  unfold modifyTask at h
  split at h
  · rename_i k hk
    rcases mem_set h with h | h
    · exact .inl h
    · exact .inr ⟨k, hk, h⟩
  · exact .inl h

set_option maxHeartbeats 1600000 in
theorem shape_step {c : Cfg P Q R T} {w : Seen P Q} {st st' : St P Q R S} {i : In R S T}
    (h : Shape w st) (hs : step c st i = some st') : Shape (see c w i) st' := by
  obtain ⟨h1, h2, h3, h4, h5, h6, h7, ⟨p, h8, h9, h10, h11⟩, h12, h13, h14⟩ := h
  have hst := step_sound hs
  clear hs
  have h13' := h13.finish
  cases hst with
  | accStay f ha =>
    obtain ⟨e1, e2, e3⟩ := see_frame_made (R := R) (S := S) c w f
    have ho := h1 (.inl (by simp [ha, accepting]))
    constructor <;> simp_all [accepting, serving]
  | accOver f ha =>
    obtain ⟨e1, e2, e3⟩ := see_frame_made (R := R) (S := S) c w f
    have ho := h1 (.inl (by simp [ha, accepting]))
    constructor <;> simp_all [accepting, serving, written]
  | accInit f p ha =>
    obtain ⟨e1, e2, e3⟩ := see_frame_made (R := R) (S := S) c w f
    have ho := h1 (.inl (by simp [ha, accepting]))
    constructor <;> simp_all [accepting, serving, written]
  | accPing f ha =>
    obtain ⟨e1, e2, e3⟩ := see_frame_made (R := R) (S := S) c w f
    have ho := h1 (.inl (by simp [ha, accepting]))
    constructor <;> simp_all [accepting, serving, written]
  | accEarly f ha =>
    obtain ⟨e1, e2, e3⟩ := see_frame_made (R := R) (S := S) c w f
    have ho := h1 (.inl (by simp [ha, accepting]))
    constructor <;> simp_all [accepting, serving, written]
  | createdSome p s ha =>
    have ho := h1 (.inl (by simp [ha, accepting]))
    constructor <;> simp_all [accepting, serving, written, see]
  | createdNone p ha =>
    have ho := h1 (.inl (by simp [ha, accepting]))
    constructor <;> simp_all [accepting, serving, written, see]
  | accFailed m a ok ha hw =>
    have ho := h1 (.inl (by simp [ha, accepting]))
    have hc := h2 (by simp [ha, accepting])
    have hok : ok = false := by simp_all
    subst hok
    constructor <;> simp_all [accepting, serving, written, see]
  | accAgain m ha hc =>
    have ho := h1 (.inl (by simp [ha, accepting]))
    have hf := h5 _ _ ha
    have hm : m = .ping ∧ w.made = false := by
      rcases hf with ⟨a, b, d⟩ | ⟨a, ⟨s, b⟩, d⟩ | ⟨a, b, d⟩
      · exact ⟨a, d⟩
      · cases b
      · cases b
    obtain ⟨hm, hmade⟩ := hm
    subst hm
    have hp : p = .connecting := h11 (by simp [ha, accepting])
    subst hp
    have hfo : follow .connecting (written st ++ [Msg.ping]) = some .connecting := by
      rw [follow_append, h8]; rfl
    constructor <;> simp_all [accepting, serving, written, see, isClose]
  | accStop m ha hc =>
    have ho := h1 (.inl (by simp [ha, accepting]))
    have hf := h5 _ _ ha
    have hm : (∃ n, m = .close n) ∧ w.made = false := by
      rcases hf with ⟨a, b, d⟩ | ⟨a, ⟨s, b⟩, d⟩ | ⟨a, b, d⟩
      · cases b
      · cases b
      · exact ⟨a, d⟩
    obtain ⟨⟨n, hm⟩, hmade⟩ := hm
    subst hm
    have hp : p = .connecting := h11 (by simp [ha, accepting])
    subst hp
    have hfo : follow .connecting (written st ++ [Msg.close n]) = some .closed := by
      rw [follow_append, h8]; rfl
    constructor <;> simp_all [accepting, serving, written, see, isClose]
  | accServe m s ha hc =>
    have ho := h1 (.inl (by simp [ha, accepting]))
    have hf := h5 _ _ ha
    have hm : m = .ack ∧ w.made = true := by
      rcases hf with ⟨a, b, d⟩ | ⟨a, ⟨s, b⟩, d⟩ | ⟨a, b, d⟩
      · cases b
      · exact ⟨a, d⟩
      · cases b
    obtain ⟨hm, hmade⟩ := hm
    subst hm
    have hp : p = .connecting := h11 (by simp [ha, accepting])
    subst hp
    have hfo : follow .connecting (written st ++ [Msg.ack]) = some .acknowledged := by
      rw [follow_append, h8]; rfl
    constructor <;> simp_all [accepting, serving, written, see, isClose]
  | lateFailed ok ha hw =>
    have ho := h1 (.inr ha)
    have hmade := h3 (.inr (.inr ha))
    have hsee : see c w (In.accSent ok : In R S T) = w := by
      cases ok <;> simp [see, hmade]
    constructor <;> (try rw [hsee]) <;> simp_all [accepting, serving, written]
  | lateSent ha hc =>
    have ho := h1 (.inr ha)
    have hmade := h3 (.inr (.inr ha))
    have hsee : see c w (In.accSent true : In R S T) = w := by
      simp [see, hmade]
    have hfo : follow .connecting (written st ++ [Msg.close 4408]) = some .closed := by
      rw [follow_append, h8]
      cases p <;> simp_all [follow]
    constructor <;> (try rw [hsee]) <;> simp_all [accepting, serving, written]
  | timeoutRecv ok ha =>
    have ho := h1 (.inl (by simp [ha, accepting]))
    constructor <;> simp_all [accepting, serving, written, see]
  | timeoutCreating p ok ha =>
    have ho := h1 (.inl (by simp [ha, accepting]))
    constructor <;> simp_all [accepting, serving, written, see]
  | timeoutLost m a ok ha =>
    have ho := h1 (.inl (by simp [ha, accepting]))
    constructor <;> simp_all [accepting, serving, written, see]
  | timeoutWritten m a ok ha hc =>
    have ho := h1 (.inl (by simp [ha, accepting]))
    have hf := h5 _ _ ha
    have hp : p = .connecting := h11 (by simp [ha, accepting])
    subst hp
    have hfo : ∃ q, follow .connecting (written st ++ [m]) = some q ∧ (isClose m = true ↔ q = .closed) := by
      rw [follow_append, h8]
      rcases hf with ⟨a, _, _⟩ | ⟨a, _, _⟩ | ⟨⟨n, a⟩, _, _⟩ <;> subst a
      · exact ⟨.connecting, rfl, by simp [isClose]⟩
      · exact ⟨.acknowledged, rfl, by simp [isClose]⟩
      · exact ⟨.closed, rfl, by simp [isClose]⟩
    obtain ⟨q, hq1, hq2⟩ := hfo
    constructor <;> simp_all [accepting, serving, written, see]
  | ignored s f ha hf =>
    obtain ⟨e1, e2, e3⟩ := see_frame_made (R := R) (S := S) c w f
    have ho := h6 (by simp [ha, serving])
    constructor <;> simp_all [accepting, serving]
  | hangup s f ha hf =>
    obtain ⟨e1, e2, e3⟩ := see_frame_made (R := R) (S := S) c w f
    have ho := h6 (by simp [ha, serving])
    constructor <;> simp_all [accepting, serving, finish, written]
  | duplicate s f id q t ha hf hl =>
    obtain ⟨e1, e2, e3⟩ := see_frame_made (R := R) (S := S) c w f
    have ho := h6 (by simp [ha, serving])
    constructor <;> simp_all [accepting, serving, written]
  | subscribed s f id q ha hf hl =>
    obtain ⟨e1, e2, e3⟩ := see_frame_made (R := R) (S := S) c w f
    have ho := h6 (by simp [ha, serving])
    constructor <;> simp_all [accepting, serving, written]
    intro k hk
    rcases List.mem_append.mp hk with hk | hk
    · exact h13 k hk
    · simp at hk; subst hk; simp
  | completed s f id t ha hf hl =>
    obtain ⟨e1, e2, e3⟩ := see_frame_made (R := R) (S := S) c w f
    have ho := h6 (by simp [ha, serving])
    constructor <;> simp_all [accepting, serving, written]
    intro k hk
    rcases mem_modifyTask hk with hk | ⟨k', hk', e⟩
    · exact h13 k hk
    · subst e
      exact h13 k' (List.mem_of_getElem? hk')
  | unknown s f id ha hf hl =>
    obtain ⟨e1, e2, e3⟩ := see_frame_made (R := R) (S := S) c w f
    have ho := h6 (by simp [ha, serving])
    constructor <;> simp_all [accepting, serving]
  | ponged s f ha hf =>
    obtain ⟨e1, e2, e3⟩ := see_frame_made (R := R) (S := S) c w f
    have ho := h6 (by simp [ha, serving])
    constructor <;> simp_all [accepting, serving]
  | pinged s f ha hf =>
    obtain ⟨e1, e2, e3⟩ := see_frame_made (R := R) (S := S) c w f
    have ho := h6 (by simp [ha, serving])
    constructor <;> simp_all [accepting, serving, written]
  | again s f p ha hf =>
    obtain ⟨e1, e2, e3⟩ := see_frame_made (R := R) (S := S) c w f
    have ho := h6 (by simp [ha, serving])
    constructor <;> simp_all [accepting, serving, written]
  | loopClose s m ha hcs hm =>
    have ho := h6 (by simp [ha, serving])
    have hl : later m = true := by rcases h7 s m ha with e | e | e <;> subst e <;> rfl
    constructor <;> simp_all [accepting, serving, written, see, finish]
    intro k hk
    rcases hk with hk | hk
    · exact h12.1 k hk
    · subst hk; exact hl
  | loopSent s m ha hcs hm =>
    have ho := h6 (by simp [ha, serving])
    have hl : later m = true := by rcases h7 s m ha with e | e | e <;> subst e <;> rfl
    constructor <;> simp_all [accepting, serving, written, see]
    intro k hk
    rcases hk with hk | hk
    · exact h12.1 k hk
    · subst hk; exact hl
  | loopFailed s m ha hp =>
    have ho := h6 (by simp [ha, serving])
    constructor <;> simp_all [accepting, serving, written, see, finish]
  | item t r k hk hn =>
    have hne : st.tasks ≠ [] := by intro e; simp [e] at hk
    constructor <;> simp only [see, setTask, written] at * <;> try assumption
    · intro ho
      exact absurd (h4 ho).1 hne
    · exact ⟨p, h8, h9, h10, h11⟩
    · intro k' hk' m l hm
      rcases mem_set hk' with hk' | hk'
      · exact h13 k' hk' m l hm
      · subst hk'
        injection hm with e1 e2
        subst e1
        exact toMessage_later c k.id r
    · intro ha k' hk'
      rcases mem_set hk' with hk' | hk'
      · exact h14 ha k' hk'
      · subst hk'
        exact h14 ha k (List.mem_of_getElem? hk)
  | streamEnd t k hk hn =>
    have hne : st.tasks ≠ [] := by intro e; simp [e] at hk
    constructor <;> simp only [see, setTask, written] at * <;> try assumption
    · intro ho
      exact absurd (h4 ho).1 hne
    · exact ⟨p, h8, h9, h10, h11⟩
    · intro k' hk' m l hm
      rcases mem_set hk' with hk' | hk'
      · exact h13 k' hk' m l hm
      · subst hk'
        injection hm with e1 e2
        subst e1
        rfl
    · intro ha k' hk'
      rcases mem_set hk' with hk' | hk'
      · exact h14 ha k' hk'
      · subst hk'
        exact h14 ha k (List.mem_of_getElem? hk)
  | taskSent t k m last hk hn hcs =>
    have hne : st.tasks ≠ [] := by intro e; simp [e] at hk
    have hl := h13 k (List.mem_of_getElem? hk) m last hn
    constructor <;> simp only [see, setTask, written] at * <;> try assumption
    · intro ho
      exact absurd (h4 ho).1 hne
    · exact ⟨p, h8, h9, h10, h11⟩
    · refine ⟨?_, h12.2⟩
      intro x hx
      rcases List.mem_append.mp hx with hx | hx
      · exact h12.1 x hx
      · simp at hx; subst hx; exact hl
    · intro k' hk' m' l hm
      rcases mem_set hk' with hk' | hk'
      · exact h13 k' hk' m' l hm
      · subst hk'
        cases last <;> simp at hm
    · intro ha k' hk'
      rcases mem_set hk' with hk' | hk'
      · exact h14 ha k' hk'
      · subst hk'
        exact h14 ha k (List.mem_of_getElem? hk)
  | taskFailed t k m last hk hn hp =>
    have hne : st.tasks ≠ [] := by intro e; simp [e] at hk
    constructor <;> simp only [see, setTask, written] at * <;> try assumption
    · intro ho
      exact absurd (h4 ho).1 hne
    · exact ⟨p, h8, h9, h10, h11⟩
    · intro k' hk' m' l hm
      rcases mem_set hk' with hk' | hk'
      · exact h13 k' hk' m' l hm
      · subst hk'
        simp at hm
    · intro ha k' hk'
      rcases mem_set hk' with hk' | hk'
      · exact h14 ha k' hk'
      · subst hk'
        exact h14 ha k (List.mem_of_getElem? hk)
  | cancel t k hk hab hr =>
    have hne : st.tasks ≠ [] := by intro e; simp [e] at hk
    constructor <;> simp only [see, setTask, written] at * <;> try assumption
    · intro ho
      exact absurd (h4 ho).1 hne
    · exact ⟨p, h8, h9, h10, h11⟩
    · intro k' hk' m' l hm
      rcases mem_set hk' with hk' | hk'
      · exact h13 k' hk' m' l hm
      · subst hk'
        simp at hm
    · intro ha k' hk'
      rcases mem_set hk' with hk' | hk'
      · exact h14 ha k' hk'
      · subst hk'
        exact h14 ha k (List.mem_of_getElem? hk)
  | pumpTake m q hp hq =>
    have hl := h12.1 m (by simp [hq])
    have ho : w.opened = true := by
      cases ho : w.opened with
      | true => rfl
      | false => have := (h4 ho).2.2.1; simp [hq] at this
    constructor <;> simp_all [see, written]
  | pumpSent m hp hc =>
    have hl := h12.2 m hp
    have ho : w.opened = true := by
      cases ho : w.opened with
      | true => rfl
      | false => exact absurd hp ((h4 ho).2.2.2.1 m)
    have hna : accepting st.at_ = false := by
      cases ha : accepting st.at_ with
      | false => rfl
      | true => simp_all
    have hpl : p = .acknowledged := by cases p <;> simp_all
    subst hpl
    have hfo := follow_append .connecting (written st) [m.msg]
    rw [h8] at hfo
    simp only [Option.bind_some] at hfo
    rw [follow_later hl] at hfo
    have hpl : ∃ q, follow .connecting (written st ++ [m.msg]) = some q ∧ (isClose m.msg = true ↔ q = .closed) ∧
        q ≠ .connecting := by
      refine ⟨_, hfo, ?_, ?_⟩ <;> cases isClose m.msg <;> simp
    obtain ⟨q, q1, q2, q3⟩ := hpl
    constructor <;> simp only [see] <;> try assumption
    · intro ha; simp_all
    · intro hn; simp_all
    · exact ⟨q, by simpa [written] using q1, q2, fun _ => q3, fun ha => absurd ha (by simp [hna])⟩
    · exact ⟨h12.1, by intro m' hm'; simp at hm'⟩
  | pumpFailed m ok hp hw =>
    constructor <;> simp_all [see, written, die]
  | unencodable m hp =>
    constructor <;> simp_all [see, written, die]
  | pumpEnd hp hq ha hr =>
    constructor <;> simp_all [see, written, die]

theorem run_shape {c : Cfg P Q R T} {is : List (In R S T)} {st : St P Q R S} (h : run c is = some st) :
    Shape (seen c is) st :=
  run_inv (fun is st => Shape (seen c is) st) shape_start
    (fun is st i st' hi hs => by rw [seen_snoc]; exact shape_step hi hs) h

end Verif.WsServer
