import Verif.UniqueSub.Spec
namespace Verif.UniqueSub

/-- What one poll does: nothing left, or the first of what is expected. -/
inductive Good (works : Bool) (i : Inst) (es : List Out) (rs : List Reply) : Poll → Prop where
  | pending : es = [] → complete rs = false → Good works i es rs (.pending { i with poisoned := true })
  | ended : es = [] → complete rs = true → Good works i es rs (.ended ⟨false, i.drop works, []⟩ (after rs))
  | goes (o : Out) (q : List Nat) (rest : List Reply) : es = o :: (q.map .item ++ expected rest) → complete rest = complete rs →
      after rest = after rs → Good works i es rs (.gives o ⟨true, i, q⟩ rest)
  | last (o : Out) : es = [o] → complete rs = true → Good works i es rs (.gives o ⟨false, i.drop works, []⟩ (after rs))

theorem ask_good (works : Bool) (i : Inst) (rs : List Reply) : Good works i (expected rs) rs (ask works i rs) := by
  induction rs with
  | nil => exact .pending rfl rfl
  | cons r rs ih =>
    cases r with
    | single r => exact .goes _ [] rs rfl rfl rfl
    | multiple xs =>
      cases xs with
      | nil =>
        show Good works i (expected rs) (.multiple [] :: rs) (ask works i rs)
        generalize ask works i rs = p at ih ⊢
        cases ih with
        | pending h1 h2 => exact .pending h1 h2
        | ended h1 h2 => exact .ended (rs := .multiple [] :: rs) h1 h2
        | goes o q rest h1 h2 h3 => exact .goes o q rest h1 h2 h3
        | last o h1 h2 => exact .last (rs := .multiple [] :: rs) o h1 h2
      | cons x xs => exact .goes _ xs rs rfl rfl rfl
    | finish => exact .ended (rs := .finish :: rs) rfl rfl
    | fail e => exact .last (rs := .fail e :: rs) _ rfl rfl
    | trap => exact .last (rs := .trap :: rs) _ rfl rfl

theorem next_good (works : Bool) (i : Inst) (q : List Nat) (rs : List Reply) :
    Good works i (q.map .item ++ expected rs) rs (next works ⟨true, i, q⟩ rs) := by
  cases q with
  | nil => exact ask_good works i rs
  | cons x q => exact .goes _ q rs rfl rfl rfl

/-- All polls from a state of a live stream. -/
theorem polls_good (works : Bool) (i : Inst) (n : Nat) (q : List Nat) (rs : List Reply) (es : List Out)
    (he : es = q.map .item ++ expected rs) :
    let r := polls (next works) n ⟨true, i, q⟩ rs
    r.outs = es.take n ∧
    (n ≤ es.length → r.fin = .more) ∧
    (es.length < n → complete rs = true → r.fin = .ended ∧ r.rest = after rs ∧ r.st.inst = i.drop works ∧ r.st.live = false) ∧
    (es.length < n → complete rs = false → r.fin = .pending ∧ r.st.inst = { i with poisoned := true } ∧ r.st.live = true) ∧
    (r.fin = .more → r.st.live = true → r.st.inst = i) := by
  induction n generalizing q rs es with
  | zero => simp [polls]
  | succ n ih =>
    have hg := next_good works i q rs
    rw [← he] at hg
    simp only [polls]
    generalize next works ⟨true, i, q⟩ rs = p at hg ⊢
    cases hg with
    | pending h1 h2 => simp [h1, h2]
    | ended h1 h2 => simp [h1, h2]
    | goes o q' rest h1 h2 h3 =>
      have := ih q' rest _ rfl
      simp only at this ⊢
      obtain ⟨a, b, c, d, e⟩ := this
      rw [h2, h3] at c
      rw [h2] at d
      subst h1
      refine ⟨by rw [a]; rfl, ?_, ?_, ?_, e⟩
      · intro h; exact b (by simpa using h)
      · intro h; exact c (by simpa using h)
      · intro h; exact d (by simpa using h)
    | last o h1 h2 =>
      subst h1
      cases n with
      | zero => simp [polls]
      | succ n => simp [polls, next, h2]

/-- What one poll of the older stream does. -/
theorem nextOld_good (q : List Nat) (rs : List Reply) (hw : Works rs) :
    (q.map Out.item ++ expected rs = [] ∧
        nextOld ⟨true, {}, q⟩ rs = if complete rs then .ended ⟨false, {}, []⟩ (after rs) else .pending { poisoned := true }) ∨
      ∃ o q' rest, q.map Out.item ++ expected rs = o :: (q'.map .item ++ expected rest) ∧ Works rest ∧ complete rest = complete rs ∧
        after rest = after rs ∧ nextOld ⟨true, {}, q⟩ rs = .gives o ⟨true, {}, q'⟩ rest := by
  cases q with
  | cons x q => exact .inr ⟨_, q, rs, rfl, hw, rfl, rfl, rfl⟩
  | nil =>
    show (expected rs = [] ∧ askOld {} rs = _) ∨ ∃ o q' rest, expected rs = _ ∧ _ ∧ _ ∧ _ ∧ askOld {} rs = _
    induction rs with
    | nil => exact .inl ⟨rfl, rfl⟩
    | cons r rs ih =>
      cases r with
      | single r => exact .inr ⟨_, [], rs, rfl, hw, rfl, rfl, rfl⟩
      | multiple xs =>
        cases xs with
        | nil => exact ih hw
        | cons x xs => exact .inr ⟨_, xs, rs, rfl, hw, rfl, rfl, rfl⟩
      | finish => exact .inl ⟨rfl, rfl⟩
      | fail e => exact absurd hw (by simp [Works])
      | trap => exact absurd hw (by simp [Works])

end Verif.UniqueSub
