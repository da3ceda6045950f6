import Verif.UniqueSub.Lemmas
/-! C100: subscriptions of extensions which are not shared. -/
namespace Verif.UniqueSub

/-- C100: a client gets the items of the extension in order, each once, up to the end or up to an error and with it, and nothing
else; it gets each as soon as it asks. -/
theorem C100_items (works : Bool) (n : Nat) (rs : List Reply) :
    (polls (next works) n {} rs).outs = (expected rs).take n ∧
      (n ≤ (expected rs).length → (polls (next works) n {} rs).fin = .more) := by
  have := polls_good works {} n [] rs (expected rs) rfl
  exact ⟨this.1, this.2.1⟩

/-- C100: the stream ends when the extension is at its end or has failed, and waits for it otherwise. -/
theorem C100_ends (works : Bool) (n : Nat) (rs : List Reply) (h : (expected rs).length < n) :
    (polls (next works) n {} rs).fin = if complete rs then .ended else .pending := by
  have := polls_good works {} n [] rs (expected rs) rfl
  cases hc : complete rs with
  | true => exact (this.2.2.1 h hc).1
  | false => exact (this.2.2.2.1 h hc).1

/-- C100: when it ends the subscription was dropped once, the instance is given back for further use if this worked and not
otherwise, and the extension was not asked again. -/
theorem C100_dropped (works : Bool) (n : Nat) (rs : List Reply) (h : (expected rs).length < n) (hc : complete rs = true) :
    let r := polls (next works) n {} rs
    r.st.inst.drops = 1 ∧ r.st.inst.recyclable = true ∧ r.st.inst.poisoned = !works ∧ r.st.live = false ∧ r.rest = after rs := by
  have := (polls_good works {} n [] rs (expected rs) rfl).2.2.1 h hc
  intro r
  rw [this.2.2.1]
  exact ⟨rfl, rfl, rfl, this.2.2.2, this.2.1⟩

/-- C100: if the client leaves before, between two items or while it waits, the instance is not used again. -/
theorem C100_left (works : Bool) (n : Nat) (rs : List Reply) (h : (polls (next works) n {} rs).st.live = true) :
    (polls (next works) n {} rs).st.inst.recyclable = false ∧ (polls (next works) n {} rs).st.inst.drops = 0 := by
  have := polls_good works {} n [] rs (expected rs) rfl
  by_cases hn : n ≤ (expected rs).length
  · have hi := this.2.2.2.2 (this.2.1 hn) h
    rw [hi]
    exact ⟨rfl, rfl⟩
  · cases hc : complete rs with
    | true =>
      have := (this.2.2.1 (by omega) hc).2.2.2
      rw [this] at h
      cases h
    | false =>
      have := (this.2.2.2.1 (by omega) hc).2.1
      rw [this]
      exact ⟨rfl, rfl⟩

/-- C100 is false of what becomes of an instance which has trapped: it is used again if the drop of the subscription then works. -/
theorem C100_trap_false :
    (polls (next true) 2 {} [.single 1, .trap]).outs = [.item 1, .internal] ∧
      (polls (next true) 2 {} [.single 1, .trap]).st.inst = { poisoned := false, recyclable := true, drops := 1 } := by
  decide +kernel

/-- C100: otherwise it is not. -/
theorem C100_trap_partial (n : Nat) (rs : List Reply) (h : (expected rs).length < n) (hc : complete rs = true) :
    (polls (next false) n {} rs).st.inst.poisoned = true :=
  (C100_dropped false n rs h hc).2.2.1

/-- Items one by one and together, empty ones, and the end. -/
theorem C100_case :
    polls (next true) 9 {} [.single 1, .multiple [], .multiple [2, 3], .single 4, .finish, .single 5] =
      ⟨[.item 1, .item 2, .item 3, .item 4], .ended, ⟨false, { recyclable := true, drops := 1 }, []⟩, [.single 5]⟩ ∧
    polls (next true) 9 {} [.multiple [2, 3], .fail 7, .single 4] =
      ⟨[.item 2, .item 3, .error 7], .ended, ⟨false, { recyclable := true, drops := 1 }, []⟩, [.single 4]⟩ := by
  decide +kernel

/-- C100 for older extensions (partial: if they do not fail): the client gets the same, and the stream ends when the extension does;
the instance is never used again. -/
theorem C100_old_partial (n : Nat) (rs : List Reply) (hw : Works rs) :
    (polls nextOld n {} rs).outs = (expected rs).take n ∧
      ((expected rs).length < n → (polls nextOld n {} rs).fin = if complete rs then .ended else .pending) ∧
      (polls nextOld n {} rs).st.inst.recyclable = false := by
  have : ∀ (n : Nat) (q : List Nat) (rs : List Reply) (es : List Out), Works rs → es = q.map .item ++ expected rs →
      (polls nextOld n ⟨true, {}, q⟩ rs).outs = es.take n ∧
      (es.length < n → (polls nextOld n ⟨true, {}, q⟩ rs).fin = if complete rs then .ended else .pending) ∧
      (polls nextOld n ⟨true, {}, q⟩ rs).st.inst.recyclable = false := by
    intro n
    induction n with
    | zero => intro q rs es _ _; simp [polls]
    | succ n ih =>
      intro q rs es hw he
      rcases nextOld_good q rs hw with ⟨h1, h2⟩ | ⟨o, q', rest, h1, h2, h3, _, h5⟩
      · rw [← he] at h1
        simp only [polls, h2, h1]
        cases complete rs <;> simp
      · rw [← he] at h1
        obtain ⟨a, b, c⟩ := ih q' rest _ h2 rfl
        simp only [polls, h5, h1]
        refine ⟨by rw [a]; rfl, ?_, c⟩
        intro h
        rw [← h3]
        exact b (by simpa using h)
  exact this n [] rs (expected rs) hw rfl

/-- C100 is false of older extensions: the stream goes on after an error, with items or with errors as often as the client asks,
and the instance which has trapped is called again. -/
theorem C100_old_false :
    (polls nextOld 3 {} [.fail 7, .single 2, .finish]).outs = [.internal, .item 2] ∧
      expected [.fail 7, .single 2, .finish] = [.error 7] ∧
      ∀ n, (polls nextOld n {} (List.replicate n .trap)).outs = List.replicate n .internal := by
  refine ⟨by decide +kernel, rfl, ?_⟩
  have : ∀ n (i : Inst), (polls nextOld n ⟨true, i, []⟩ (List.replicate n .trap)).outs = List.replicate n .internal := by
    intro n
    induction n with
    | zero => exact fun _ => rfl
    | succ n ih =>
      intro i
      show Out.internal :: (polls nextOld n ⟨true, { i with poisoned := true }, []⟩ (List.replicate n .trap)).outs = _
      rw [ih]
      rfl
  exact fun n => this n {}

end Verif.UniqueSub
