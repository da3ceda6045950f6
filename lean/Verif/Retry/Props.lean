import Verif.Retry.Model

namespace Verif.Retry

variable {B : Type}

/-! ## Specification -/

/-- The types of the requests begun in a history. -/
def types : List (Event B) → List OpType
  | [] => []
  | .begin ty :: h => ty :: types h
  | .attempt _ _ :: h => types h
  | .tick _ :: h => types h

/-- How many attempts of a request come after the first one. -/
def Task.retries (t : Task) : Nat := t.attempts.length - 1

def totalRetries (ts : List Task) : Nat := (ts.map Task.retries).sum

/-- Successful attempts reported in a history. -/
def successes : List (Event B) → Nat
  | [] => 0
  | .attempt _ .ok :: h => successes h + 1
  | _ :: h => successes h

def ticks : List (Event B) → Nat
  | [] => 0
  | .tick _ :: h => ticks h + 1
  | _ :: h => ticks h

/-- What a budget promises: each granted withdrawal takes `cost` from the credit, a deposit adds at most
`gain`, the passing of time at most `refill`. -/
structure Law (ops : BudgetOps B) (credit : B → Nat) (cost gain : Nat) : Prop where
  granted : ∀ b b', ops.withdraw b = (true, b') → credit b' + cost ≤ credit b
  refused : ∀ b b', ops.withdraw b = (false, b') → credit b' ≤ credit b
  deposit : ∀ b, credit (ops.deposit b) ≤ credit b + gain

/-! ## Lemmas -/

theorem sum_set (w : Task → Nat) (ts : List Task) (i : Nat) (t t' : Task) (h : ts[i]? = some t) :
    ((ts.set i t').map w).sum + w t = (ts.map w).sum + w t' := by
  induction ts generalizing i with
  | nil => simp at h
  | cons a ts ih =>
    cases i with
    | zero =>
      simp at h
      subst h
      simp
      omega
    | succ i =>
      simp at h
      have := ih i h
      simp only [List.set_cons_succ, List.map_cons, List.sum_cons]
      omega

/-- Withdrawals granted to a task so far. -/
def Task.spent (t : Task) : Nat :=
  match t.phase with
  | .ready => t.attempts.length
  | .returned => t.attempts.length - 1

/-- Invariant of one task. -/
structure TaskInv (t : Task) : Prop where
  noBudget : t.hasBudget = false → t.phase = .ready → t.attempts = []
  noBudget' : t.hasBudget = false → t.attempts.length ≤ 1
  ok : ∀ a ∈ t.attempts.dropLast, a ≠ .ok
  okReady : t.phase = .ready → ∀ a ∈ t.attempts, a ≠ .ok

theorem dropLast_of_all {l : List Attempt} (h : ∀ a ∈ l, a ≠ .ok) : ∀ a ∈ l.dropLast, a ≠ .ok :=
  fun a ha => h a ((List.dropLast_sublist l).subset ha)

theorem TaskInv.attempt (ops : BudgetOps B) {t : Task} (ht : TaskInv t) (b : B) (a : Attempt) :
    TaskInv (t.attempt ops b a).1 := by
  unfold Task.attempt
  cases hp : t.phase with
  | returned => exact ht
  | ready =>
    simp only
    have hok := ht.okReady hp
    cases hb : t.hasBudget with
    | false =>
      have := ht.noBudget hb hp
      simp only [Bool.not_false, if_true]
      exact ⟨fun _ h => by simp at h, fun _ => by simp [this], fun x hx => by simp at hx; exact hok x hx,
        fun h => by simp at h⟩
    | true =>
      simp only [Bool.not_true, Bool.false_eq_true, if_false]
      split
      · exact ⟨fun h => by simp at h, fun h => by simp at h, fun x hx => by simp at hx; exact hok x hx,
          fun h => by simp at h⟩
      · rename_i hne
        have hall : ∀ x ∈ t.attempts ++ [a], x ≠ .ok := by
          intro x hx
          simp at hx
          rcases hx with hx | rfl
          · exact hok x hx
          · exact hne
        split
        · exact ⟨fun h => by simp at h, fun h => by simp at h, dropLast_of_all hall, fun _ => hall⟩
        · exact ⟨fun h => by simp at h, fun h => by simp at h, dropLast_of_all hall, fun h => by simp at h⟩

theorem attempt_hasBudget (ops : BudgetOps B) (t : Task) (b : B) (a : Attempt) :
    (t.attempt ops b a).1.hasBudget = t.hasBudget := by
  unfold Task.attempt
  split
  · rfl
  · simp only
    split
    · rfl
    · split
      · rfl
      · split <;> rfl

theorem attempt_spent (ops : BudgetOps B) (t : Task) (b : B) (a : Attempt) :
    (t.attempt ops b a).1.spent = t.spent + (t.attempt ops b a).2.2.toNat := by
  unfold Task.attempt
  cases hp : t.phase with
  | returned => simp
  | ready =>
    simp only
    split
    · simp [Task.spent, hp]
    · split
      · simp [Task.spent, hp]
      · split <;> simp [Task.spent, hp]

/-- Invariant of a run over history `h`. -/
structure Inv (sub glob : Option SchemaRetry) (h : List (Event B)) (s : State B) : Prop where
  tasks : ∀ t ∈ s.tasks, TaskInv t
  budgets : s.tasks.map (·.hasBudget) = (types h).map fun ty => (retryBudget ty sub glob).isSome
  spent : (s.tasks.map Task.spent).sum = s.granted

theorem types_append (h h' : List (Event B)) : types (h ++ h') = types h ++ types h' := by
  induction h with
  | nil => rfl
  | cons e h ih => cases e <;> simp [types, ih]

theorem set_map_eq (ts : List Task) (i : Nat) (t t' : Task) (h : ts[i]? = some t)
    (e : t'.hasBudget = t.hasBudget) : (ts.set i t').map (·.hasBudget) = ts.map (·.hasBudget) := by
  induction ts generalizing i with
  | nil => simp
  | cons a ts ih =>
    cases i with
    | zero => simp at h; subst h; simp [e]
    | succ i => simp at h; simpa using ih i h

theorem Inv.step (ops : BudgetOps B) {sub glob : Option SchemaRetry} {h : List (Event B)} {s : State B}
    (hi : Inv sub glob h s) (e : Event B) : Inv sub glob (h ++ [e]) (step ops sub glob s e) := by
  cases e with
  | begin ty =>
    refine ⟨?_, ?_, ?_⟩
    · intro t ht
      simp [Retry.step] at ht
      rcases ht with ht | rfl
      · exact hi.tasks t ht
      · exact ⟨fun _ _ => rfl, fun _ => by simp [Task.start], fun a ha => by simp [Task.start] at ha,
          fun _ a ha => by simp [Task.start] at ha⟩
    · simp [Retry.step, types_append, types, hi.budgets, Task.start]
    · simp [Retry.step, hi.spent, Task.start, Task.spent]
  | tick f =>
    refine ⟨hi.tasks, ?_, hi.spent⟩
    simpa [types_append, types, Retry.step] using hi.budgets
  | attempt i a =>
    have hty : types (h ++ [Event.attempt (B := B) i a]) = types h := by simp [types_append, types]
    simp only [Retry.step]
    cases ht : s.tasks[i]? with
    | none => exact ⟨hi.tasks, by rw [hty]; exact hi.budgets, hi.spent⟩
    | some t =>
      have hm : t ∈ s.tasks := List.mem_of_getElem? ht
      refine ⟨?_, ?_, ?_⟩
      · intro t' ht'
        rcases List.mem_or_eq_of_mem_set ht' with h' | rfl
        · exact hi.tasks t' h'
        · exact (hi.tasks t hm).attempt ops s.budget a
      · rw [hty, ← hi.budgets]
        exact set_map_eq _ _ _ _ ht (attempt_hasBudget ops t s.budget a)
      · have h1 := sum_set Task.spent s.tasks i t (t.attempt ops s.budget a).1 ht
        have h2 := attempt_spent ops t s.budget a
        have h3 := hi.spent
        simp only
        omega

theorem inv_run (ops : BudgetOps B) (sub glob : Option SchemaRetry) (b : B) (h : List (Event B)) :
    Inv sub glob h (run ops sub glob b h) := by
  have : ∀ (h₂ h₁ : List (Event B)) (s : State B), Inv sub glob h₁ s →
      Inv sub glob (h₁ ++ h₂) (h₂.foldl (step ops sub glob) s) := by
    intro h₂
    induction h₂ with
    | nil => intro h₁ s hj; simpa using hj
    | cons e h₂ ih =>
      intro h₁ s hj
      simpa using ih (h₁ ++ [e]) _ (hj.step ops e)
  simpa [run] using this h [] ⟨b, [], 0⟩ ⟨fun _ h => by simp at h, rfl, rfl⟩

/-! ## C25 -/

/-- Whatever happens, a mutation is attempted at most once unless the subgraph's own configuration enables
retries of mutations. -/
theorem C25_mutation_once (ops : BudgetOps B) (sub : Option RetryConfig) (glob : RetryConfig) (b : B)
    (h : List (Event B)) (i : Nat) (t : Task)
    (hcfg : ∀ c, sub = some c → c.retryMutations = false)
    (hty : (types h)[i]? = some .mutation)
    (ht : (run ops (subgraphRetry sub) (globalRetry glob) b h).tasks[i]? = some t) :
    t.attempts.length ≤ 1 := by
  have hi := inv_run ops (subgraphRetry sub) (globalRetry glob) b h
  refine (hi.tasks t (List.mem_of_getElem? ht)).noBudget' ?_
  have h1 : ((run ops (subgraphRetry sub) (globalRetry glob) b h).tasks.map (·.hasBudget))[i]? =
      some t.hasBudget := by simp [ht]
  rw [hi.budgets] at h1
  simp only [List.getElem?_map, hty, Option.map_some, Option.some.injEq] at h1
  rw [← h1]
  cases sub with
  | none => rfl
  | some c => simp [retryBudget, budgetForMutation, subgraphRetry, RetryConfig.into, hcfg c rfl]

/-- Without a retry configuration for the subgraph and globally, every request is attempted at most once. -/
theorem C25_disabled_once (ops : BudgetOps B) (glob : RetryConfig) (hg : glob.enabled = false) (b : B)
    (h : List (Event B)) (t : Task)
    (ht : t ∈ (run ops (subgraphRetry none) (globalRetry glob) b h).tasks) :
    t.attempts.length ≤ 1 := by
  have hi := inv_run ops (subgraphRetry none) (globalRetry glob) b h
  refine (hi.tasks t ht).noBudget' ?_
  have h1 : t.hasBudget ∈ ((run ops (subgraphRetry none) (globalRetry glob) b h).tasks.map (·.hasBudget)) :=
    List.mem_map_of_mem ht
  rw [hi.budgets] at h1
  simp only [List.mem_map] at h1
  obtain ⟨ty, -, e⟩ := h1
  rw [← e]
  cases ty <;> simp [retryBudget, budgetForMutation, buildBudget, subgraphRetry, globalRetry, hg]

/-- No attempt follows a successful one. -/
theorem C25_stops_at_success (ops : BudgetOps B) (sub glob : Option SchemaRetry) (b : B)
    (h : List (Event B)) (t : Task) (ht : t ∈ (run ops sub glob b h).tasks) :
    ∀ a ∈ t.attempts.dropLast, a ≠ .ok :=
  ((inv_run ops sub glob b h).tasks t ht).ok

theorem retries_le_spent (ts : List Task) : totalRetries ts ≤ (ts.map Task.spent).sum := by
  induction ts with
  | nil => simp [totalRetries]
  | cons t ts ih =>
    have : t.retries ≤ t.spent := by
      unfold Task.retries Task.spent
      split <;> omega
    simp only [totalRetries, List.map_cons, List.sum_cons] at ih ⊢
    omega

/-- Over any interleaving of requests, there are at most as many retries as granted withdrawals. -/
theorem C25_retries_granted (ops : BudgetOps B) (sub glob : Option SchemaRetry) (b : B)
    (h : List (Event B)) :
    totalRetries (run ops sub glob b h).tasks ≤ (run ops sub glob b h).granted := by
  rw [← (inv_run ops sub glob b h).spent]
  exact retries_le_spent _

theorem attempt_credit {ops : BudgetOps B} {credit : B → Nat} {cost gain : Nat} (law : Law ops credit cost gain)
    (t : Task) (b : B) (a : Attempt) :
    credit (t.attempt ops b a).2.1 + (t.attempt ops b a).2.2.toNat * cost ≤
      credit b + if a = .ok then gain else 0 := by
  unfold Task.attempt
  cases t.phase with
  | returned => simp
  | ready =>
    simp only
    cases hb : t.hasBudget with
    | false => simp
    | true =>
      simp only [Bool.not_true, Bool.false_eq_true, if_false]
      split
      · simpa using law.deposit b
      · cases hw : ops.withdraw b with
        | mk g b' =>
          cases g with
          | true => simpa using law.granted b b' hw
          | false => simpa using law.refused b b' hw

/-- If the budget keeps its promise, the retries of any history, all requests together, cost at most the initial
credit plus what successes and the passing of time added. -/
theorem C25_budgeted (ops : BudgetOps B) (credit : B → Nat) (cost gain refill : Nat)
    (law : Law ops credit cost gain) (sub glob : Option SchemaRetry) (b : B) (h : List (Event B))
    (htick : ∀ f, .tick f ∈ h → ∀ b, credit (f b) ≤ credit b + refill) :
    totalRetries (run ops sub glob b h).tasks * cost ≤ credit b + gain * successes h + refill * ticks h := by
  have key : ∀ (h : List (Event B)) (s : State B), (∀ f, .tick f ∈ h → ∀ b, credit (f b) ≤ credit b + refill) →
      let s' := h.foldl (step ops sub glob) s
      credit s'.budget + s'.granted * cost ≤
        credit s.budget + s.granted * cost + gain * successes h + refill * ticks h := by
    intro h
    induction h with
    | nil => intro s _; simp [successes, ticks]
    | cons e h ih =>
      intro s hf
      have hrec := ih (step ops sub glob s e) (fun f hm => hf f (List.mem_cons_of_mem _ hm))
      simp only [List.foldl_cons] at hrec ⊢
      refine Nat.le_trans hrec ?_
      cases e with
      | begin ty => simp [step, successes, ticks]
      | tick f =>
        have := hf f (List.mem_cons_self ..) s.budget
        simp only [step, successes, ticks, Nat.mul_add]
        omega
      | attempt i a =>
        simp only [step]
        cases ht : s.tasks[i]? with
        | none => cases a <;> simp only [successes, ticks, Nat.mul_add] <;> omega
        | some t =>
          have := attempt_credit law t s.budget a
          simp only [Nat.add_mul]
          cases a <;> simp [successes, ticks, Nat.mul_add] at this ⊢ <;> omega
  have h1 := key h ⟨b, [], 0⟩ htick
  have h2 := Nat.mul_le_mul_right cost (C25_retries_granted ops sub glob b h)
  simp only [Nat.zero_mul, Nat.add_zero] at h1
  have h3 : (run ops sub glob b h).granted = (h.foldl (step ops sub glob) ⟨b, [], 0⟩).granted := rfl
  rw [h3] at h2
  omega

/-- `retry.enabled = false` on a subgraph is ignored: the presence of the section gives it a budget. -/
theorem C25_subgraph_disable_ignored (c : RetryConfig) (glob : RetryConfig) (ty : OpType)
    (hty : ty ≠ .mutation) :
    (retryBudget ty (subgraphRetry (some { c with enabled := false })) (globalRetry glob)).isSome = true := by
  cases ty <;> simp [retryBudget, buildBudget, subgraphRetry] at hty ⊢

/-! ## Non-vacuity: a counter as budget -/

def counter : BudgetOps Nat := ⟨(· + 1), fun b => if b ≥ 2 then (true, b - 2) else (false, b)⟩

theorem counter_law : Law counter id 2 1 where
  granted b b' h := by
    simp only [counter] at h
    split at h <;> simp at h
    simp; omega
  refused b b' h := by
    simp only [counter] at h
    split at h <;> simp at h
    simp [h]
  deposit b := by simp [counter]

def history : List (Event Nat) :=
  [.begin .query, .begin .mutation, .attempt 0 .fetchError, .attempt 1 .fetchError, .attempt 1 .fetchError,
   .tick (· + 1), .attempt 0 .rateLimited, .attempt 0 .ok, .attempt 0 .ok]

example : (run counter none (some ⟨true, 0⟩) 3 history).tasks =
    [⟨true, .returned, [.fetchError, .rateLimited, .ok]⟩, ⟨false, .returned, [.fetchError]⟩] := rfl
example : totalRetries (run counter none (some ⟨true, 0⟩) 3 history).tasks = 2 := rfl
example : (types history)[1]? = some .mutation := rfl
example : ∀ f, Event.tick f ∈ history → ∀ b, id (f b) ≤ id b + 1 := by
  intro f hf b
  simp [history] at hf
  subst hf
  simp
/-- With mutations allowed by the subgraph, a mutation is retried. -/
example : (run counter (some ⟨true, 0⟩) none 5 history).tasks[1]?.map (·.attempts) =
    some [.fetchError, .fetchError] := rfl

end Verif.Retry
