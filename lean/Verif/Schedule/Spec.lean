import Verif.Schedule.Run

/-!
# What a plan and a response modifier depend on

Stated on the query plan: tasks are partitions (one plan each) and pairs of a response modifier
definition with a partition.
-/
namespace Verif.Schedule

/-- The set of required fields has a field of the partition, at any depth. -/
inductive Mentions : List Req → Nat → Prop
  | here {l : List Req} {p : Nat} {sub : List Req} : Req.mk p sub ∈ l → Mentions l p
  | deeper {l : List Req} {p : Nat} {sub : List Req} {q : Nat} : Req.mk p sub ∈ l → Mentions sub q → Mentions l q

/-- Something to execute. -/
inductive Task where
  | plan (partition : Nat)
  | modifier (defn partition : Nat)
  deriving DecidableEq, Repr

/-- The plan of partition `P` needs that of `Q`: `P` or one of its fields requires a field of `Q`; if there
are no requirements at all, `Q` is the parent. -/
inductive Query.Needs (q : Query) : Nat → Nat → Prop
  | partition {P Q : Nat} {p : Part} : q.parts[P]? = some p → Mentions p.required Q → q.Needs P Q
  | field {P Q : Nat} {p : Part} {fs : List Req} : q.parts[P]? = some p → fs ∈ p.fields → Mentions fs Q → q.Needs P Q
  | parent {P Q : Nat} {p : Part} : q.parts[P]? = some p → p.required = [] → (∀ fs ∈ p.fields, fs = []) →
      p.parent = some Q → q.Needs P Q

/-- The modifier definition `d` impacts the field `f` of partition `P`, which is not skipped. -/
def Query.Impacts (q : Query) (d P f : Nat) : Prop :=
  ∃ defn, q.modifiers[d]? = some defn ∧ ∃ i ∈ defn, i.included = true ∧ i.partition = P ∧ i.field = f

/-- The tasks of a query. -/
inductive Query.HasTask (q : Query) : Task → Prop
  | plan {P : Nat} : P < q.parts.length → q.HasTask (.plan P)
  | modifier {d P f : Nat} : q.Impacts d P f → q.HasTask (.modifier d P)

/-- The first task depends on the second one. -/
inductive Query.Depends (q : Query) : Task → Task → Prop
  /-- A plan depends on the plans of the fields it requires, -/
  | required {P Q : Nat} : q.Needs P Q → q.Depends (.plan P) (.plan Q)
  /-- and on their modifiers. -/
  | modified {P Q d f : Nat} : q.Needs P Q → q.Impacts d Q f → q.Depends (.plan P) (.modifier d Q)
  /-- Mutations are executed one after the other. -/
  | serial {P Q : Nat} : [Q, P] <:+: q.mutationOrder → q.Depends (.plan P) (.plan Q)
  /-- A modifier depends on the plan that it modifies, -/
  | modifies {d P f : Nat} : q.Impacts d P f → q.Depends (.modifier d P) (.plan P)
  /-- and on the plans of the fields that it reads. -/
  | reads {d P f Q : Nat} : q.Impacts d P f → Mentions (q.requiredBySupergraph f) Q →
      q.Depends (.modifier d P) (.plan Q)

/-- Which task an executable is. -/
def OpPlan.task (o : OpPlan) : Exe → Option Task
  | .plan n => o.plans[n]?.map .plan
  | .modifier n => o.mods[n]?.map fun m => .modifier m.defn m.partition

/-- The executable whose turn it was. -/
def Ev.start : Ev → Option Exe
  | .started e => some e
  | .skipped p => some (.plan p)
  | _ => none

/-- The executable that completed. -/
def Ev.done : Ev → Option Exe
  | .completed e => some e
  | _ => none

/-- The tasks whose turn it was, in order. -/
def OpPlan.starts (o : OpPlan) (log : List Ev) : List Task := log.filterMap fun e => e.start.bind o.task

/-- The tasks that completed, in order. -/
def OpPlan.dones (o : OpPlan) (log : List Ev) : List Task := log.filterMap fun e => e.done.bind o.task

/-- No plan failed. -/
def NoFailure (log : List Ev) : Prop := ∀ p, .failed p ∉ log

/-- Every plan found parent objects. -/
def NoSkip (log : List Ev) : Prop := ∀ p, .skipped p ∉ log

/-- No task depends on itself through other tasks. -/
def Query.Acyclic (q : Query) : Prop := ∃ rank : Task → Nat, ∀ t u, q.Depends t u → rank u < rank t

/-- The plan is executed with these inputs up to this state: a query or mutation, or an event of a
subscription. -/
inductive Executes (o : OpPlan) (is : List Input) (s : St) : Prop
  | operation {hasInput : Nat → Bool} : run o.graph (startOperation o hasInput) is = some s → Executes o is s
  | subscription {hasInput : Nat → Bool} {s₀ : St} : startSubscription o hasInput = some s₀ →
      run o.graph s₀ is = some s → Executes o is s

end Verif.Schedule
