import Verif.Batches.Model

/-!
# What should become of requests
-/
namespace Verif.Batches

/-- What is told: nothing unless asked for and allowed, and of that only what the settings let be told. -/
def told {P : Type} (shows trace plans : Bool) (traceId : Nat) (plan : Option P) : Option (Ext P) :=
  match shows with
  | false => none
  | true => some { traceId := if trace then some traceId else none, plan := if plans then plan else none }

/-- The responses of the rest of the gateway tell nothing themselves. -/
def World.Plain {σ Q O P : Type} (w : World σ Q O P) : Prop :=
  (∀ q s r, (w.prepare q s).val = .error r → r.ext = none) ∧ ∀ o s, (w.run o s).val.ext = none

/-- `Answer q s r s' t`: in the world `s` the request is answered with `r` after `t`, which leaves the world `s'`. -/
inductive Answer {σ Q O P : Type} (w : World σ Q O P) (cfg : Settings) (ctx : Ctx) : Q → σ → Resp P → σ → Nat → Prop
  | unprepared {q s r s' t c} : w.prepare q s = ⟨t, .error r, s', c⟩ →
      Answer w cfg ctx q s ⟨r.kind, r.body, told ctx.shows cfg.includeTraceId cfg.includePlan ctx.traceId none, r.known⟩ s' t
  | subscription {q s o s' t c} : w.prepare q s = ⟨t, .ok o, s', c⟩ → o.subscription = true →
      Answer w cfg ctx q s ⟨.requestError "Subscriptions are only suported on streaming transports.".toList, [],
        told ctx.shows cfg.includeTraceId cfg.includePlan ctx.traceId (some o.plan), true⟩ s' t
  | executed {q s o s' t c r s'' t' c'} : w.prepare q s = ⟨t, .ok o, s', c⟩ → o.subscription = false →
      w.run o.op s' = ⟨t', r, s'', c'⟩ →
      Answer w cfg ctx q s ⟨r.kind, r.body, told ctx.shows cfg.includeTraceId cfg.includePlan ctx.traceId (some o.plan), true⟩ s'' (t + t')

/-- `Dropped q s d left`: when the request, in the world `s`, is dropped after `d`, it leaves the world `left`: it was being prepared,
or it was prepared and was being executed. -/
inductive Dropped {σ Q O P : Type} (w : World σ Q O P) : Q → σ → Nat → σ → Prop
  | preparing {q s t v s' c d} : w.prepare q s = ⟨t, v, s', c⟩ → d < t → Dropped w q s d (c d)
  | executing {q s o s' t c r s'' t' c' d} : w.prepare q s = ⟨t, .ok o, s', c⟩ → o.subscription = false →
      w.run o.op s' = ⟨t', r, s'', c'⟩ → t ≤ d → d < t + t' → Dropped w q s d (c' (d - t))

/-- The requests are answered one after another, each in the world the one before has left. -/
inductive Answers {σ Q O P : Type} (w : World σ Q O P) (cfg : Settings) (ctx : Ctx) : List Q → σ → List (Resp P) → σ → Nat → Prop
  | nil {s} : Answers w cfg ctx [] s [] s 0
  | cons {q qs s r rs s' s'' t t'} : Answer w cfg ctx q s r s' t → Answers w cfg ctx qs s' rs s'' t' →
      Answers w cfg ctx (q :: qs) s (r :: rs) s'' (t + t')

/-- The requests sent on their own, one after another, get these responses. -/
inductive OneByOne {σ Q O P : Type} (w : World σ Q O P) (cfg : Settings) (hive : Bool) (ctx : Ctx) (f : Nat) :
    List Q → σ → List (Resp P) → σ → Prop
  | nil {s} : OneByOne w cfg hive ctx f [] s [] s
  | cons {q qs s r rs s''} : (executeRequests w cfg hive ctx s (.single q)).http = .single f r →
      OneByOne w cfg hive ctx f qs (executeRequests w cfg hive ctx s (.single q)).state rs s'' →
      OneByOne w cfg hive ctx f (q :: qs) s (r :: rs) s''

/-- A batch the settings allow. -/
def Allowed (cfg : Settings) (n : Nat) : Prop := cfg.batching = true ∧ ∀ l, cfg.limit = some l → n ≤ l

/-- Done before the time is up, or when it is, if the gateway looks at that first. -/
def InTime (timeout : Nat) (tie : Bool) (t : Nat) : Prop := t < timeout ∨ (t = timeout ∧ tie = true)

/-- A name of a header. -/
def IsName (s : Str) : Prop :=
  s ≠ [] ∧ ∀ c ∈ s, c.isAlphanum = true ∨ c ∈ "!#$%&'*+-.^_`|~".toList

/-- A value of a header. -/
def IsValue (s : Str) : Prop := ∀ c ∈ s, (32 ≤ c.toNat ∧ c.toNat ≤ 126) ∨ c = '\t'

/-- The rules name headers and give values which exist. -/
def Sensible : RuleConfig → Prop
  | .deny => True
  | .header n v => IsName n ∧ ∀ x, v = some x → IsValue x

/-- The responses in what is sent back, but for streams. -/
def Http.responses {Q P : Type} : Http Q P → List (Resp P)
  | .single _ r => [r]
  | .batch _ rs => rs
  | .stream _ _ => []
  | .error _ r => [r]

end Verif.Batches
