import Verif.Reload.Model
/-! # Which graph and which configuration are in force -/
namespace Verif.Reload.Spec

open Verif.Reload

variable {κ γ : Type}

/-- The configurations among updates. -/
def configs (us : List (Update κ γ)) : List κ :=
  us.filterMap fun | .config c => some c | .graph _ => none

/-- The graphs among updates. -/
def graphs (us : List (Update κ γ)) : List γ :=
  us.filterMap fun | .graph g => some g | .config _ => none

/-- In force is the newest configuration with the newest graph. -/
def inForce (c : κ) (g : γ) (us : List (Update κ γ)) : κ × γ :=
  ((configs us).getLast?.getD c, (graphs us).getLast?.getD g)

/-- The updates received. -/
def updates (es : List (Event κ γ)) : List (Update κ γ) :=
  es.filterMap fun | .update u _ => some u | _ => none

/-- No reload is aborted in its last poll. -/
def NoLate (es : List (Event κ γ)) : Prop := ∀ u, Event.update u true ∉ es

/-- Nothing is received. -/
def NoUpdate (es : List (Event κ γ)) : Prop := ∀ u l, Event.update u l ∉ es

/-- The outcome of the reload that is in progress before some events. -/
def outcome (es : List (Event κ γ)) : Option Bool :=
  (es.filterMap fun | .finish ok => some ok | _ => none).head?

/-- The configurations sent over a channel. -/
def sends (es : List (BridgeEvent κ)) : List κ :=
  es.filterMap fun | .send c => some c | .poll => none

/-- The configurations that runtimes were built from. -/
def builds (es : List (LimitEvent κ)) : List κ :=
  es.filterMap fun | .build c _ => some c | .file _ _ => none

/-- The configurations read from the file after an event that may have changed it. -/
def reads (es : List (LimitEvent κ)) : List κ :=
  es.filterMap fun
    | .file .create (some c) | .file .modify (some c) | .file .any (some c) | .file .other (some c) => some c
    | _ => none

end Verif.Reload.Spec
