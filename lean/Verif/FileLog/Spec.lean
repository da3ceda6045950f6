import Verif.FileLog.Model
/-! What is expected of log files. -/
namespace Verif.FileLog

/-- A logger after its creation and any interleaving of uses. -/
def Lives (l : Logger) : Prop := ∃ rotate acts, l = Logger.run acts { rotate := rotate }

/-- An extension after any interleaving of calls. -/
def Reached (h : Host) : Prop := ∃ calls, h = Host.run calls {}

/-- The lines still in the channel. -/
def pending : List Msg → List Nat
  | [] => []
  | .data d :: q => d :: pending q
  | .shutdown _ :: q => pending q

/-- Resource `res` writes to logger `id`. -/
def Refers (h : Host) (res id : Nat) : Prop := (res, id) ∈ h.table

end Verif.FileLog
