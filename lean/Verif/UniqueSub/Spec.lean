import Verif.UniqueSub.Model
/-! What a client is to get. -/
namespace Verif.UniqueSub

/-- The items in order up to the end, or up to an error and with it. -/
def expected : List Reply → List Out
  | [] => []
  | .single r :: t => .item r :: expected t
  | .multiple xs :: t => xs.map .item ++ expected t
  | .finish :: _ => []
  | .fail e :: _ => [.error e]
  | .trap :: _ => [.internal]

/-- The extension has said that it is at the end, or failed. -/
def complete : List Reply → Bool
  | [] => false
  | .single _ :: t => complete t
  | .multiple _ :: t => complete t
  | _ :: _ => true

/-- What comes after. -/
def after : List Reply → List Reply
  | [] => []
  | .single _ :: t => after t
  | .multiple _ :: t => after t
  | _ :: t => t

/-- The extension does not fail before its end. -/
def Works : List Reply → Prop
  | [] => True
  | .fail _ :: _ => False
  | .trap :: _ => False
  | .finish :: _ => True
  | _ :: t => Works t

end Verif.UniqueSub
