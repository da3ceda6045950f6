import Verif.SubDedup.Model

/-!
# What a client should get
-/
namespace Verif.SubDedup

/-- `Told sent out`: a client to which `sent` was sent gets `out`: each message in order, or for some in a row, which are lost, the
error for lagging behind. -/
inductive Told : List Msg → List Out → Prop
  | nil : Told [] []
  | msg {m : Msg} {sent : List Msg} {out : List Out} : Told sent out → Told (m :: sent) (.msg m :: out)
  | lost {l sent : List Msg} {out : List Out} : l ≠ [] → Told sent out → Told (l ++ sent) (.lag :: out)

/-- What a client has got and, if it keeps polling, gets of what was sent so far. -/
def Client.out (c : Client) : List Out :=
  c.got ++ ((if c.lagged then [Out.lag] else []) ++ c.pending.map Out.msg)

end Verif.SubDedup
