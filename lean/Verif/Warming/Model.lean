/-
Model of federated-server/src/engine/reloader.rs:173-196 `extract_operations_to_warm` and 158-171 `build_engine`.
`values` are the values of the cache in the order its iterator gives them, `entryCount` the number the cache
reports (moka: eventually consistent, so not necessarily the length of `values`).
-/
namespace Verif.Warming

structure Config where
  enabled : Bool
  warmOnReload : Bool
  /-- `u8` -/
  warmingPercent : Nat
  deriving DecidableEq, Repr

def operationsToWarm {α : Type} (config : Config) (values : List α) (entryCount : Nat) : List α :=
  if !config.enabled || !config.warmOnReload then []
  else if 100 ≤ config.warmingPercent then values
  else values.take (entryCount * (config.warmingPercent / 100))

end Verif.Warming
