import Verif.WsServer.Count

/-!
# Runs of a small connection
-/
namespace Verif.WsServer.Demo

open Verif.WsServer

abbrev Txt := Option (Event Unit Nat)
abbrev Input := In Nat Unit Txt

/-- A text is the event it holds; the response 0 is a refused request. -/
def cfg : Cfg Unit Nat Nat Txt := { parse := fun t => t, refused := fun r => decide (r = 0) }

def a : Id := ['a']

def send (e : Event Unit Nat) : Input := .frame (.text (some e))

/-- The connection is acknowledged. -/
def opening : List Input := [send (.init ()), .created (some ()), .accSent true]

def pump : List Input := [.pumpTake, .pumpSent true]

/-- One operation with two responses. -/
def one : List Input :=
  opening ++ [send (.subscribe a 1), .item 0 7, .taskSent 0] ++ pump ++ [.item 0 8, .taskSent 0, .streamEnd 0, .taskSent 0] ++
    pump ++ pump ++ [send .ping, .loopSent] ++ pump

/-- An operation completes; its id is used again. -/
def reused : List Input :=
  opening ++ [send (.subscribe a 1), .streamEnd 0, .taskSent 0] ++ pump ++ [send (.subscribe a 2), .loopSent] ++ pump

/-- A ping before the acknowledgement. -/
def early : List Input := [send .ping, .accSent true]

/-- A refused request. -/
def refused : List Input :=
  opening ++ [send (.subscribe a 1), .item 0 0, .taskSent 0] ++ pump ++ [.streamEnd 0, .taskSent 0] ++ pump

/-- The client completes an operation and uses its id again before the messages of the first are written. -/
def stale : List Input :=
  opening ++ [send (.subscribe a 1), .streamEnd 0, .taskSent 0, send (.complete a), send (.subscribe a 2)] ++ pump ++
    [.item 1 9, .taskSent 1] ++ pump

/-- Something that is not an event. -/
def invalid : List Input := opening ++ [.frame (.text none)]

def invalidFirst : List Input := [.frame (.text none)]

end Verif.WsServer.Demo
