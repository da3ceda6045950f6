/-
Model of rolling-logger/src/{lib,log_file,strategy}.rs: a log file that is renamed once it is too large or too
old. Times are nanoseconds since the Unix epoch, bytes are natural numbers. File operations do not fail; a single
`write` may accept only part of the buffer.
-/
namespace Verif.RollingLog

abbrev Bytes := List Nat

/-- strategy.rs:5-22 -/
inductive Kind where
  | never | minutely | hourly | daily | weekly | monthly | yearly
  | size (max : Nat)
  deriving DecidableEq, Repr

/-- The number in the name of a rotated file, strategy.rs:136-141. -/
def millis (t : Nat) : Nat := t / 1000000

/-- `Duration::as_secs` -/
def secs (t : Nat) : Nat := t / 1000000000

/-- log_file.rs:10-25 -/
def minuteSecs : Nat := 60
def hourSecs : Nat := minuteSecs * 60
def daySecs : Nat := hourSecs * 24
def weekSecs : Nat := daySecs * 7
def monthSecs : Nat := daySecs * 30
def yearSecs : Nat := daySecs * 365

/-- The directory: the rotated files `path.N` from the oldest rename to the newest, and the file at `path` with what
the logger knows about it. -/
structure State where
  rotated : List (Nat × Bytes)
  current : Bytes
  size : Nat
  start : Nat
  deriving DecidableEq, Repr

/-- log_file.rs:71-84, with `lifetime` (strategy.rs:159-161, zero if the clock went back). -/
def needsRotation (kind : Kind) (s : State) (now : Nat) : Bool :=
  let lifetime := secs (now - s.start)
  match kind with
  | .never => false
  | .minutely => decide (minuteSecs ≤ lifetime)
  | .hourly => decide (hourSecs ≤ lifetime)
  | .daily => decide (daySecs ≤ lifetime)
  | .weekly => decide (weekSecs ≤ lifetime)
  | .monthly => decide (monthSecs ≤ lifetime)
  | .yearly => decide (yearSecs ≤ lifetime)
  | .size max => decide (max ≤ s.size)

/-- `std::fs::rename`: a file that already has the new name is gone. -/
def rename (files : List (Nat × Bytes)) (name : Nat) (content : Bytes) : List (Nat × Bytes) :=
  files.filter (fun f => f.1 != name) ++ [(name, content)]

/-- `flush_and_rotate`, lib.rs:69-80; `now` is the clock read by `copy_new_start`. -/
def rotate (s : State) (now : Nat) : State :=
  { rotated := rename s.rotated (millis s.start) s.current, current := [], size := 0, start := now }

/-- One call of `write`: the clock when the age is checked, the clock when a new file is made, the buffer, and how
many bytes the operating system takes. -/
structure Write where
  checked : Nat
  created : Nat
  buf : Bytes
  taken : Nat
  deriving DecidableEq, Repr

def Write.accepted (w : Write) : Bytes := w.buf.take w.taken

/-- `LogFile::write`, log_file.rs:104-107: the size counts the whole buffer. -/
def append (s : State) (w : Write) : State :=
  { s with current := s.current ++ w.accepted, size := s.size + w.buf.length }

/-- lib.rs:99-105 -/
def write (kind : Kind) (s : State) (w : Write) : State :=
  append (if needsRotation kind s w.checked then rotate s w.created else s) w

def run (kind : Kind) (s : State) (ws : List Write) : State := ws.foldl (write kind) s

/-- `RollingLogger::new`, lib.rs:52-57, log_file.rs:50-64: an existing file is continued. -/
def open_ (files : List (Nat × Bytes)) (content : Bytes) (now : Nat) : State :=
  { rotated := files, current := content, size := content.length, start := now }

end Verif.RollingLog
