import Verif.Core.Str
import Mathlib.Data.List.Basic

/-!
# Model of `src/modopt/interface/log.py`

Python's `logging` keeps its loggers for the life of the process, so the state below is global.  A handler
is a number; what it has been sent is recorded per handler (the bytes of the file are not modelled).  A
record goes to the handlers of its logger and of the logger's dotted ancestors; the root logger has no
handlers.
-/

namespace Verif.Log

/-- The state of the `logging` module. -/
structure State where
  /-- handlers attached to a logger, in order -/
  handlers : PyStr → List ℕ
  /-- number of handlers created so far; they are numbered from 0 -/
  next : ℕ
  /-- the file a handler writes to -/
  file : ℕ → PyStr
  /-- whether the handler's file is open -/
  isOpen : ℕ → Bool
  /-- the messages a handler has been sent -/
  received : ℕ → List PyStr

/-- A fresh process. -/
def init : State := ⟨fun _ => [], 0, fun _ => [], fun _ => false, fun _ => []⟩

/-- The loggers a record of logger `n` is offered to: `n` and its ancestors (the prefixes of `n` that
are followed by a dot). -/
def chain (n : PyStr) : List PyStr :=
  n :: ((List.range n.length).filter fun k => n[k]? == some '.').map fun k => n.take k

/-- `logger.info(msg)`: every handler attached to a logger of the chain receives the message. -/
def info (n msg : PyStr) (s : State) : State :=
  { s with received := fun h =>
      if (chain n).any fun m => (s.handlers m).contains h then s.received h ++ [msg] else s.received h }

/-- The name of the logger and of its file (log.py:29). -/
def logName (filename : PyStr) : PyStr := filename ++ ".log".toList

/-- The opening message (log.py:54). -/
def openMsg : PyStr := "The log file has been set-up.".toList

/-- The closing message (log.py:78). -/
def closeMsg : PyStr := "The log file has been closed.".toList

/-- `set_up_log` (log.py:12-58): a new file handler is attached to the logger of that name. -/
def setUpLog (filename : PyStr) (s : State) : State :=
  let n := logName filename
  let h := s.next
  let s := { s with
    next := s.next + 1
    file := fun k => if k = h then n else s.file k
    isOpen := fun k => if k = h then true else s.isOpen k
    handlers := fun m => if m = n then s.handlers n ++ [h] else s.handlers m }
  info n openMsg s

/-- `for log_handler in log.handlers: log.removeHandler(log_handler)` (log.py:80-82).  The list is
iterated by position while its elements are removed from it. -/
def closeLoop (hs : List ℕ) (i : ℕ) : List ℕ :=
  if h : i < hs.length then closeLoop (hs.erase hs[i]) (i + 1) else hs
termination_by hs.length - i
decreasing_by
  have := List.length_erase_of_mem (List.getElem_mem h)
  omega

/-- `close_log` (log.py:61-82) for the logger `n`.  The handlers are not closed. -/
def closeLog (n : PyStr) (s : State) : State :=
  let s := info n closeMsg s
  { s with handlers := fun m => if m = n then closeLoop (s.handlers n) 0 else s.handlers m }

/-- What a program can do with logs. -/
inductive Op
  | setUp (filename : PyStr)
  | close (n : PyStr)
  | info (n msg : PyStr)

/-- One operation. -/
def step (s : State) : Op → State
  | .setUp f => setUpLog f s
  | .close n => closeLog n s
  | .info n m => info n m s

/-- A history, from a fresh process. -/
def run (ops : List Op) : State := ops.foldl step init

end Verif.Log
