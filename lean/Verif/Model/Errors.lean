import Verif.Core.Py
import Verif.Core.Str

/-!
# Model of `warn`, `catch_error` (`interface/errors.py`) and of the output of `plotCost` (`plot/cost_plot.py`)

The effects are lists of texts, oldest first.  `paint` is the colouring of the first word: the identity when
termcolor is missing (errors.py:34-37, 61-64).  A log is a number; the `warnings` filters (which may drop or
escalate a warning) are not modelled: `warned` lists the requests made to `warnings.warn`.
-/

namespace Verif.Errors

/-- What the user can look at afterwards. -/
structure Screen where
  stderr : List PyStr
  warned : List PyStr
  logs : ℕ → List PyStr

/-- `warn` (errors.py:21-44). -/
def warn (paint : PyStr → PyStr) (msg : PyStr) (log : Option ℕ) (s : Screen) : Screen :=
  let s := { s with stderr := s.stderr ++ [paint "WARNING".toList ++ ": ".toList ++ msg ++ "\n".toList] }
  match log with
  | none => s
  | some _ => { s with warned := s.warned ++ [msg] }

/-- `catch_error` (errors.py:47-73); `log.exception` adds one record to the log. -/
def catchError (paint : PyStr → PyStr) (msg : PyStr) (log : Option ℕ) (s : Screen) : Screen :=
  let s := { s with stderr := s.stderr ++ [paint "ERROR".toList ++ ": ".toList ++ msg ++ "\n".toList] }
  match log with
  | none => s
  | some n => { s with logs := fun m =>
      if m = n then s.logs m ++ ["ERROR: ".toList ++ msg ++ "\n".toList] else s.logs m }

/-- The file name chosen by `plotCost` (cost_plot.py:41-44). -/
def plotName : Option PyStr → PyStr
  | none => "cost_function.png".toList
  | some o => o ++ "_cost_function.png".toList

/-- `plotCost` (cost_plot.py:37-54) as an effect on the files: the figure is a function `draw` of the costs;
an existing file is overwritten.  `CostParent.plot_cost` (cost.py:203-209) calls it with the recorded costs. -/
def plotCost {C Fig : Type} (matplotlib : Bool) (draw : List C → Fig) (costs : List C) (output : Option PyStr)
    (files : PyStr → Option Fig) : Py (PyStr → Option Fig) :=
  if !matplotlib then .error .importError
  else .ok fun n => if n = plotName output then some (draw costs) else files n

end Verif.Errors
