import Verif.Core.Py
import Mathlib.Analysis.InnerProductSpace.Basic
import Mathlib.Analysis.Real.Sqrt

/-!
# Model of the class `FISTA` (`src/modopt/opt/algorithms/forward_backward.py:11-285`)

Numbers are reals.  Real data only: for complex data NumPy compares the complex value of `vdot` with 0,
which is modelled in `Verif.Model.ComplexArrays`.
-/

namespace Verif.Fista

/-- The attributes of `mode` (forward_backward.py:75-89): `"regular"` with `p_lazy`, `q_lazy`, `r_lazy`,
or `"CD"` with `a_cd` and the counter `_n`. -/
inductive Mode
  | regular (p q r : ℝ)
  | cd (a : ℝ) (n : ℕ)

/-- A validated restart strategy with the parameters it uses (forward_backward.py:91-101): the names of
the adaptive strategies, or greedy with `min_beta`, `s_greedy`, `xi_restart`. -/
inductive Restart
  | none
  | adaptive (resetT : Bool) (xi : ℝ)
  | greedy (minBeta s xi : ℝ)

/-- A `FISTA` object. -/
structure Obj where
  mode : Mode
  restart : Restart
  tNow : ℝ
  tPrev : ℝ
  delta0 : Option ℝ
  safeguard : Bool

/-- The names in `_restarting_strategies` (forward_backward.py:53-61), except `None`, which is the absent
strategy below.  -/
def strategies : List String :=
  ["adaptive", "adaptive-i", "adaptive-1", "adaptive-ii", "adaptive-2", "greedy"]

open Classical in
/-- `_check_restart_params` (forward_backward.py:115-174), for a name in `_restarting_strategies`, together
with the assignment of the parameters (98-101). -/
noncomputable def checkRestart (regular : Bool) (name : String) (minBeta s xi : Option ℝ) :
    Py Restart :=
  if regular = false then .error .valueError
  else if name = "greedy" ∧ (minBeta = none ∨ s = none ∨ ∃ v, s = some v ∧ v ≤ 1) then .error .valueError
  else
    match xi with
    | none => .error .valueError
    | some ξ =>
      if ξ ≥ 1 then .error .valueError
      else if name = "greedy" then
        match minBeta, s with
        | some mb, some s => .ok (.greedy mb s ξ)
        | _, _ => .error .valueError
      else .ok (.adaptive (decide (name = "adaptive-ii" ∨ name = "adaptive-2")) ξ)

/-- The first part of `FISTA.__init__` (forward_backward.py:75-89). -/
noncomputable def initMode (aCd : Option ℝ) (p q r : ℝ) : Py Mode :=
  match aCd with
  | none => .ok (.regular p q r)
  | some a => if a > 2 then .ok (.cd a 0) else .error .valueError

/-- `FISTA.__init__` (forward_backward.py:63-113).  For an unknown strategy the error message is built
with `", ".join(...)` over a tuple containing `None`, which raises `TypeError`. -/
noncomputable def init (strategy : Option String) (minBeta s xi aCd : Option ℝ) (p q r : ℝ) : Py Obj := do
  let mode ← initMode aCd p q r
  let regular := match mode with | .regular .. => true | .cd .. => false
  let restart ← (match strategy with
    | none => .ok .none
    | some name =>
      if name ∈ strategies then checkRestart regular name minBeta s xi else .error .typeError : Py Restart)
  .ok ⟨mode, restart, 1, 1, none, false⟩

section
variable {E : Type*} [NormedAddCommGroup E] [InnerProductSpace ℝ E]

open Classical RealInnerProductSpace in
/-- `is_restart` (forward_backward.py:176-224); `"adaptive" in self.restart_strategy` holds for all names
but `greedy`. -/
noncomputable def isRestart (f : Obj) (zOld xNew xOld : E) : Bool × Obj :=
  match f.restart with
  | .none => (false, f)
  | .adaptive resetT xi =>
    if ⟪zOld - xNew, xNew - xOld⟫ ≥ 0 then
      let mode := match f.mode with
        | .regular p q r => .regular p q (r * xi)
        | m => m
      (true, { f with mode := mode, tNow := if resetT then 1 else f.tNow })
    else (false, f)
  | .greedy _ s _ =>
    let crit := decide (⟪zOld - xNew, xNew - xOld⟫ ≥ 0)
    let delta := ‖xNew - xOld‖
    match f.delta0 with
    | none => (crit, { f with delta0 := some (s * delta) })
    | some d0 => (crit, { f with safeguard := decide (delta ≥ d0) })
end

/-- `update_beta` (forward_backward.py:226-247); only the greedy strategy ever raises the safeguard. -/
noncomputable def updateBeta (f : Obj) (beta : ℝ) : ℝ :=
  if f.safeguard then
    match f.restart with
    | .greedy minBeta _ xi => max (beta * xi) minBeta
    | _ => beta
  else beta

/-- `update_lambda` (forward_backward.py:249-285). -/
noncomputable def updateLambda (f : Obj) : ℝ × Obj :=
  match f.restart with
  | .greedy .. => (2, f)
  | _ =>
    match f.mode with
    | .regular p q r =>
      let t := p + Real.sqrt (r * f.tNow ^ 2 + q) * 0.5
      (1 + (f.tNow - 1) / t, { f with tPrev := f.tNow, tNow := t })
    | .cd a n =>
      let t := (n + a - 1) / a
      (1 + (f.tNow - 1) / t, { f with tPrev := f.tNow, tNow := t, mode := .cd a (n + 1) })

end Verif.Fista
