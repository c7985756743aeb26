import Verif.Core.Py
import Mathlib.Analysis.SpecialFunctions.Pow.Complex
import Mathlib.Analysis.SpecialFunctions.Pow.Real

/-!
# Model of `src/modopt/signal/filter.py`

For Python numbers (`check_float` turns them into Python floats): division by zero raises, and a
negative float to a fractional power is a complex number.  Arithmetic is exact.
-/

namespace Verif.Filt

/-- `gaussian_filter` (filter.py:14-51). -/
noncomputable def gaussianFilter (x σ : ℝ) (norm : Bool) : Py ℝ :=
  if σ = 0 then .error .zeroDivisionError
  else
    let numerator := Real.exp (-0.5 * (x / σ) ^ 2)
    if norm then .ok (numerator / (Real.sqrt (2 * Real.pi) * σ)) else .ok numerator

/-- `mex_hat` (filter.py:54-84); the power `(3 * sigma) ** -0.5` is Python's, i.e. the principal complex
power when `sigma` is negative. -/
noncomputable def mexHat (x σ : ℝ) : Py ℂ :=
  if σ = 0 then .error .zeroDivisionError
  else
    let xs := (x / σ) ^ 2
    let factor : ℂ := 2 * ((3 * σ : ℝ) : ℂ) ^ ((-0.5 : ℝ) : ℂ) * ((Real.pi ^ (-0.25 : ℝ) : ℝ) : ℂ)
    .ok (factor * ((1 - xs : ℝ) : ℂ) * ((Real.exp (-0.5 * xs) : ℝ) : ℂ))

/-- `mex_hat_dir` (filter.py:87-116). -/
noncomputable def mexHatDir (xg xm σ : ℝ) : Py ℂ :=
  if σ = 0 then .error .zeroDivisionError
  else do
    let m ← mexHat xm σ
    .ok (((-0.5 * (xg / σ) ^ 2 : ℝ) : ℂ) * m)

end Verif.Filt
