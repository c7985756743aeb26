import Mathlib.Analysis.SpecialFunctions.Pow.Real

/-!
# Specification of the Ricker ("Mexican hat") wavelet
-/

namespace Verif.Spec

/-- `ψ(x) = 2 / (√(3σ) π^(1/4)) (1 - (x/σ)²) exp(-x²/(2σ²))`. -/
noncomputable def ricker (σ x : ℝ) : ℝ :=
  2 / (Real.sqrt (3 * σ) * Real.pi ^ (1 / 4 : ℝ)) * (1 - (x / σ) ^ 2) * Real.exp (-x ^ 2 / (2 * σ ^ 2))

end Verif.Spec
