import Verif.Core.Py
import Verif.Core.Num
import Mathlib.Analysis.RCLike.Basic
import Mathlib.Algebra.Order.Archimedean.Real.Basic

/-!
# Model of `src/modopt/signal/noise.py`

Arrays are functions from an index type to real or complex numbers; the `threshold` is an array of
the same shape (a scalar threshold is the constant array).  Arithmetic is exact.
-/

namespace Verif.Noise

variable {ι : Type*} {𝕜 : Type*} [RCLike 𝕜]

/-- `xp.finfo(np.float64).eps`. -/
noncomputable def eps64 : ℝ := 2⁻¹ ^ 52

/-- `np.around(z, decimals=d)`; complex numbers are rounded component-wise. -/
noncomputable def aroundK (d : ℕ) (z : 𝕜) : 𝕜 :=
  ((around d (RCLike.re z) : ℝ) : 𝕜) + ((around d (RCLike.im z) : ℝ) : 𝕜) * RCLike.I

/-- The factor `max_value` of soft thresholding (noise.py:176-178). -/
noncomputable def softFactor (t r : ℝ) : ℝ := max (1 - t / max eps64 r) 0

/-- Soft thresholding before the final rounding (noise.py:176-180). -/
noncomputable def softRaw (x : ι → 𝕜) (t : ι → ℝ) (i : ι) : 𝕜 :=
  (softFactor (t i) ‖x i‖ : 𝕜) * x i

/-- Hard thresholding (noise.py:182): multiplication by a boolean array. -/
noncomputable def hardThresh (x : ι → 𝕜) (t : ι → ℝ) (i : ι) : 𝕜 :=
  x i * (if ‖x i‖ ≥ t i then 1 else 0)

/-- `thresh` (noise.py:100-182). -/
noncomputable def thresh (x : ι → 𝕜) (t : ι → ℝ) (threshType : String) : Py (ι → 𝕜) :=
  if threshType ∉ ["hard", "soft"] then .error .valueError
  else if threshType = "soft" then .ok fun i => aroundK 15 (softRaw x t i)
  else .ok (hardThresh x t)

/-! ## add_noise -/

/-- The `sigma` argument: a number, a sequence (list, tuple or array), or something else. -/
inductive Sigma
  | num (s : ℝ)
  | seq (l : List ℝ)
  | other
  deriving Inhabited

/-- An array with a first axis of length `n` and slices indexed by `κ`. -/
abbrev Stack (n : ℕ) (κ : Type*) := Fin n → κ → ℝ

/-- `add_noise` (noise.py:14-97) with the drawn random array as a parameter: `gauss` is the standard
normal draw, `poisson` the Poisson draw of mean `|data|`.  A `sigma` that is neither a number nor a
sequence fails when it is iterated (`TypeError`). -/
def addNoise {n : ℕ} {κ : Type*} (data : Stack n κ) (sigma : Sigma) (noiseType : String)
    (gauss : Stack n κ) (poisson : Stack n κ → Stack n κ) : Py (Stack n κ) :=
  if noiseType ∉ ["gauss", "poisson"] then .error .valueError
  else
    let random := if noiseType = "gauss" then gauss else poisson fun i k => |data i k|
    match sigma with
    | .num s => .ok fun i k => data i k + s * random i k
    | .seq l =>
      if l.length ≠ n then .error .valueError
      else .ok fun i k => data i k + l.getD i 0 * random i k
    | .other => .error .typeError

end Verif.Noise
