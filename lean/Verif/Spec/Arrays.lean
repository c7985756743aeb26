import Verif.Spec.Convex
import Mathlib.Analysis.InnerProductSpace.PiL2

/-!
# Spaces of arrays

The algorithms are modelled on inner product spaces and the operators on arrays of numbers.  This says when an inner
product space *is* the space of the arrays with index set `ι` and entries in `𝕜` (`ℝ` or `ℂ`), with
`numpy.linalg.norm` as its norm.
-/

namespace Verif.Spec

/-- `E` is the space of arrays `ι → 𝕜` with the Euclidean norm. -/
structure ArraySpace (E ι 𝕜 : Type) [NormedAddCommGroup E] [Fintype ι] [RCLike 𝕜] where
  /-- the array of an element -/
  arr : E ≃+ (ι → 𝕜)
  norm_sq : ∀ x, ‖x‖ ^ 2 = ∑ i, ‖arr x i‖ ^ 2

/-- Mathlib's Euclidean spaces, real and complex. -/
noncomputable def euclid (ι 𝕜 : Type) [Fintype ι] [RCLike 𝕜] : ArraySpace (EuclideanSpace 𝕜 ι) ι 𝕜 where
  arr := (WithLp.linearEquiv 2 𝕜 (ι → 𝕜)).toAddEquiv
  norm_sq x := EuclideanSpace.norm_sq_eq x

end Verif.Spec
