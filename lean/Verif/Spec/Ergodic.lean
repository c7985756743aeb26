import Verif.Spec.Saddle
import Mathlib.Algebra.BigOperators.Group.Finset.Basic

/-!
# Specification: averages of relaxed iterates

A relaxed iteration `z (k+1) = z k + ρ (p k - z k)` shows its iterates `z`; the points `p` before the relaxation are
`z k + (z (k+1) - z k) / ρ`.
-/

namespace Verif.Spec

variable {E : Type*} [NormedAddCommGroup E] [InnerProductSpace ℝ E]

/-- The mean over the first `n` updates of the points before the relaxation.  For `ρ = 1` it is the mean of `z 1, ..., z n`. -/
noncomputable def unrelaxedMean (ρ : ℝ) (z : ℕ → E) (n : ℕ) : E :=
  (1 / (n : ℝ)) • ∑ k ∈ Finset.range n, (z k + (1 / ρ) • (z (k + 1) - z k))

end Verif.Spec
