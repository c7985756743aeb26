import Mathlib.Data.Fin.Tuple.Sort
import Mathlib.Analysis.RCLike.Basic

/-!
# Specification: the ordered weighted l1 norm and monotone regression
-/

namespace Verif.Spec

variable {n : ℕ} {𝕜 : Type*} [RCLike 𝕜]

/-- The entries of `v` in non-increasing order. -/
noncomputable def decreasing (v : Fin n → ℝ) (i : Fin n) : ℝ := v (Tuple.sort v i.rev)

/-- The ordered weighted l1 norm: the largest modulus is weighted with `w 0`, the next with `w 1`, ... -/
noncomputable def owl (w : Fin n → ℝ) (x : Fin n → 𝕜) : ℝ := ∑ i, w i * decreasing (fun j => ‖x j‖) i

/-- `z` is the least-squares fit of `y` among the non-increasing non-negative vectors: the documented
result of `isotonic_regression(y, y_min=0, increasing=False)`. -/
def IsMonotoneFit (y z : Fin n → ℝ) : Prop :=
  Antitone z ∧ (∀ i, 0 ≤ z i) ∧
    ∀ v : Fin n → ℝ, Antitone v → (∀ i, 0 ≤ v i) → ∑ i, (z i - y i) ^ 2 ≤ ∑ i, (v i - y i) ^ 2

end Verif.Spec
