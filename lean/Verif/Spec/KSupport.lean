import Mathlib.Analysis.RCLike.Basic

/-!
# Specification: the squared k-support norm
-/

namespace Verif.Spec

variable {ι : Type*} [Fintype ι] {𝕜 : Type*} [RCLike 𝕜]

/-- Weights between zero and one with total at most `k`. -/
def Budget (k : ℝ) (θ : ι → ℝ) : Prop := (∀ i, 0 < θ i ∧ θ i ≤ 1) ∧ ∑ i, θ i ≤ k

/-- The square of the k-support norm (for real `k`: of the box norm), in its variational form: the infimum of
`∑ |u_i|² / θ_i` over the weights with total at most `k`. -/
noncomputable def ksupSq (k : ℝ) (u : ι → 𝕜) : ℝ :=
  sInf {c | ∃ θ : ι → ℝ, Budget k θ ∧ c = ∑ i, ‖u i‖ ^ 2 / θ i}

end Verif.Spec
