import Verif.Spec.Convex

/-!
# Strong convexity

`F` lies above its tangents by a quadratic of curvature `μ`.
-/

namespace Verif.Spec
open scoped RealInnerProductSpace
variable {E : Type*} [NormedAddCommGroup E] [InnerProductSpace ℝ E]

/-- `F` is `μ`-strongly convex with gradient `G`. -/
def StronglyAbove (F : E → ℝ) (G : E → E) (μ : ℝ) : Prop :=
  ∀ x u, F x + ⟪G x, u - x⟫ + μ / 2 * ‖u - x‖ ^ 2 ≤ F u

end Verif.Spec
