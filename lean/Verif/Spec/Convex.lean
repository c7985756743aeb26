import Mathlib.Analysis.InnerProductSpace.Basic
import Mathlib.Analysis.Convex.Function

/-!
# Specification: convex problems in a real inner-product space

A possibly constrained function is a pair of a set `C` and a function `g`, standing for `g` on `C` and
`+∞` elsewhere; `C = univ` is the unconstrained case and `g = 0` the indicator of `C`.
-/

namespace Verif.Spec
open RealInnerProductSpace

variable {E : Type*} [NormedAddCommGroup E] [InnerProductSpace ℝ E]

/-- `p` is the value at `x` of the proximity operator of `g` constrained to `C`. -/
def IsProxOn (C : Set E) (g : E → ℝ) (x p : E) : Prop :=
  p ∈ C ∧ ∀ u ∈ C, 1 / 2 * ‖x - p‖ ^ 2 + g p ≤ 1 / 2 * ‖x - u‖ ^ 2 + g u

/-- `x` minimises `Φ` over `C`. -/
def Minimises (C : Set E) (Φ : E → ℝ) (x : E) : Prop := x ∈ C ∧ ∀ u ∈ C, Φ x ≤ Φ u

/-- `F` lies above its tangents, with gradient `G`: `F` is convex. -/
def AboveTangents (F : E → ℝ) (G : E → E) : Prop := ∀ x u, F x + ⟪G x, u - x⟫ ≤ F u

/-- `F` lies below the quadratic `L`-upper models: its gradient `G` is `L`-Lipschitz. -/
def Smooth (F : E → ℝ) (G : E → E) (L : ℝ) : Prop :=
  ∀ x u, F u ≤ F x + ⟪G x, u - x⟫ + L / 2 * ‖u - x‖ ^ 2

end Verif.Spec
