import Verif.Spec.Convex

/-!
# Specification: saddle points of `F + g + h ∘ L`

`g` is constrained to `C` and `h` to `D`.
-/

set_option linter.unusedSectionVars false

namespace Verif.Spec
open RealInnerProductSpace

variable {E H : Type*} [NormedAddCommGroup E] [InnerProductSpace ℝ E] [NormedAddCommGroup H]
  [InnerProductSpace ℝ H]

/-- `(x, y)` is a saddle point of the Lagrangian of `min F + g + h ∘ L`: `x` minimises
`F + g + ⟨L ·, y⟩` over `C`, and `y` is a subgradient of `h` at `L x` (equivalently `y` maximises
`⟨L x, ·⟩ - h*`). -/
structure IsSaddle (C : Set E) (D : Set H) (F g : E → ℝ) (h : H → ℝ) (L : E → H) (x : E) (y : H) : Prop where
  primal : Minimises C (fun u => F u + g u + ⟪L u, y⟫) x
  mem : L x ∈ D
  dual : ∀ v ∈ D, h (L x) + ⟪y, v - L x⟫ ≤ h v

/-- The primal part of a saddle point solves the primal problem. -/
theorem IsSaddle.minimises {C : Set E} {D : Set H} {F g : E → ℝ} {h : H → ℝ} {L : E → H} {x : E} {y : H}
    (s : IsSaddle C D F g h L x y) :
    Minimises {u | u ∈ C ∧ L u ∈ D} (fun u => F u + g u + h (L u)) x := by
  refine ⟨⟨s.primal.1, s.mem⟩, fun u hu => ?_⟩
  have h1 := s.primal.2 u hu.1
  have h2 := s.dual (L u) hu.2
  rw [inner_sub_right, real_inner_comm, real_inner_comm (L x) y] at h2
  simp only at h1 ⊢
  linarith

end Verif.Spec
