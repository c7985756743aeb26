import Mathlib.Analysis.InnerProductSpace.Basic

/-!
# Specification: proximity operators, projections, adjoints

An array is a function from a finite index type to its entries.  Entries live in a normed space, so
the same definition covers real and complex arrays (`V = ℝ`, `V = ℂ`) and arrays of blocks.
-/

namespace Verif.Spec

variable {ι : Type*} [Fintype ι] {V : Type*} [NormedAddCommGroup V]

/-- Half the squared Euclidean distance of two arrays. -/
noncomputable def halfSqDist (x u : ι → V) : ℝ := 1 / 2 * ∑ i, ‖x i - u i‖ ^ 2

/-- `p` is a value of the proximity operator of `g` at `x`: it minimises `½‖x - u‖² + g(u)` over all
arrays `u`. -/
def IsProx (g : (ι → V) → ℝ) (x p : ι → V) : Prop :=
  ∀ u, halfSqDist x p + g p ≤ halfSqDist x u + g u

/-- `p` is the only minimiser. -/
def IsUniqueProx (g : (ι → V) → ℝ) (x p : ι → V) : Prop :=
  IsProx g x p ∧ ∀ q, IsProx g x q → q = p

/-- `p` is the point of `C` closest to `x`, and the only one. -/
def IsProjection (C : Set (ι → V)) (x p : ι → V) : Prop :=
  p ∈ C ∧ ∀ u ∈ C, halfSqDist x p ≤ halfSqDist x u ∧ (halfSqDist x u ≤ halfSqDist x p → u = p)

/-- Proximity operator in an abstract inner-product space (used for the algorithms). -/
def IsProxE {E : Type*} [NormedAddCommGroup E] (g : E → ℝ) (x p : E) : Prop :=
  ∀ u, 1 / 2 * ‖x - p‖ ^ 2 + g p ≤ 1 / 2 * ‖x - u‖ ^ 2 + g u

end Verif.Spec
