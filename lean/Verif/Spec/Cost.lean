import Mathlib.Algebra.Order.Field.Basic
import Mathlib.Algebra.BigOperators.Group.List.Basic

/-!
# Specification of the window convergence test
-/

namespace Verif.Spec

variable {K : Type _} [Field K] [LinearOrder K]

/-- Arithmetic mean. -/
def avg (l : List K) : K := l.sum / (l.length : K)

/-- The relative change test between an older and a newer group of costs: either the newer mean is
negligible at 16 decimals and the tolerance is non-negative, or the means differ by at most `tol`
relative to the newer one. -/
def WindowConverged (tol : K) (older newer : List K) : Prop :=
  (|avg newer| * 10 ^ 16 ≤ 1 / 2 ∧ 0 ≤ tol) ∨
  (1 / 2 < |avg newer| * 10 ^ 16 ∧ |avg newer - avg older| ≤ tol * |avg newer|)

end Verif.Spec
