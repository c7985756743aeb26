import Mathlib.Analysis.SpecialFunctions.Log.Basic

/-!
# Reweighted l1 minimisation

Section 4 of Candes, Wakin and Boyd: every reweighting recomputes the weights from the latest estimate, and the weighted l1
norm is then a majorant of the log-sum penalty at that estimate.  `cwbReweight.reweight` (reweight.py:52-57) says it implements
this section.  The formulas are those of the published method, scaled as in the code; the paper is not part of the repository.
-/

namespace Verif.Spec

/-- The weight the reference assigns to an entry of magnitude `a`: `w` is the initial weight and `n` the threshold factor.
Up to a constant factor this is `1 / (a + epsilon)` with `epsilon = n w`. -/
noncomputable def referenceWeight (n w a : ℝ) : ℝ := w / (1 + a / (n * w))

/-- The penalty of an entry of magnitude `a` that the reference minimises. -/
noncomputable def logSum (n w a : ℝ) : ℝ := n * w ^ 2 * Real.log (1 + a / (n * w))

end Verif.Spec
