import Mathlib.Data.Real.Basic
import Mathlib.Order.Bounds.Basic
import Mathlib.Algebra.BigOperators.Group.Finset.Basic
import Mathlib.Data.Fintype.Card

/-!
# Specification of the median (stated by counting, without sorting) and of mean squares
-/

namespace Verif.Spec

/-- How many entries satisfy `p`. -/
noncomputable def howMany (l : List ℝ) (p : ℝ → Prop) : ℕ :=
  open Classical in l.countP fun x => decide (p x)

/-- The smallest entry `v` such that at least half of the entries are `≤ v`. -/
def IsLowerMedian (l : List ℝ) (v : ℝ) : Prop :=
  IsLeast {v | v ∈ l ∧ l.length ≤ 2 * howMany l (· ≤ v)} v

/-- The largest entry `v` such that at least half of the entries are `≥ v`. -/
def IsUpperMedian (l : List ℝ) (v : ℝ) : Prop :=
  IsGreatest {v | v ∈ l ∧ l.length ≤ 2 * howMany l (v ≤ ·)} v

/-- The median is the midpoint of the lower and the upper median. -/
def IsMedian (l : List ℝ) (m : ℝ) : Prop :=
  ∃ lo hi, IsLowerMedian l lo ∧ IsUpperMedian l hi ∧ m = (lo + hi) / 2

/-- Mean of squares of a real array. -/
noncomputable def ms {ι : Type} [Fintype ι] (x : ι → ℝ) : ℝ := (∑ i, x i ^ 2) / Fintype.card ι

end Verif.Spec
