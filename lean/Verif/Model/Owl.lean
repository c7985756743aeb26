import Verif.Core.Py
import Mathlib.Data.Fin.Tuple.Sort
import Mathlib.Analysis.RCLike.Basic

/-!
# Model of `OrderedWeightedL1Norm` (`src/modopt/opt/proximity.py:590-718`)

The data are one-dimensional once squeezed, with at least two entries (a vector `Fin n → 𝕜`); the
`np.reshape` back to the input shape is then a relabelling and is not modelled.  The external routines
`np.argsort` (an arbitrary choice among ties) and `isotonic_regression` are parameters.  Arithmetic is
exact; NaN data are not modelled.
-/

namespace Verif.Owl

variable {n : ℕ} {𝕜 : Type} [RCLike 𝕜]

/-- The `weights` argument: a one-dimensional or a two-dimensional array. -/
inductive WeightsArg
  | vec (l : List ℝ)
  | mat (rows : List (List ℝ))

/-- `np.diff` of one axis. -/
def diffs (l : List ℝ) : List ℝ := List.zipWith (fun b a => b - a) l.tail l

/-- `np.diff(weights)`: differences along the last axis, flattened. -/
def WeightsArg.diff : WeightsArg → List ℝ
  | .vec l => diffs l
  | .mat rows => rows.flatMap diffs

/-- `weights.flatten()`. -/
def WeightsArg.flatten : WeightsArg → List ℝ
  | .vec l => l
  | .mat rows => rows.flatten

open Classical in
/-- `OrderedWeightedL1Norm.__init__` (proximity.py:625-640): the stored weights.  `np.max` of an empty array
raises `ValueError`; the maximum of a non-empty array is positive exactly if some entry is. -/
noncomputable def init (hasSklearn : Bool) (weights : WeightsArg) : Py (List ℝ) :=
  if ¬ hasSklearn then .error .importError
  else if weights.diff = [] then .error .valueError
  else if ∃ d ∈ weights.diff, 0 < d then .error .valueError
  else if ∃ w ∈ weights.flatten, w < 0 then .error .valueError
  else .ok weights.flatten

open Classical in
/-- `data / np.abs(data)` with the NaN of `0 / 0` replaced by zero (proximity.py:685-689). -/
noncomputable def sign (x : 𝕜) : 𝕜 := if ‖x‖ = 0 then 0 else x / (‖x‖ : 𝕜)

/-- `OrderedWeightedL1Norm._op_method` (proximity.py:642-691).  The subtraction `data_abs - threshold`
broadcasts only if the lengths agree. -/
noncomputable def op (argsort : (Fin n → ℝ) → Equiv.Perm (Fin n)) (iso : (Fin n → ℝ) → Fin n → ℝ)
    (weights : List ℝ) (x : Fin n → 𝕜) (c : ℝ) : Py (Fin n → 𝕜) :=
  if weights.length ≠ n then .error .valueError
  else
    let threshold : Fin n → ℝ := fun i => weights.getD i 0 * c
    let idx : Fin n → Fin n := fun i => argsort (fun j => ‖x j‖) i.rev
    let fit := iso fun i => ‖x (idx i)‖ - threshold i
    -- data_abs_unsorted[idx[i]] = fit[i]
    let unsorted : Fin n → ℝ := fun j => fit ((argsort fun j => ‖x j‖).symm j).rev
    .ok fun j => sign (x j) * (unsorted j : 𝕜)

/-- `OrderedWeightedL1Norm._cost_method` (proximity.py:693-718): the reversal is applied before the sort. -/
noncomputable def cost (weights : List ℝ) (x : Fin n → 𝕜) : Py ℝ :=
  if weights.length ≠ n then .error .valueError
  else
    let rev : Fin n → ℝ := fun i => ‖x i.rev‖
    .ok (∑ i : Fin n, weights.getD i 0 * rev (Tuple.sort rev i))

end Verif.Owl
