import Verif.Core.Py
import Mathlib.Data.Real.Basic
import Mathlib.Algebra.BigOperators.Group.Finset.Basic
import Mathlib.Algebra.Order.Group.Abs
import Mathlib.Data.Complex.Basic
import Mathlib.Analysis.Complex.Norm

/-!
# Model of `src/modopt/signal/validation.py`

The printed difference is the result.  The two random arrays are parameters (uniform draws from
`[0, 1)`); shapes are index types, so the default `y_shape = x_shape` is the case `ι = κ`.  A value that
is not callable is `none`.
-/

open scoped BigOperators

namespace Verif.Validation

variable {ι κ A : Type} [Fintype ι] [Fintype κ]

/-- `transpose_test` (validation.py:12-81) for real operators. -/
noncomputable def transposeTest (op : Option ((ι → ℝ) → A → κ → ℝ))
    (opT : Option ((κ → ℝ) → A → ι → ℝ)) (xArgs : A) (yArgs : Option A) (x : ι → ℝ) (y : κ → ℝ) : Py ℝ :=
  match op, opT with
  | some op, some opT =>
    let yArgs := match yArgs with
      | none => xArgs
      | some a => a
    let mxy := ∑ k, op x xArgs k * y k
    let xmty := ∑ i, x i * opT y yArgs i
    .ok |mxy - xmty|
  | _, _ => .error .typeError

/-- The same code on operators with complex values (the random arrays stay real); `np.abs` is the
modulus. -/
noncomputable def transposeTestC (op : Option ((ι → ℝ) → A → κ → ℂ))
    (opT : Option ((κ → ℝ) → A → ι → ℂ)) (xArgs : A) (yArgs : Option A) (x : ι → ℝ) (y : κ → ℝ) : Py ℝ :=
  match op, opT with
  | some op, some opT =>
    let yArgs := match yArgs with
      | none => xArgs
      | some a => a
    let mxy := ∑ k, op x xArgs k * y k
    let xmty := ∑ i, x i * opT y yArgs i
    .ok ‖mxy - xmty‖
  | _, _ => .error .typeError

end Verif.Validation
