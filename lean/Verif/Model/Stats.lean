import Verif.Core.Py
import Verif.Core.Ext
import Mathlib.Data.List.Sort
import Mathlib.Data.Complex.Basic
import Mathlib.Algebra.BigOperators.Group.Finset.Basic
import Mathlib.Algebra.Order.BigOperators.Group.Finset

/-!
# Model of `src/modopt/math/stats.py`

Arrays are lists of reals (for the median, which flattens) or functions on a finite index type.
Arithmetic is exact; a result that can be infinite or NaN is an `Ext ℝ`.  Broadcasting of arrays of
different shapes is not modelled.
-/

open scoped BigOperators

namespace Verif.Stats

/-- `np.median` of the flattened data: the middle element of the sorted data, or the mean of the two
middle elements; NaN for an empty array. -/
noncomputable def median (l : List ℝ) : Ext ℝ :=
  let s := l.insertionSort (· ≤ ·)
  let n := l.length
  if n = 0 then .nan
  else if n % 2 = 1 then .fin (s.getD (n / 2) 0)
  else .fin ((s.getD (n / 2 - 1) 0 + s.getD (n / 2) 0) / 2)

/-- `mad` (stats.py:81-117).  When the median is NaN so are all deviations and their median. -/
noncomputable def mad (l : List ℝ) : Ext ℝ :=
  match median l with
  | .fin m => median (l.map fun x => |x - m|)
  | e => e

/-- `sigma_mad` (stats.py:268-304). -/
noncomputable def sigmaMad (l : List ℝ) : Ext ℝ := Ext.scalePos 1.4826 (mad l)

variable {ι : Type} [Fintype ι]

/-- `np.mean`: NaN for an empty array. -/
noncomputable def mean (x : ι → ℝ) : Ext ℝ := Ext.div (.fin (∑ i, x i)) (.fin (Fintype.card ι : ℝ))

/-- `np.max` of a whole array: an empty array raises. -/
noncomputable def arrMax (x : ι → ℝ) : Py ℝ :=
  open Classical in
  if h : (Finset.univ : Finset ι).Nonempty then .ok (Finset.univ.sup' h x) else .error .valueError

/-- `np.min` of a whole array: an empty array raises. -/
noncomputable def arrMin (x : ι → ℝ) : Py ℝ :=
  open Classical in
  if h : (Finset.univ : Finset ι).Nonempty then .ok (Finset.univ.inf' h x) else .error .valueError

/-- `mse` (stats.py:120-146), for arrays of the same shape. -/
noncomputable def mse (x y : ι → ℝ) : Ext ℝ := mean fun i => (x i - y i) ^ 2

/-- The same expression (stats.py:146) on complex arrays with at least one entry: NumPy's `** 2` is the
complex square. -/
noncomputable def mseComplex (x y : ι → ℂ) : ℂ := (∑ i, (x i - y i) ^ 2) / (Fintype.card ι : ℂ)

/-- `psnr` (stats.py:149-215): the first axis of `data1` has length `n`, `κ` indexes the other axes. -/
noncomputable def psnr {n : ℕ} {κ : Type} [Fintype κ] (x y : Fin n → κ → ℝ) (method : String)
    (maxPix : ℝ) : Py (Ext ℝ) :=
  if method = "starck" then do
    let hi ← arrMax fun p : Fin n × κ => x p.1 p.2
    let lo ← arrMin fun p : Fin n × κ => x p.1 p.2
    .ok (Ext.scalePos 20 (Ext.log10 (Ext.div (.fin ((n : ℝ) * |hi - lo|))
      (.fin (Real.sqrt (∑ p : Fin n × κ, (x p.1 p.2 - y p.1 p.2) ^ 2))))))
  else if method = "wiki" then
    .ok (Ext.sub (Ext.scalePos 20 (Ext.log10 (.fin maxPix)))
      (Ext.scalePos 10 (Ext.log10 (mse (fun p : Fin n × κ => x p.1 p.2) fun p => y p.1 p.2))))
  else .error .valueError

/-- `psnr_stack` (stats.py:218-265): `ndim1`, `ndim2` are the numbers of axes of the two inputs, the
stacks are lists of images and `zip` stops at the shorter one; `metric` is applied to the list of
values (`max_pix` keeps its default 255). -/
noncomputable def psnrStack {n : ℕ} {κ : Type} [Fintype κ] {R : Type} (ndim1 ndim2 : ℕ)
    (xs ys : List (Fin n → κ → ℝ)) (metric : List (Ext ℝ) → R) (method : String) : Py R :=
  if ndim1 ≠ 3 ∨ ndim2 ≠ 3 then .error .valueError
  else do
    let v ← (xs.zip ys).mapM fun p => psnr p.1 p.2 method 255
    .ok (metric v)

/-- `gaussian_kernel` (stats.py:21-78) after the two guards' imports: `kernel` is the array astropy's
`Gaussian2DKernel` returns, `old` says whether the installed astropy is older than 5.2.  The missing
astropy package (ImportError) is not modelled. -/
noncomputable def gaussianKernel (kernel : ι → ℝ) (norm : String) (old : Bool) : Py (ι → Ext ℝ) :=
  if norm ∉ ["max", "sum"] then .error .valueError
  else if norm = "max" then do
    let hi ← arrMax kernel
    .ok fun i => Ext.div (.fin (kernel i)) (.fin hi)
  else if old then .ok fun i => Ext.div (.fin (kernel i)) (.fin (∑ j, kernel j))
  else .ok fun i => .fin (kernel i)

end Verif.Stats
