import Verif.Core.NumpyPrim
import Mathlib.Algebra.Order.Floor.Ring
import Mathlib.Algebra.Order.Ring.Int

/-!
# Model of `src/modopt/base/transform.py`

Layouts and map shapes are pairs of natural numbers (negative entries are not modelled).  Arrays have any
rank; the combination of a shape and a layout of different lengths follows NumPy's broadcasting: a shape of
one entry is paired with both entries of the layout, other lengths raise `ValueError`.
-/

namespace Verif.Transform
open NDArray
variable {α : Type _} [Inhabited α]

/-- `cube2map` (transform.py:12-66).  The rank check is line 53, the layout check line 56, the
rows `np.hstack(data_cube[l1*e : l1*(e+1)])` lines 61-64, the final `np.vstack` line 66. -/
def cube2map (cube : NDArray α) (layout : ℕ × ℕ) : Py (NDArray α) :=
  if cube.ndim ≠ 3 then .error .valueError
  else if cube.shape.headD 0 ≠ layout.1 * layout.2 then .error .valueError
  else do
    let res ← (List.range layout.1).mapM fun e =>
      hstack (cube.slice0 (layout.2 * e) (layout.2 * (e + 1)))
    vstack res

/-- `map2cube` (transform.py:69-135).  The guard is `np.all(shape % layout)` (line 116): it raises
only when *both* remainders are non-zero.  `d_shape` is line 122, the slices lines 124-135. -/
def map2cube (m : NDArray α) (layout : ℕ × ℕ) : Py (NDArray α) :=
  match m.shape with
  | [r, c] =>
    if npMod r layout.1 ≠ 0 ∧ npMod c layout.2 ≠ 0 then .error .valueError
    else
      let d0 := r / layout.1
      let d1 := c / layout.2
      npArray ((List.range layout.1).flatMap fun i =>
        (List.range layout.2).map fun j =>
          m.slice2 (i * d0) ((i + 1) * d0) (j * d1) ((j + 1) * d1))
  | [r] =>
    if npMod r layout.1 ≠ 0 ∧ npMod r layout.2 ≠ 0 then .error .valueError
    else if layout.1 * layout.2 = 0 then npArray [] else .error .indexError
  | _ => .error .valueError

/-- `map2matrix` (transform.py:138-195).  `image_shape` (line 175) is the first entry of
`shape // layout`, used for both image axes; the loop (lines 180-193) appends the reshaped blocks. -/
def map2matrix (m : NDArray α) (layout : ℕ × ℕ) : Py (NDArray α) :=
  match m.shape with
  | [r, _] => do
    let s := r / layout.1
    let rows ← (List.range (layout.1 * layout.2)).mapM fun i =>
      (m.slice2 (s * (i / layout.2)) (s * (i / layout.2 + 1))
        (s * (npMod i layout.2)) (s * (npMod i layout.2 + 1))).reshape [s ^ 2]
    let mat ← npArray rows
    return mat.transposeAll
  | [_] =>
    if layout.1 * layout.2 = 0 then do
      let mat ← npArray []
      return mat.transposeAll
    else .error .indexError
  | _ => .error .valueError

/-- NumPy's `astype(int)` on a finite number: truncation towards zero. -/
def truncZ {K : Type _} [Ring K] [LinearOrder K] [FloorRing K] (x : K) : ℤ :=
  if 0 ≤ x then ⌊x⌋ else ⌈x⌉

/-- The loop of `matrix2map` (transform.py:241-252): writes `temp[:, :, i]` in block `i` for
`i = 0 … n-1`, over the map built so far. -/
def writeBlocks (temp : NDArray α) (s l1 : ℕ) (dm : NDArray α) : List ℕ → Py (NDArray α)
  | [] => .ok dm
  | i :: is => do
    let dm' ← dm.setSlice2 (s * (i / l1)) (s * (i / l1 + 1)) (s * npMod i l1) (s * (npMod i l1 + 1))
      (ofFn [s, s] fun idx => temp.get [idx.getD 0 0, idx.getD 1 0, i])
    writeBlocks temp s l1 dm' is

/-- `matrix2map` (transform.py:198-254).  `np.sqrt(rows).astype(int)` is the integer square root
(exact square root assumed); `layout = map_shape // image_shape`; the result is `astype(int)`.  An array with
fewer than two axes has no `shape[1]` (or no `shape[0]`): `IndexError`. -/
def matrix2map {K : Type _} [Ring K] [LinearOrder K] [FloorRing K] [Inhabited K]
    (mat : NDArray K) (mapShape : ℕ × ℕ) : Py (NDArray ℤ) :=
  match mat.shape with
  | rows :: n :: _ => do
    let s := Nat.sqrt rows
    let l1 := mapShape.2 / s
    let zeros : NDArray K := ofFn [mapShape.1, mapShape.2] fun _ => 0
    let temp ← mat.reshape [s, s, n]
    let dm ← writeBlocks temp s l1 zeros (List.range n)
    return dm.map truncZ
  | _ => .error .indexError

/-- `cube2matrix` (transform.py:257-290): reshape to `[n, prod(rest)]`, then transpose.  A 0-d array
has no `shape[0]`: `IndexError`. -/
def cube2matrix (cube : NDArray α) : Py (NDArray α) :=
  match cube.shape with
  | n :: s => do
    let m ← cube.reshape [n, s.prod]
    return m.transposeAll
  | [] => .error .indexError

/-- `matrix2cube` (transform.py:293-334): `data_matrix.T.reshape([cols, *im_shape])`.  An array
without a second axis has no `shape[1]`: `IndexError`. -/
def matrix2cube (mat : NDArray α) (imShape : List ℕ) : Py (NDArray α) :=
  match mat.shape with
  | _ :: n :: _ => mat.transposeAll.reshape (n :: imShape)
  | _ => .error .indexError

end Verif.Transform
