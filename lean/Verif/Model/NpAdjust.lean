import Verif.Core.NumpyPrim

/-!
# Model of `src/modopt/base/np_adjust.py`
-/

namespace Verif.NpAdjust
open NDArray
variable {α : Type _} [Inhabited α]

/-- `np.rot90(a, 2)` on the first two axes: both are flipped.  `ValueError` below two dimensions. -/
def rot180 (a : NDArray α) : Py (NDArray α) :=
  match a.shape with
  | r :: c :: s => .ok (ofFn (r :: c :: s) fun idx =>
      a.get ((r - 1 - idx.getD 0 0) :: (c - 1 - idx.getD 1 0) :: idx.drop 2))
  | _ => .error .valueError

/-- `rotate` (np_adjust.py:13-52). -/
def rotate (a : NDArray α) : Py (NDArray α) := rot180 a

/-- `rotate_stack` (np_adjust.py:55-97): `np.array([rotate(array) for array in input_data])`.
Iterating over a 0-d array raises `TypeError`. -/
def rotateStack (a : NDArray α) : Py (NDArray α) :=
  match a.shape with
  | n :: _ => do
    let l ← (List.range n).mapM fun k => rotate (a.index0 k)
    npArray l
  | [] => .error .typeError

/-- The kinds of `padding` arguments `pad2d` distinguishes.  A NumPy integer scalar, a float or a
string is `other`. -/
inductive PadArg
  | int (p : ℤ)
  | tuple (l : List ℤ)
  | list (l : List ℤ)
  | ndarray (l : List ℤ)
  | other
  deriving DecidableEq

/-- Lines 149-157 of `pad2d`: conversion of the argument to an array. -/
def PadArg.toArray : PadArg → Py (List ℤ)
  | .int p => .ok [p]
  | .tuple l => .ok l
  | .list l => .ok l
  | .ndarray l => .ok l
  | .other => .error .valueError

/-- `np.pad(a, ((p, p), (q, q)), "constant")`: `ValueError` for negative widths or when the array is
not 2D. -/
def npPad2 [Zero α] (a : NDArray α) (p q : ℤ) : Py (NDArray α) :=
  match a.shape with
  | [r, c] =>
    if p < 0 ∨ q < 0 then .error .valueError
    else .ok (ofFn [r + 2 * p.toNat, c + 2 * q.toNat] fun idx =>
      let i := idx.getD 0 0
      let j := idx.getD 1 0
      if p.toNat ≤ i ∧ i < p.toNat + r ∧ q.toNat ≤ j ∧ j < q.toNat + c
      then a.get [i - p.toNat, j - q.toNat] else 0)
  | _ => .error .valueError

/-- `pad2d` (np_adjust.py:100-164): conversion, `repeat` of a single width (lines 158-159), then
`padding[0]`, `padding[1]` (an empty array raises `IndexError`) and `np.pad`. -/
def pad2d [Zero α] (a : NDArray α) (padding : PadArg) : Py (NDArray α) := do
  let p ← padding.toArray
  let p := if p.length = 1 then List.replicate 2 (p.headD 0) else p
  match p with
  | x :: y :: _ => npPad2 a x y
  | _ => .error .indexError

/-- Python's `z % n` as a natural number (`n > 0`). -/
def modN (z : ℤ) (n : ℕ) : ℕ := (z % (n : ℤ)).toNat

/-- `np.roll(np.arange(n), roll)`: entry `i` is `(i - roll) mod n`. -/
def rollAxes (n : ℕ) (roll : ℤ) : List ℕ := (List.range n).map fun i : ℕ => modN ((i : ℤ) - roll) n

/-- `np.transpose(a, axes)`: axis `i` of the result is axis `axes[i]` of `a`. -/
def transposeAxes (a : NDArray α) (axes : List ℕ) : NDArray α :=
  ofFn (axes.map fun k => a.shape.getD k 0) fun idx =>
    a.get ((List.range a.ndim).map fun j => idx.getD (axes.idxOf j) 0)

/-- `fancy_transpose` (np_adjust.py:213-283). -/
def fancyTranspose (a : NDArray α) (roll : ℤ) : NDArray α :=
  transposeAxes a (rollAxes a.ndim roll)

/-- `ftr` (np_adjust.py:167-187): `fancy_transpose` with its default `roll=1`. -/
def ftr (a : NDArray α) : NDArray α := fancyTranspose a 1

/-- `ftl` (np_adjust.py:190-210). -/
def ftl (a : NDArray α) : NDArray α := fancyTranspose a (-1)

end Verif.NpAdjust
