import Verif.Model.NpAdjust
import Mathlib.Algebra.Ring.Defs

/-!
# Model of `src/modopt/math/convolve.py`, of the convolution part of `src/modopt/signal/wavelet.py`
# and of `WaveletConvolve` (`src/modopt/opt/linear/wavelet.py`)

`scipy.signal.fftconvolve(x, k, mode="same")` is modelled by the exact linear convolution with zero
padding it computes (FFT rounding is not modelled); `astropy.convolution.convolve_fft` is a parameter.
-/

namespace Verif.Convolve
open NDArray NpAdjust

variable {K : Type} [CommRing K] [Inhabited K]

/-- The kernel extended by zero to all integer positions. -/
def kerAt (k : NDArray K) (q : List ℤ) : K :=
  if q.length = k.shape.length ∧ (List.zipWith (fun (i : ℤ) (n : ℕ) => decide (0 ≤ i ∧ i < n)) q k.shape).all id
  then k.get (q.map Int.toNat) else 0

/-- Position in the kernel used for output `i` and input `p`: `scipy` crops the full convolution from
`(size - 1) // 2` on every axis. -/
def kerPos : List ℕ → List ℕ → List ℕ → List ℤ
  | i :: is, p :: ps, n :: ns => ((i : ℤ) + ((n - 1) / 2 : ℕ) - (p : ℤ)) :: kerPos is ps ns
  | _, _, _ => []

/-- `scipy.signal.fftconvolve(x, k, mode="same")`. -/
def fftSame (x k : NDArray K) : NDArray K :=
  if x.shape.prod = 0 ∨ k.shape.prod = 0 then ⟨[0], []⟩
  else ofFn x.shape fun idx =>
    ((allIdx x.shape).map fun p => x.get p * kerAt k (kerPos idx p k.shape)).sum

/-- `convolve` (convolve.py:31-100); `astropy` is the external routine and `hasAstropy` tells whether
it could be imported. -/
def convolve (astropy : NDArray K → NDArray K → NDArray K) (hasAstropy : Bool) (x k : NDArray K)
    (method : String) : Py (NDArray K) :=
  if x.ndim ≠ k.ndim then .error .valueError
  else if method ∉ ["astropy", "scipy"] then .error .valueError
  else
    let method := if !hasAstropy then "scipy" else method
    if method = "astropy" then .ok (astropy x k) else .ok (fftSame x k)

/-- Iterating over an array: its slices along the first axis (a 0-d array raises `TypeError`). -/
def slices (a : NDArray K) : Py (List (NDArray K)) :=
  match a.shape with
  | n :: _ => .ok ((List.range n).map a.index0)
  | [] => .error .typeError

/-- `convolve_stack` (convolve.py:103-162); `zip` stops at the shorter stack. -/
def convolveStack (astropy : NDArray K → NDArray K → NDArray K) (hasAstropy : Bool)
    (x k : NDArray K) (rotKernel : Bool) (method : String) : Py (NDArray K) := do
  let k ← (if rotKernel then rotateStack k else .ok k : Py (NDArray K))
  let xs ← slices x
  let ks ← slices k
  let l ← (xs.zip ks).mapM fun p => convolve astropy hasAstropy p.1 p.2 method
  npArray l

/-- `np.sum(list, axis=0)`. -/
def npSum0 (l : List (NDArray K)) : Py (NDArray K) := do
  let a ← npArray l
  .ok (ofFn a.shape.tail fun idx => ((List.range l.length).map fun k => a.get (k :: idx)).sum)

/-- `filter_convolve` (signal/wavelet.py:254-313). -/
def filterConvolve (astropy : NDArray K → NDArray K → NDArray K) (hasAstropy : Bool)
    (x filters : NDArray K) (filterRot : Bool) (method : String) : Py (NDArray K) :=
  if filterRot then do
    let rk ← rotateStack filters
    let xs ← slices x
    let ks ← slices rk
    let l ← (xs.zip ks).mapM fun p => convolve astropy hasAstropy p.1 p.2 method
    npSum0 l
  else do
    let ks ← slices filters
    let l ← ks.mapM fun f => convolve astropy hasAstropy x f method
    npArray l

/-- `filter_convolve_stack` (signal/wavelet.py:316-367). -/
def filterConvolveStack (astropy : NDArray K → NDArray K → NDArray K) (hasAstropy : Bool)
    (x filters : NDArray K) (filterRot : Bool) (method : String) : Py (NDArray K) := do
  let xs ← slices x
  let l ← xs.mapM fun elem => filterConvolve astropy hasAstropy elem filters filterRot method
  npArray l

/-- `WaveletConvolve(filters).op` (opt/linear/wavelet.py:48-53), filters of floating type. -/
def waveletOp (astropy : NDArray K → NDArray K → NDArray K) (hasAstropy : Bool) (filters : NDArray K)
    (method : String) (x : NDArray K) : Py (NDArray K) :=
  filterConvolveStack astropy hasAstropy x filters false method

/-- `WaveletConvolve(filters).adj_op` (opt/linear/wavelet.py:54-60). -/
def waveletAdjOp (astropy : NDArray K → NDArray K → NDArray K) (hasAstropy : Bool)
    (filters : NDArray K) (method : String) (c : NDArray K) : Py (NDArray K) :=
  filterConvolveStack astropy hasAstropy c filters true method

end Verif.Convolve
