import Verif.Core.Py
import Verif.Model.Noise
import Verif.Model.Convolve
import Mathlib.LinearAlgebra.Matrix.ConjTranspose
import Mathlib.Data.Nat.Sqrt

/-!
# Model of `src/modopt/signal/svd.py`, of `nuclear_norm` (`src/modopt/math/matrix.py`) and of
# `LowRankMatrix` (`src/modopt/opt/proximity.py`)

A two-dimensional array is a `Matrix (Fin M) (Fin N) 𝕜` with real or complex entries.  The external
decompositions `scipy.linalg.svd`, `numpy.linalg.svd` and `scipy.sparse.linalg.svds` are parameters;
the theorems assume that they return singular value decompositions.  Arithmetic is exact, except that the
rounding performed by `thresh` itself is modelled.  Warnings and the `print` of `svd_thresh` are not
modelled.
-/

namespace Verif.Svd
open Matrix Noise

variable {M N : ℕ} {𝕜 : Type} [RCLike 𝕜]

/-- The triple returned by `scipy.linalg.svd(..., full_matrices=False)`. -/
structure Dec (M N : ℕ) (𝕜 : Type) where
  u : Matrix (Fin M) (Fin (min M N)) 𝕜
  s : Fin (min M N) → ℝ
  v : Matrix (Fin (min M N)) (Fin N) 𝕜

/-- The data argument: a two-dimensional `np.ndarray`, or anything else. -/
inductive Arg (M N : ℕ) (𝕜 : Type)
  | mat (A : Matrix (Fin M) (Fin N) 𝕜)
  | other

/-- `calculate_svd` (svd.py:78-108). -/
def calculateSvd (svd : Matrix (Fin M) (Fin N) 𝕜 → Dec M N 𝕜) : Arg M N 𝕜 → Py (Dec M N 𝕜)
  | .mat A => .ok (svd A)
  | .other => .error .typeError

/-- The `n_pc` argument of `svd_thresh`. -/
inductive NPc
  | none
  | int (k : ℤ)
  | str (s : String)
  | other
  deriving DecidableEq

/-- The validity test (svd.py:148-151). -/
def NPc.invalid : NPc → Bool
  | .none => false
  | .int k => decide (k ≤ 0)
  | .str s => decide (s ≠ "all")
  | .other => true

/-- NumPy indexing of a one-dimensional array of length `r`: negative indices count from the end. -/
def npIndex {r : ℕ} (s : Fin r → ℝ) (i : ℤ) : Py ℝ :=
  if h : 0 ≤ (if i < 0 then i + r else i) ∧ (if i < 0 then i + r else i) < r then
    .ok (s ⟨(if i < 0 then i + r else i).toNat, by omega⟩)
  else .error .indexError

/-- The number of components (svd.py:162-171).  `auto` is the outcome of `find_n_pc(u_vec, 0.1)`; it is a
NumPy integer, so the clamp, which tests for a Python `int`, does not apply to it. -/
def resolveNPc (r : ℕ) (auto : Py ℕ) : NPc → Py ℤ
  | .none => do
    let k ← auto
    .ok (k : ℤ)
  | .int k => .ok (if k ≥ r then r else k)
  | .str s => if s = "all" then .ok r else .error .typeError
  | .other => .error .typeError

/-- The threshold (svd.py:159-173). -/
def thresholdFor {r : ℕ} (s : Fin r → ℝ) (auto : Py ℕ) (nPc : NPc) :
    Option (Fin r → ℝ) → Py (Fin r → ℝ)
  | some t => .ok t
  | none => do
    let k ← resolveNPc r auto nPc
    let c ← npIndex s (k - 1)
    .ok fun _ => c

/-- `svd_thresh` (svd.py:111-192). -/
noncomputable def svdThresh (svd : Matrix (Fin M) (Fin N) 𝕜 → Dec M N 𝕜)
    (auto : Matrix (Fin M) (Fin (min M N)) 𝕜 → Py ℕ) (x : Arg M N 𝕜)
    (threshold : Option (Fin (min M N) → ℝ)) (nPc : NPc) (threshType : String) :
    Py (Matrix (Fin M) (Fin N) 𝕜) :=
  if nPc.invalid then .error .valueError
  else do
    let d ← calculateSvd svd x
    let t ← thresholdFor d.s (auto d.u) nPc threshold
    let sNew ← thresh d.s t threshType
    .ok (d.u * (diagonal (fun i => (sNew i : 𝕜)) * d.v))

/-! ## find_n_pc -/

/-- `elem.reshape(array_shape)` for the column `l` of `u_vec` (svd.py:56-63). -/
def pcImage {r : ℕ} (u : Matrix (Fin M) (Fin r) ℝ) (a : ℕ) (l : Fin r) : NDArray ℝ :=
  NDArray.ofFn [a, a] fun idx =>
    match idx with
    | [i, j] => if h : i * a + j < M then u ⟨i * a + j, h⟩ l else 0
    | _ => 0

/-- The autocorrelation of a column (svd.py:57-63): `convolve` with the default method. -/
noncomputable def pcAuto {r : ℕ} (u : Matrix (Fin M) (Fin r) ℝ) (a : ℕ) (l : Fin r) :
    Py (NDArray ℝ) := do
  let k ← NpAdjust.rot180 (pcImage u a l)
  Convolve.convolve (fun x _ => x) true (pcImage u a l) k "scipy"

/-- The test of one autocorrelation (svd.py:69-72). -/
noncomputable def pcTest (factor : ℝ) (a : ℕ) (w : NDArray ℝ) : Bool :=
  decide (w.get [a / 2, a / 2] ^ 2 ≤ factor * (w.data.map fun z => z ^ 2).sum)

/-- `find_n_pc` (svd.py:19-75).  `np.sqrt(n) % 1` is non-zero exactly when `n` is not a perfect square
(exact arithmetic). -/
noncomputable def findNPc {r : ℕ} (u : Matrix (Fin M) (Fin r) ℝ) (factor : ℝ) : Py ℕ :=
  if Nat.sqrt M * Nat.sqrt M ≠ M then .error .valueError
  else do
    let l ← (List.finRange r).mapM fun l => pcAuto u (Nat.sqrt M) l
    .ok (l.filter (pcTest factor (Nat.sqrt M))).length

/-! ## svd_thresh_coef_fast -/

/-- The triple returned by `svds(input_data, k)`: `k` singular triplets. -/
structure PartialDec (M N : ℕ) (𝕜 : Type) where
  k : ℕ
  u : Matrix (Fin M) (Fin k) 𝕜
  s : Fin k → ℝ
  v : Matrix (Fin k) (Fin N) 𝕜

/-- `s_values[0]`. -/
noncomputable def PartialDec.first (d : PartialDec M N 𝕜) : ℝ := if h : 0 < d.k then d.s ⟨0, h⟩ else 0

/-- The loop of `svd_thresh_coef_fast` (svd.py:229-232) with `fuel` iterations; `none` means that it is
still running.  `svds` with the default solver raises `ValueError` unless
`1 ≤ k ≤ min(shape) - 1`. -/
noncomputable def fastLoop (svds : Matrix (Fin M) (Fin N) 𝕜 → ℕ → PartialDec M N 𝕜)
    (A : Matrix (Fin M) (Fin N) 𝕜) (t : ℝ) (extra : ℤ) : ℕ → ℤ → Option (Py (PartialDec M N 𝕜))
  | 0, _ => none
  | fuel + 1, n =>
    if ¬ (1 ≤ n ∧ n ≤ (min M N : ℤ) - 1) then some (.error .valueError)
    else if (svds A n.toNat).first ≤ t ∨ n = (min M N : ℤ) - 1 then some (.ok (svds A n.toNat))
    else fastLoop svds A t extra fuel (min (n + extra) (min M N))

/-- The product `np.dot(u[:, -rank:] * s[-rank:], v[-rank:, :])` (svd.py:240-246): for `rank = 0` the slice
is the whole array. -/
noncomputable def lastProduct (d : PartialDec M N 𝕜) (s : Fin d.k → ℝ) (rank : ℕ) :
    Matrix (Fin M) (Fin N) 𝕜 :=
  Matrix.of fun i j => ∑ l : Fin d.k, if rank = 0 ∨ d.k - rank ≤ l then d.u i l * (s l : 𝕜) * d.v l j else 0

open Classical in
/-- The end of `svd_thresh_coef_fast` (svd.py:234-250). -/
noncomputable def fastFinish (d : PartialDec M N 𝕜) (t : ℝ) (threshType : String) :
    Py (Matrix (Fin M) (Fin N) 𝕜 × ℕ) := do
  let sNew ← thresh d.s (fun _ => t) threshType
  let rank := (Finset.univ.filter fun l => sNew l ≠ 0).card
  .ok (lastProduct d sNew rank, rank)

/-- `svd_thresh_coef_fast` (svd.py:195-250) for a scalar threshold. -/
noncomputable def svdThreshCoefFast (svds : Matrix (Fin M) (Fin N) 𝕜 → ℕ → PartialDec M N 𝕜)
    (A : Matrix (Fin M) (Fin N) 𝕜) (t : ℝ) (nVals extra : ℤ) (threshType : String) (fuel : ℕ) :
    Option (Py (Matrix (Fin M) (Fin N) 𝕜 × ℕ)) :=
  (fastLoop svds A t extra fuel (if nVals = -1 then (min M N : ℤ) - 1 else nVals)).map fun d => do
    let d ← d
    fastFinish d t threshType

/-! ## svd_thresh_coef -/

/-- The `threshold` argument of `svd_thresh_coef`: a Python float, or an array with the shape of the
coefficient matrix. -/
inductive CoefThreshold (M N : ℕ)
  | scalar (t : ℝ)
  | array (t : Matrix (Fin (min M N)) (Fin N) ℝ)

/-- The threshold at a position. -/
def CoefThreshold.at : CoefThreshold M N → Fin (min M N) → Fin N → ℝ
  | .scalar t, _, _ => t
  | .array t, i, j => t i j

/-- What the caller's threshold object contains after `threshold *= array` (svd.py:296): a float is
immutable, an array is overwritten. -/
def CoefThreshold.imul (c : CoefThreshold M N) (f : Fin (min M N) → ℝ) : CoefThreshold M N :=
  match c with
  | .scalar t => .scalar t
  | .array t => .array (Matrix.of fun i j => t i j * f i)

/-- The norms of the images of the left singular vectors (svd.py:290-294).  `operator` maps the cube of
singular-vector images (one flattened image per row) to a list of arrays, each given by its entries. -/
noncomputable def coefNorms (operator : Matrix (Fin (min M N)) (Fin M) 𝕜 → List (List 𝕜))
    (u : Matrix (Fin M) (Fin (min M N)) 𝕜) : List ℝ :=
  (operator uᵀ).map fun e => Real.sqrt ((e.map fun z => ‖z‖ ^ 2).sum)

/-- The thresholding of the coefficients once the norms `ti` are known (svd.py:296-305). -/
noncomputable def coefApply (d : Dec M N 𝕜) (ti : List ℝ) (threshold : CoefThreshold M N)
    (threshType : String) : Py (Matrix (Fin M) (Fin N) 𝕜) := do
  let aNew ← thresh (fun p : Fin (min M N) × Fin N => (diagonal (fun i => (d.s i : 𝕜)) * d.v) p.1 p.2)
    (fun p => threshold.at p.1 p.2 * ti.getD p.1 0) threshType
  .ok (d.u * Matrix.of fun i j => aNew (i, j))

/-- `svd_thresh_coef` (svd.py:253-305): the result, and the content of the caller's threshold object
afterwards.  `operator = none` is a non-callable.  `matrix2cube` needs a square number of rows, and the
`reshape` of the repeated norms needs one norm per singular value (both `ValueError`). -/
noncomputable def svdThreshCoef (svd : Matrix (Fin M) (Fin N) 𝕜 → Dec M N 𝕜) (x : Arg M N 𝕜)
    (operator : Option (Matrix (Fin (min M N)) (Fin M) 𝕜 → List (List 𝕜)))
    (threshold : CoefThreshold M N) (threshType : String) :
    Py (Matrix (Fin M) (Fin N) 𝕜) × CoefThreshold M N :=
  match operator with
  | none => (.error .typeError, threshold)
  | some op =>
    match calculateSvd svd x with
    | .error e => (.error e, threshold)
    | .ok d =>
      if Nat.sqrt M * Nat.sqrt M ≠ M then (.error .valueError, threshold)
      else if (coefNorms op d.u).length * N ≠ min M N * N then (.error .valueError, threshold)
      else
        (coefApply d (coefNorms op d.u) threshold threshType,
          threshold.imul fun i => (coefNorms op d.u).getD i 0)

/-! ## nuclear_norm -/

/-- `nuclear_norm` (matrix.py:85-120). -/
noncomputable def nuclearNorm (svd : Matrix (Fin M) (Fin N) 𝕜 → Dec M N 𝕜)
    (A : Matrix (Fin M) (Fin N) 𝕜) : ℝ := ∑ i, (svd A).s i

/-! ## LowRankMatrix -/

/-- The attributes of a `LowRankMatrix` object (proximity.py:281-295). -/
structure LowRank (M N : ℕ) (𝕜 : Type) where
  thresh : ℝ
  threshType : String
  lowrType : String
  operator : Option (Matrix (Fin (min M N)) (Fin M) 𝕜 → List (List 𝕜))
  rank : Option ℤ

/-- `cube2matrix` on a stack of `N` images of `M` pixels, given by their flattened pixels (see
`Verif.Transform.cube2matrix` for the model on arrays): images become columns. -/
def toMatrix (x : Fin N → Fin M → 𝕜) : Matrix (Fin M) (Fin N) 𝕜 := Matrix.of fun i k => x k i

/-- `matrix2cube` back to the shape of the input. -/
def toCube (A : Matrix (Fin M) (Fin N) 𝕜) : Fin N → Fin M → 𝕜 := fun k i => A i k

/-- `rank or self.rank` (proximity.py:335): zero and `None` are false. -/
def rankOr (rank self : Option ℤ) : Option ℤ :=
  match rank with
  | some 0 => self
  | none => self
  | some k => some k

/-- `LowRankMatrix._op_method` (proximity.py:297-352): the outcome (`none`: still running after `fuel`
iterations of the loop of the fast routine) and the object afterwards. -/
noncomputable def lowRankOp (svd : Matrix (Fin M) (Fin N) 𝕜 → Dec M N 𝕜)
    (auto : Matrix (Fin M) (Fin (min M N)) 𝕜 → Py ℕ)
    (svds : Matrix (Fin M) (Fin N) 𝕜 → ℕ → PartialDec M N 𝕜) (fuel : ℕ)
    (o : LowRank M N 𝕜) (x : Fin N → Fin M → 𝕜) (c : ℝ) (rank : Option ℤ) :
    Option (Py (Fin N → Fin M → 𝕜)) × LowRank M N 𝕜 :=
  if o.lowrType = "standard" ∧ o.rank = none ∧ rank = none then
    (some ((svdThresh svd auto (.mat (toMatrix x)) (some fun _ => o.thresh * c) .none o.threshType).map
      toCube), o)
  else if o.lowrType = "standard" then
    match rankOr rank o.rank with
    | none => (some (.error .typeError), o)
    | some n =>
      match svdThreshCoefFast svds (toMatrix x) (o.thresh * c) n 5 o.threshType fuel with
      | none => (none, o)
      | some (.error e) => (some (.error e), o)
      | some (.ok (y, k)) => (some (.ok (toCube y)), { o with rank := some (k : ℤ) })
  else if o.lowrType = "ngole" then
    (some ((svdThreshCoef svd (.mat (toMatrix x)) o.operator (.scalar (o.thresh * c)) o.threshType).1.map
      toCube), o)
  else (some (.error .valueError), o)

/-- `LowRankMatrix._cost_method` (proximity.py:354-378). -/
noncomputable def lowRankCost (svd : Matrix (Fin M) (Fin N) 𝕜 → Dec M N 𝕜) (o : LowRank M N 𝕜)
    (x : Fin N → Fin M → 𝕜) : ℝ := o.thresh * nuclearNorm svd (toMatrix x)

end Verif.Svd
