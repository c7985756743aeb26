import Verif.Core.Py
import Mathlib.Analysis.RCLike.Basic
import Mathlib.Data.Matrix.Mul
import Mathlib.Analysis.Real.Sqrt
import Mathlib.Algebra.Order.Floor.Ring
import Mathlib.Data.Rat.Floor

/-!
# Model of `src/modopt/math/matrix.py`

`gram_schmidt`, `project`, `rot_matrix`, `rotate` and `PowerMethod`.  Exact arithmetic; a division by zero, which
gives `nan` in NumPy, gives `0` here, so theorems about values exclude it explicitly.
`nuclear_norm` is in `Verif.Model.Svd`.
-/

namespace Verif.Mat

section gram
variable {ι 𝕜 : Type} [Fintype ι] [RCLike 𝕜]

/-- `np.inner` of two vectors: no complex conjugation. -/
def inner (u v : ι → 𝕜) : 𝕜 := ∑ i, u i * v i

/-- `project` (matrix.py:123-161). -/
noncomputable def project (u v : ι → 𝕜) : ι → 𝕜 := (inner v u / inner u u) • u

/-- `np.linalg.norm(u, 2)`. -/
noncomputable def norm2 (u : ι → 𝕜) : ℝ := Real.sqrt (∑ i, ‖u i‖ ^ 2)

/-- One pass of the loop (matrix.py:65-71): append the vector minus its projections on the earlier ones. -/
noncomputable def gramStep (us : List (ι → 𝕜)) (v : ι → 𝕜) : List (ι → 𝕜) :=
  us ++ [if us = [] then v else v - (us.map fun u => project u v).sum]

/-- The orthogonal vectors `u_vec` (matrix.py:62-74). -/
noncomputable def gramU (rows : List (ι → 𝕜)) : List (ι → 𝕜) := rows.foldl gramStep []

/-- The normalised vectors `e_vec` (matrix.py:72, 75). -/
noncomputable def gramE (rows : List (ι → 𝕜)) : List (ι → 𝕜) :=
  (gramU rows).map fun u => ((norm2 u : 𝕜)⁻¹) • u

/-- What `gram_schmidt` returns. -/
inductive GramOut (V : Type)
  | one (l : List V)
  | both (u e : List V)

/-- `gram_schmidt` (matrix.py:16-82). -/
noncomputable def gramSchmidt (rows : List (ι → 𝕜)) (opt : String) : Py (GramOut (ι → 𝕜)) :=
  if opt ≠ "orthonormal" ∧ opt ≠ "orthogonal" ∧ opt ≠ "both" then .error .valueError
  else if opt = "orthonormal" then .ok (.one (gramE rows))
  else if opt = "orthogonal" then .ok (.one (gramU rows))
  else .ok (.both (gramU rows) (gramE rows))

end gram

section rotate

/-- Round half to even, as `np.around` does. -/
noncomputable def roundEven (x : ℝ) : ℤ :=
  let n := ⌊x⌋
  if x - n < 1 / 2 then n
  else if 1 / 2 < x - n then n + 1
  else if n % 2 = 0 then n else n + 1

/-- `np.around(x, 10)`. -/
noncomputable def around10 (x : ℝ) : ℝ := roundEven (x * 10 ^ 10) / 10 ^ 10

/-- Conversion to `int`: truncation towards zero. -/
noncomputable def trunc (x : ℝ) : ℤ := if 0 ≤ x then ⌊x⌋ else ⌈x⌉

/-- `np.dot(index, rot_matrix(angle))` for one pair of indices, with `c`, `s` the computed cosine and sine
(matrix.py:198-204, 251), converted to `int`. -/
noncomputable def turn (c s : ℝ) (a b : ℤ) : ℤ × ℤ :=
  (trunc (a * around10 c + b * around10 s), trunc (a * around10 (-s) + b * around10 c))

/-- NumPy indexing of an axis of length `n`: negative indices count from the end. -/
def pyIndex (n : ℕ) (k : ℤ) : Py ℕ :=
  if 0 ≤ k ∧ k < n then .ok k.toNat
  else if -(n : ℤ) ≤ k ∧ k < 0 then .ok (k + n).toNat
  else .error .indexError

/-- `new_index[new_index >= n] -= n` (matrix.py:252). -/
def wrapHigh (n : ℕ) (k : ℤ) : ℤ := if (n : ℤ) ≤ k then k - n else k

/-- Position read for output pixel `(i, j)` (matrix.py:245-254). -/
noncomputable def source (n : ℕ) (c s : ℝ) (i j : ℕ) : Py (ℕ × ℕ) :=
  let shift : ℤ := ((n : ℤ) - 1) / 2
  let p := turn c s (i - shift) (j - shift)
  match pyIndex n (wrapHigh n (p.1 + shift)) with
  | .error e => .error e
  | .ok r => match pyIndex n (wrapHigh n (p.2 + shift)) with
    | .error e => .error e
    | .ok q => .ok (r, q)

/-- `rotate` (matrix.py:207-254) of an `r × q` matrix given by its entries; `c`, `s` are the computed cosine and
sine of the angle.  The result lists the rows.  (An empty matrix makes the subtraction of `shift` fail with
`ValueError`.) -/
noncomputable def rotate {α : Type} (r q : ℕ) (m : ℕ → ℕ → α) (c s : ℝ) : Py (List (List α)) :=
  if r ≠ q then .error .valueError
  else if r = 0 then .error .valueError
  else (List.range r).mapM fun i => (List.range r).mapM fun j =>
    match source r c s i j with
    | .error e => .error e
    | .ok p => .ok (m p.1 p.2)

end rotate

section power
variable {E : Type} [NormedAddCommGroup E] [NormedSpace ℝ E]

/-- State of the loop of `get_spec_rad`: `x_old` (`none` once a division by a zero norm has made it `nan`),
`x_old_norm`, and the last `x_new_norm` (`none` is `nan`). -/
structure PowSt (E : Type) where
  xOld : Option E
  oldNorm : Option ℝ
  newNorm : Option ℝ

open Classical in
/-- The loop (matrix.py:357-377), `n` passes left.  Comparisons with `nan` are false. -/
noncomputable def powLoop (op : E → E) (tol : ℝ) : ℕ → PowSt E → PowSt E
  | 0, s => s
  | n + 1, s =>
    match s.xOld with
    | none => powLoop op tol n ⟨none, none, none⟩
    | some x =>
      let y := op x
      let r := ‖y‖
      let y' : Option E := if r = 0 then none else some (r⁻¹ • y)
      match s.oldNorm with
      | none => powLoop op tol n ⟨y', some r, some r⟩
      | some o =>
        if |r - o| < tol then ⟨some x, some o, some r⟩
        else powLoop op tol n ⟨y', some r, some r⟩

/-- `get_spec_rad` (matrix.py:332-380) started from the random array `x0`; the result is `(spec_rad,
inv_spec_rad)`, `none` for `nan`.  Without a pass through the loop `x_new_norm` is unbound. -/
noncomputable def specRad (op : E → E) (x0 : E) (tol : ℝ) (maxIter : ℕ) (extra : ℝ) : Py (Option (ℝ × ℝ)) :=
  if maxIter = 0 then .error .unboundLocalError
  else
    let x := if ‖x0‖ = 0 then none else some (‖x0‖⁻¹ • x0)
    let s := powLoop op tol maxIter ⟨x, some ‖x0‖, none⟩
    .ok (s.newNorm.map fun r => (r * extra, 1 / (r * extra)))

/-- The random number generator: a seed (or nothing) and the entropy of the environment give the array. -/
structure Rng (E : Type) where
  seeded : ℕ → E
  fresh : ℕ → E

/-- `PowerMethod.__init__` and `_set_initial_x` (matrix.py:312, 317-330): the argument `rng` is replaced by
`None`, so the initial array always comes from the environment's entropy. -/
def initialX (g : Rng E) (_rng : Option ℕ) (entropy : ℕ) : E := g.fresh entropy

end power

end Verif.Mat
