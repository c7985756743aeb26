import Verif.Core.Py
import Mathlib.Data.Fin.Tuple.Sort
import Mathlib.Data.Finset.Sort
import Mathlib.Analysis.RCLike.Basic

/-!
# Model of `KSupportNorm` (`src/modopt/opt/proximity.py:892-1340`)

The data are the flattened input, a vector `Fin d → 𝕜`; the final `reshape` is a relabelling and is not
modelled.  `k` is a Python integer.  Arithmetic is exact; the only infinity that arises (a division by a
zero slope) is modelled.  Warnings and printing are not modelled.
-/

namespace Verif.KSupport

variable {d : ℕ} {𝕜 : Type} [RCLike 𝕜]

/-- `sys.float_info.epsilon`. -/
noncomputable def eps : ℝ := 2⁻¹ ^ 52

/-- The attributes of the object. -/
structure Obj where
  beta : ℝ
  k : ℕ

/-- `KSupportNorm.__init__` with the setter of `k_value` (proximity.py:938-955). -/
noncomputable def init (beta : ℝ) (k : ℤ) : Py Obj :=
  if k < 1 then .error .valueError else .ok ⟨beta, k.toNat⟩

/-- The value of `alpha`: a number or `inf`. -/
inductive Alpha
  | fin (a : ℝ)
  | inf

open Classical in
/-- One entry of `_compute_theta` (proximity.py:957-999) with `b = beta * extra_factor`, for the modulus `r`
of the entry.  For an infinite `alpha` the product `alpha * 0` is NaN, which becomes zero, and
`inf * False` is NaN too. -/
noncomputable def theta (b : ℝ) (alpha : Alpha) (r : ℝ) : ℝ :=
  match alpha with
  | .fin a => (a * r - b) * (if a * r - b ≤ 1 ∧ a * r - b ≥ 0 then 1 else 0) + (if a * r > b + 1 then 1 else 0)
  | .inf => if r > 0 then 1 else 0

/-- `_compute_theta(...).sum()`. -/
noncomputable def sumTheta (b : ℝ) (a : ℝ) (x : Fin d → 𝕜) : ℝ := ∑ i, theta b (.fin a) ‖x i‖

/-- `_interpolate` (proximity.py:1001-1033).  The sums are NumPy floats, so a zero slope gives `inf`. -/
noncomputable def interpolate (k : ℕ) (alpha0 alpha1 sum0 sum1 : ℝ) : Alpha :=
  if sum0 = k then .fin alpha0
  else if sum1 = k then .fin alpha1
  else
    let slope := (sum1 - sum0) / (alpha1 - alpha0)
    let b := sum0 - slope * alpha0
    if slope = 0 then .inf else .fin ((k - b) / slope)

/-- The particular case of the loop (proximity.py:1092-1128): the midpoint and the `found` flag.  The test
`(first_idx - last_idx) in {1, 2}` is false because the loop runs only while `first_idx <= last_idx`. -/
noncomputable def particular (al : List ℝ) (S : ℝ → ℝ) (k : ℕ) (first last mid : ℕ) : ℕ × Bool :=
  let s0 := S (al.getD first 0)
  let s1 := S (al.getD last 0)
  let r : ℕ × Bool := if |s0 - k| ≤ 1 / 10000 then (first, true) else (mid, false)
  if |s1 - k| ≤ 1 / 10000 then (last - 1, true) else r

/-- The loop of `_binary_search` (proximity.py:1088-1150) with `n` iterations left.  The result is the tuple
`(alpha[i], alpha[i+1], sum0, sum1)`; leaving the loop without success raises `ValueError`. -/
noncomputable def searchLoop (al : List ℝ) (S : ℝ → ℝ) (k : ℕ) :
    ℕ → ℕ → ℕ → ℕ → Py (ℝ × ℝ × ℝ × ℝ)
  | 0, _, _, _ => .error .valueError
  | n + 1, first, last, prev =>
    if ¬ first ≤ last then .error .valueError
    else
      let m : ℕ × Bool := if prev = (first + last) / 2 then particular al S k first last ((first + last) / 2)
        else ((first + last) / 2, false)
      if al.length ≤ m.1 + 1 then .error .indexError
      else
        let sum0 := S (al.getD m.1 0)
        let sum1 := S (al.getD (m.1 + 1) 0)
        let out := (al.getD m.1 0, al.getD (m.1 + 1) 0, sum0, sum1)
        if sum0 ≤ k ∧ k ≤ sum1 then .ok out
        else if m.2 then .ok out
        else if sum1 < k then searchLoop al S k n m.1 last m.1
        else if sum0 > k then searchLoop al S k n first m.1 m.1
        else searchLoop al S k n first last m.1

/-- `_binary_search` (proximity.py:1035-1165).  If the largest `alpha` does not reach `k` the sums returned
are those of the first and of the last `alpha`. -/
noncomputable def binarySearch (al : List ℝ) (S : ℝ → ℝ) (k : ℕ) : Py (ℝ × ℝ × ℝ × ℝ) :=
  if al = [] then .error .indexError
  else
    let sum0 := S (al.getD 0 0)
    let sum1 := S (al.getD (al.length - 1) 0)
    if sum0 ≥ k then
      if al.length ≤ 1 then .error .indexError else .ok (al.getD 0 0, al.getD 1 0, sum0, sum1)
    else if sum1 ≤ k then
      .ok (al.getD (al.length - 2) 0, al.getD (al.length - 1) 0, sum0, sum1)
    else searchLoop al S k al.length 0 (al.length - 1) 0

open Classical in
/-- The candidate values `np.sort(np.unique(alpha))` (proximity.py:1188-1196); `e` is the regularisation added
to the moduli. -/
noncomputable def alphas (e b : ℝ) (x : Fin d → 𝕜) : List ℝ :=
  (Finset.univ.image (fun i => b / (‖x i‖ + e)) ∪ Finset.univ.image (fun i => (b + 1) / (‖x i‖ + e))).sort
    (· ≤ ·)

/-- `_find_alpha` (proximity.py:1167-1206). -/
noncomputable def findAlpha (e b : ℝ) (k : ℕ) (x : Fin d → 𝕜) : Py Alpha := do
  let q ← binarySearch (alphas e b x) (fun a => sumTheta b a x) k
  .ok (interpolate k q.1 q.2.1 q.2.2.1 q.2.2.2)

/-- The last step of `_op_method` (proximity.py:1242-1246); `np.nan_to_num` turns `0 / 0` into zero. -/
noncomputable def applyTheta (b : ℝ) (x : Fin d → 𝕜) (th : Fin d → ℝ) (i : Fin d) : 𝕜 :=
  x i * (th i : 𝕜) / ((th i + b : ℝ) : 𝕜)

/-- `_op_method` (proximity.py:1208-1246): the outcome and the object afterwards, with the regularisation `e`
as a parameter.  `theta` is computed without `extra_factor`. -/
noncomputable def opReg (e : ℝ) (o : Obj) (x : Fin d → 𝕜) (c : ℝ) : Py (Fin d → 𝕜) × Obj :=
  let o' : Obj := if o.k > d then { o with k := d } else o
  ((do
    let alpha ← findAlpha e (o.beta * c) o'.k x
    .ok (applyTheta (o.beta * c) x fun i => theta (o.beta * 1) alpha ‖x i‖)), o')

/-- `_op_method` as in the code. -/
noncomputable def op (o : Obj) (x : Fin d → 𝕜) (c : ℝ) : Py (Fin d → 𝕜) × Obj := opReg eps o x c

/-! ## cost -/

/-- The moduli in non-increasing order, as a sequence padded with zeros (proximity.py:1328-1330). -/
noncomputable def sortedAbs (x : Fin d → 𝕜) (i : ℕ) : ℝ :=
  if h : i < d then ‖x (Tuple.sort (fun j => ‖x j‖) (Fin.rev ⟨i, h⟩))‖ else 0

/-- `sorted_data[q:].sum()` for data of length `d`. -/
def tail (d : ℕ) (s : ℕ → ℝ) (q : ℕ) : ℝ := ∑ j ∈ Finset.Ico q d, s j

/-- The loop of `_find_q` (proximity.py:1289-1305) with `n` iterations left; `q` is the current `q_val`. -/
noncomputable def findQLoop (d : ℕ) (s : ℕ → ℝ) (k : ℕ) : ℕ → ℕ → ℕ → ℕ → Py ℕ
  | 0, _, _, q => .ok q
  | n + 1, first, last, q =>
    if ¬ (first ≤ last ∧ last < k) then .ok q
    else
      let m := (first + last) / 2
      let l1 := tail d s m / ((k : ℝ) - m)
      if d ≤ m + 1 then .error .indexError
      else if s (m + 1) ≤ l1 ∧ l1 ≤ s m then .ok m
      else findQLoop d s k n (if l1 ≤ s (m + 1) then m else first) (if s m ≤ l1 then m else last) m

/-- `_find_q` (proximity.py:1248-1307). -/
noncomputable def findQ (d : ℕ) (s : ℕ → ℝ) (k : ℕ) : Py ℕ :=
  if d = 0 then .error .indexError
  else if tail d s 0 / k ≥ s 0 then .ok 0
  else if d ≤ k - 1 then .error .indexError
  else if tail d s (k - 1) ≤ s (k - 1) then .ok (k - 1)
  else findQLoop d s k k 0 (k - 1) ((k - 1) / 2)

/-- `_cost_method` (proximity.py:1309-1340), for `k ≥ 1` (after a call of `op` on empty data `k` is zero and the
divisions below give infinities, which are not modelled). -/
noncomputable def cost (o : Obj) (x : Fin d → 𝕜) : Py ℝ := do
  let q ← findQ d (sortedAbs x) o.k
  .ok (((∑ j ∈ Finset.range (min q d), sortedAbs x j ^ 2) * (1 / 2)
    + tail d (sortedAbs x) q ^ 2 / ((o.k : ℝ) - q)) * o.beta)

end Verif.KSupport
