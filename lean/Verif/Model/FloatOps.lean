import Verif.Core.Rounding
import Verif.Model.Proximity
import Mathlib.Analysis.Real.Sqrt

/-!
# Floating-point models

The entry-wise computations of the package on real data in floating-point arithmetic: the same operations in the same
order as in the code, each result rounded by `R.fl`.  Overflow, division by zero, infinities and NaN are not modelled;
the theorems assume positive denominators.  `x ** 2` is modelled as a correctly rounded square.
-/

namespace Verif.FloatOps
open Noise (eps64)
open Prox (eps32)

variable (R : Rounding)

/-- `np.around(x, decimals=d)` as NumPy computes it: multiply by `10**d`, round to an integer, divide. -/
noncomputable def aroundF (d : ℕ) (x : ℝ) : ℝ := R.fl (rint (R.fl (x * 10 ^ d)) / 10 ^ d)

/-- `max_value` of soft thresholding (noise.py:176-178). -/
noncomputable def softFactor (t r : ℝ) : ℝ := max (R.fl (1 - R.fl (t / max eps64 r))) 0

/-- `thresh(..., threshold_type="soft")` (noise.py:175-180). -/
noncomputable def soft (t x : ℝ) : ℝ := aroundF R 15 (R.fl (softFactor R t |x| * x))

/-- `thresh(..., threshold_type="hard")` (noise.py:182). -/
noncomputable def hard (t x : ℝ) : ℝ := R.fl (x * if |x| ≥ t then 1 else 0)

/-- `pos_thresh` (positivity.py:29). -/
noncomputable def pos (x : ℝ) : ℝ := R.fl (x * if x > 0 then 1 else 0)

/-- `Ridge.op` without a linear operator (proximity.py:771-773). -/
noncomputable def ridge (w c x : ℝ) : ℝ := R.fl (x / R.fl (1 + R.fl (R.fl (w * c) * 2)))

/-- `ElasticNet.op` (proximity.py:858-860). -/
noncomputable def elastic (a b c x : ℝ) : ℝ :=
  R.fl (soft R (R.fl (b * c)) x / R.fl (R.fl (R.fl (a * 2) * c) + 1))

/-- `GroupLASSO.op` (proximity.py:1402-1408) for an entry `x` of a group with computed norm `n`. -/
noncomputable def group (w c n x : ℝ) : ℝ :=
  R.fl (x * max 0 (R.fl (1 - R.fl (R.fl (w * c) / max n eps32))))

/-- `cwbReweight.reweight` (reweight.py:92-96) for a datum of magnitude `a`, with `w0` the original weight. -/
noncomputable def cwb (f w0 w a : ℝ) : ℝ := R.fl (w * R.fl (1 / R.fl (1 + R.fl (a / R.fl (f * w0)))))

/-- `min_max_normalize` (metrics.py:36-39). -/
noncomputable def normalise (lo hi x : ℝ) : ℝ := R.fl (R.fl (x - lo) / R.fl (hi - lo))

/-- The accumulator of `AdaGenericGradOpt` (gradient_descent.py:276). -/
noncomputable def adagrad (s g : ℝ) : ℝ := R.fl (s + R.fl (|g| ^ 2))

/-- The accumulator of `RMSpropGradOpt` (gradient_descent.py:322-324). -/
noncomputable def rmsprop (γ s g : ℝ) : ℝ := R.fl (R.fl (γ * s) + R.fl (R.fl (1 - γ) * R.fl (|g| ^ 2)))

/-- The step of the gradient descent classes (gradient_descent.py:149). -/
noncomputable def step (eta eps s : ℝ) : ℝ := R.fl (eta / R.fl (R.fl (Real.sqrt s) + eps))

/-- The next `_t_now` of regular FISTA (forward_backward.py:278-279). -/
noncomputable def tNext (p q r t : ℝ) : ℝ :=
  R.fl (p + R.fl (R.fl (Real.sqrt (R.fl (R.fl (r * R.fl (t ^ 2)) + q))) * 0.5))

/-- `_t_now` of the Chambolle-Dossal mode (forward_backward.py:282). -/
noncomputable def tCD (a : ℝ) (n : ℕ) : ℝ := R.fl (R.fl (R.fl (n + a) - 1) / a)

/-- `lambda` from the previous and the new `_t_now` (forward_backward.py:285). -/
noncomputable def lam (tPrev tNow : ℝ) : ℝ := R.fl (1 + R.fl (R.fl (tPrev - 1) / tNow))

/-- The part of `ForwardBackward._update` that computes arrays (forward_backward.py:441-456): the new pair of `_x_old`
and `_z_old`, for the current `beta` and `lambda` and without restart. -/
noncomputable def fbStep {ι : Type} (grad : (ι → ℝ) → ι → ℝ) (prox : (ι → ℝ) → ℝ → ι → ℝ) (beta lam : ℝ)
    (s : (ι → ℝ) × (ι → ℝ)) : (ι → ℝ) × (ι → ℝ) :=
  let y := fun i => R.fl (s.2 i - R.fl (beta * grad s.2 i))
  let xNew := prox y beta
  (xNew, fun i => R.fl (s.1 i + R.fl (lam * R.fl (xNew i - s.1 i))))

/-- The first `n` updates, with the step sizes and relaxation parameters of every update. -/
noncomputable def fbRun {ι : Type} (grad : (ι → ℝ) → ι → ℝ) (prox : (ι → ℝ) → ℝ → ι → ℝ) (beta lam : ℕ → ℝ)
    (s : (ι → ℝ) × (ι → ℝ)) : ℕ → (ι → ℝ) × (ι → ℝ)
  | 0 => s
  | n + 1 => fbStep R grad prox (beta n) (lam n) (fbRun grad prox beta lam s n)

/-- An order in which a scalar product may be accumulated: products are rounded and added pairwise, in any tree, or fused
with the addition.  NumPy and BLAS do not specify the order; every theorem holds for all of them. -/
inductive SumOrder (α : Type)
  | zero
  | leaf (a : α)
  | add (l r : SumOrder α)
  | fma (l : SumOrder α) (a : α)

namespace SumOrder
variable {α : Type}

/-- The terms of a sum. -/
def terms : SumOrder α → List α
  | zero => []
  | leaf a => [a]
  | add l r => l.terms ++ r.terms
  | fma l a => l.terms ++ [a]

/-- The largest number of roundings a term goes through. -/
def depth : SumOrder α → ℕ
  | zero => 0
  | leaf _ => 1
  | add l r => max l.depth r.depth + 1
  | fma l _ => l.depth + 1

/-- The number of roundings. -/
def size : SumOrder α → ℕ
  | zero => 0
  | leaf _ => 1
  | add l r => l.size + r.size + 1
  | fma l _ => l.size + 1

end SumOrder

/-- The computed scalar product of `f` and `g`. -/
noncomputable def dotF {α : Type} (f g : α → ℝ) : SumOrder α → ℝ
  | .zero => 0
  | .leaf a => R.fl (f a * g a)
  | .add l r => R.fl (dotF f g l + dotF f g r)
  | .fma l a => R.fl (dotF f g l + f a * g a)

/-- `array @ x` of `MatrixOperator` (linear/base.py:80, 86) on real data; `o i` is the order of accumulation of row `i`. -/
noncomputable def matvecF {ι κ : Type} (A : κ → ι → ℝ) (o : κ → SumOrder ι) (x : ι → ℝ) (k : κ) : ℝ := dotF R (A k) x (o k)

/-- `GradBasic.get_grad` (gradient.py:259) with a `MatrixOperator` (linear/base.py:79-86) on real data. -/
noncomputable def gradMatrixF {ι κ : Type} (A : κ → ι → ℝ) (o : κ → SumOrder ι) (o' : ι → SumOrder κ) (y : κ → ℝ)
    (x : ι → ℝ) : ι → ℝ :=
  matvecF R (fun i k => A k i) o' fun k => R.fl (matvecF R A o x k - y k)

end Verif.FloatOps
