import Verif.Core.ND
import Mathlib.Algebra.BigOperators.Group.Finset.Basic
import Mathlib.Algebra.Ring.Defs

/-!
# Specification: zero-padded convolution and the inner product of arrays
-/

namespace Verif.Spec
open NDArray

variable {K : Type} [CommRing K] [Inhabited K]

/-- The inner product of two arrays: the sum of the products of their entries. -/
def dot (a b : NDArray K) : K := (List.zipWith (· * ·) a.data b.data).sum

/-- Entry `(u, v)` of a `K × L` kernel, zero outside. -/
def kernelValue (k : ℕ → ℕ → K) (kh kw : ℕ) (u v : ℤ) : K :=
  if 0 ≤ u ∧ u < kh ∧ 0 ≤ v ∧ v < kw then k u.toNat v.toNat else 0

/-- Entry `(i, j)` of the zero-padded convolution of an `r × c` image with a `kh × kw` kernel, cropped to
the size of the image and centred at `((kh-1)/2, (kw-1)/2)`. -/
def conv2 (x : ℕ → ℕ → K) (r c : ℕ) (k : ℕ → ℕ → K) (kh kw : ℕ) (i j : ℕ) : K :=
  ∑ a ∈ Finset.range r, ∑ b ∈ Finset.range c,
    x a b * kernelValue k kh kw (i + ((kh - 1) / 2 : ℕ) - a) (j + ((kw - 1) / 2 : ℕ) - b)

end Verif.Spec
