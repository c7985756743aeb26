import Verif.Spec.Convolve
import Mathlib.Data.Real.Basic

/-!
# Specification for `find_n_pc`
-/

namespace Verif.Spec

/-- The autocorrelation of an `n × n` image, zero outside its frame, at the lag `(d, e)`. -/
def autocorr (f : ℕ → ℕ → ℝ) (n : ℕ) (d e : ℤ) : ℝ :=
  ∑ a ∈ Finset.range n, ∑ b ∈ Finset.range n, f a b * kernelValue f n n (a + d) (b + e)

/-- The energy of the autocorrelation over the `n²` lags kept by a `same`-size convolution:
`n/2 - n < d ≤ n/2`. -/
def autoEnergy (f : ℕ → ℕ → ℝ) (n : ℕ) : ℝ :=
  ∑ i ∈ Finset.range n, ∑ j ∈ Finset.range n, autocorr f n ((n / 2 : ℕ) - i) ((n / 2 : ℕ) - j) ^ 2

end Verif.Spec
