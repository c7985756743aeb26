import Verif.Props.FloatOps
import Verif.Props.Pipeline

/-!
# Rounding errors of arrays
-/

set_option linter.unusedSectionVars false

namespace Verif
open Spec FloatOps

section
variable (R : Rounding) (u η : ℝ) (hu0 : 0 ≤ u) (hu : u ≤ 1 / 8) (hη : 0 ≤ η) (hacc : ∀ x, |R.fl x - x| ≤ u * |x| + η)

include hu0 hu hη hacc

/-- One entry of the gradient step. -/
theorem grad_entry_error (z b g : ℝ) :
    |R.fl (z - R.fl (b * g)) - (z - b * g)| ≤ u * |z| + 3 * u * |b * g| + 3 * η := by
  have h1 := hacc (b * g)
  have h2 := hacc (z - R.fl (b * g))
  have h3 : |z - R.fl (b * g)| ≤ |z| + |b * g| + |R.fl (b * g) - b * g| := by
    have e : z - R.fl (b * g) = z - b * g - (R.fl (b * g) - b * g) := by ring
    rw [e]
    exact (abs_sub _ _).trans (add_le_add (abs_sub _ _) le_rfl)
  have h4 : |R.fl (z - R.fl (b * g)) - (z - b * g)| ≤
      |R.fl (z - R.fl (b * g)) - (z - R.fl (b * g))| + |R.fl (b * g) - b * g| := by
    have e : R.fl (z - R.fl (b * g)) - (z - b * g) =
      (R.fl (z - R.fl (b * g)) - (z - R.fl (b * g))) - (R.fl (b * g) - b * g) := by ring
    rw [e]; exact abs_sub _ _
  have h5 := mul_le_mul_of_nonneg_left h3 hu0
  have h6 : u * |R.fl (b * g) - b * g| ≤ 1 / 8 * |R.fl (b * g) - b * g| := mul_le_mul_of_nonneg_right hu (abs_nonneg _)
  have := mul_nonneg hu0 (abs_nonneg (b * g))
  have := mul_nonneg hu0 (abs_nonneg z)
  nlinarith

/-- One entry of the relaxation with parameter one. -/
theorem relax_entry_error (x x' : ℝ) :
    |R.fl (x + R.fl (1 * R.fl (x' - x))) - x'| ≤ 3 * u * |x'| + 2 * u * |x| + 3 * η := by
  rw [one_mul, R.idem]
  have h1 := hacc (x' - x)
  have h2 := hacc (x + R.fl (x' - x))
  have h0 : |x' - x| ≤ |x'| + |x| := abs_sub _ _
  have h3 : |x + R.fl (x' - x)| ≤ |x'| + |R.fl (x' - x) - (x' - x)| := by
    have e : x + R.fl (x' - x) = x' + (R.fl (x' - x) - (x' - x)) := by ring
    rw [e]; exact abs_add_le _ _
  have h4 : |R.fl (x + R.fl (x' - x)) - x'| ≤
      |R.fl (x + R.fl (x' - x)) - (x + R.fl (x' - x))| + |R.fl (x' - x) - (x' - x)| := by
    have e : R.fl (x + R.fl (x' - x)) - x' =
      (R.fl (x + R.fl (x' - x)) - (x + R.fl (x' - x))) + (R.fl (x' - x) - (x' - x)) := by ring
    rw [e]; exact abs_add_le _ _
  have h5 := mul_le_mul_of_nonneg_left h3 hu0
  have h6 := mul_le_mul_of_nonneg_left h0 hu0
  have h7 : u * |R.fl (x' - x) - (x' - x)| ≤ 1 / 8 * |R.fl (x' - x) - (x' - x)| :=
    mul_le_mul_of_nonneg_right hu (abs_nonneg _)
  have := mul_nonneg hu0 (abs_nonneg x)
  have := mul_nonneg hu0 (abs_nonneg x')
  nlinarith

end

section
variable {E ι : Type} [NormedAddCommGroup E] [InnerProductSpace ℝ E] [Fintype ι] (V : ArraySpace E ι ℝ)

theorem symm_norm_sq (f : ι → ℝ) : ‖V.arr.symm f‖ ^ 2 = ∑ i, |f i| ^ 2 := by
  rw [V.norm_sq, AddEquiv.apply_symm_apply]; rfl

theorem symm_norm_mono (f g : ι → ℝ) (h : ∀ i, |f i| ≤ |g i|) : ‖V.arr.symm f‖ ≤ ‖V.arr.symm g‖ := by
  rw [← sq_le_sq₀ (norm_nonneg _) (norm_nonneg _), symm_norm_sq, symm_norm_sq]
  exact Finset.sum_le_sum fun i _ => pow_le_pow_left₀ (abs_nonneg _) (h i) 2

theorem symm_norm_scale (a : ℝ) (ha : 0 ≤ a) (p : ι → ℝ) : ‖V.arr.symm fun i => a * |p i|‖ = a * ‖V.arr.symm p‖ := by
  rw [← sq_eq_sq₀ (norm_nonneg _) (by positivity), mul_pow, symm_norm_sq, symm_norm_sq, Finset.mul_sum]
  refine Finset.sum_congr rfl fun i _ => ?_
  rw [abs_mul, abs_abs, abs_of_nonneg ha, mul_pow]

theorem symm_smul (b : ℝ) (g : ι → ℝ) : V.arr.symm (fun i => b * g i) = b • V.arr.symm g := by
  apply V.arr.injective
  funext i
  rw [AddEquiv.apply_symm_apply, arr_real_smul, AddEquiv.apply_symm_apply, smul_eq_mul]

/-- Entrywise bounds give bounds of norms. -/
theorem symm_norm_le (f p q : ι → ℝ) (a b d : ℝ) (ha : 0 ≤ a) (hb : 0 ≤ b) (hd : 0 ≤ d)
    (h : ∀ i, |f i| ≤ a * |p i| + b * |q i| + d) :
    ‖V.arr.symm f‖ ≤ a * ‖V.arr.symm p‖ + b * ‖V.arr.symm q‖ + Real.sqrt (Fintype.card ι) * d := by
  have e : (fun i => a * |p i| + b * |q i| + d) = (fun i => a * |p i|) + (fun i => b * |q i|) + fun _ => d := rfl
  have h1 : ‖V.arr.symm f‖ ≤ ‖V.arr.symm fun i => a * |p i| + b * |q i| + d‖ := by
    refine symm_norm_mono V _ _ fun i => (h i).trans (le_abs_self _)
  refine h1.trans ?_
  rw [e, map_add, map_add]
  refine (norm_add_le _ _).trans (add_le_add ((norm_add_le _ _).trans ?_) ?_)
  · rw [symm_norm_scale V a ha, symm_norm_scale V b hb]
  · refine norm_le_of_entries V _ _ hd fun i => ?_
    rw [AddEquiv.apply_symm_apply, Real.norm_of_nonneg hd]

end

/-- The recursion of the accumulated error. -/
theorem error_recursion (a c : ℝ) (ha : 0 ≤ a) (hc : 0 ≤ c) (e : ℕ → ℝ) (h0 : e 0 ≤ 0)
    (h : ∀ k, e (k + 1) ≤ (1 + a) * e k + c) (n : ℕ) : e n ≤ n * (1 + a) ^ n * c := by
  induction n with
  | zero => simpa using h0
  | succ n ih =>
    have h1 := mul_le_mul_of_nonneg_left ih (show 0 ≤ 1 + a by linarith)
    have h2 : 1 ≤ (1 + a) ^ (n + 1) := one_le_pow₀ (by linarith)
    have h3 := mul_le_mul_of_nonneg_right h2 hc
    have e1 : ((n + 1 : ℕ) : ℝ) * (1 + a) ^ (n + 1) * c = (1 + a) * (n * (1 + a) ^ n * c) + (1 + a) ^ (n + 1) * c := by
      push_cast; ring
    rw [e1]
    linarith [h n]

end Verif
