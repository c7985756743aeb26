import Verif.Model.Filter
import Verif.Spec.Filter
import Mathlib.Probability.Distributions.Gaussian.Real
import Mathlib.Analysis.SpecialFunctions.Gaussian.GaussianIntegral
import Mathlib.MeasureTheory.Integral.IntegralEqImproper
import Mathlib.Analysis.Calculus.Deriv.Pow
import Mathlib.Analysis.SpecialFunctions.ExpDeriv

/-!
# C67: the filters; C86: the directional Mexican hat
-/

open MeasureTheory

namespace Verif

/-! ## Gaussian -/

/-- For a positive scale the default output is the density of the centred normal distribution with
standard deviation `sigma` (Mathlib's `gaussianPDFReal`): positive, even, largest at 0 and of integral
one; the unnormalised output lies in `(0, 1]`, with 1 only at 0. -/
theorem C67_gaussian (σ : ℝ) (hσ : 0 < σ) :
    ∃ g : ℝ → ℝ, (∀ x, Filt.gaussianFilter x σ true = .ok (g x)) ∧
      (∀ x, g x = ProbabilityTheory.gaussianPDFReal 0 (Real.toNNReal (σ ^ 2)) x) ∧
      (∀ x, 0 < g x) ∧ (∀ x, g (-x) = g x) ∧ (∀ x, g x ≤ g 0) ∧ ∫ x, g x = 1 := by
  have e : ∀ x, Real.exp (-0.5 * (x / σ) ^ 2) / (Real.sqrt (2 * Real.pi) * σ) =
      ProbabilityTheory.gaussianPDFReal 0 (Real.toNNReal (σ ^ 2)) x := by
    intro x
    rw [ProbabilityTheory.gaussianPDFReal_def]
    simp only [Real.coe_toNNReal _ (sq_nonneg σ)]
    rw [Real.sqrt_mul (by positivity) (σ ^ 2), Real.sqrt_sq hσ.le, div_eq_inv_mul]
    congr 2
    rw [sub_zero]
    field_simp
    ring
  have hpos : ∀ x, 0 < Real.exp (-0.5 * (x / σ) ^ 2) / (Real.sqrt (2 * Real.pi) * σ) := fun x => by
    positivity
  refine ⟨fun x => Real.exp (-0.5 * (x / σ) ^ 2) / (Real.sqrt (2 * Real.pi) * σ), fun x => ?_, e, hpos,
    fun x => ?_, fun x => ?_, ?_⟩
  · simp [Filt.gaussianFilter, hσ.ne']
  · simp only [neg_div, neg_sq]
  · simp only
    apply div_le_div_of_nonneg_right _ (by positivity)
    apply Real.exp_le_exp.2
    have := sq_nonneg (x / σ)
    rw [zero_div]
    nlinarith
  · simp only [e]
    refine ProbabilityTheory.integral_gaussianPDFReal_eq_one 0 fun h => ?_
    rw [Real.toNNReal_eq_zero] at h
    exact absurd h (not_le.2 (by positivity))

theorem C67_gaussian_unnormalised (σ : ℝ) (hσ : σ ≠ 0) (x : ℝ) :
    ∃ v, Filt.gaussianFilter x σ false = .ok v ∧ 0 < v ∧ v ≤ 1 ∧ (v = 1 ↔ x = 0) ∧
      Filt.gaussianFilter (-x) σ false = .ok v := by
  refine ⟨Real.exp (-0.5 * (x / σ) ^ 2), by simp [Filt.gaussianFilter, hσ], Real.exp_pos _, ?_, ?_, ?_⟩
  · rw [Real.exp_le_one_iff]
    have := sq_nonneg (x / σ)
    nlinarith
  · rw [Real.exp_eq_one_iff]
    constructor
    · intro h
      have : (x / σ) ^ 2 = 0 := by linarith
      rw [pow_eq_zero_iff two_ne_zero, div_eq_zero_iff] at this
      exact this.resolve_right hσ
    · rintro rfl; simp
  · simp [Filt.gaussianFilter, hσ, neg_div]

/-- Scales that are not positive: zero raises in all three filters; a negative scale turns the
normalised Gaussian negative and makes the Mexican hat a non-real complex number (except at its two
zeros). -/
theorem C67_bad_scale (x y : ℝ) (norm : Bool) (σ : ℝ) :
    (σ = 0 → Filt.gaussianFilter x σ norm = .error .zeroDivisionError ∧
      Filt.mexHat x σ = .error .zeroDivisionError ∧
      Filt.mexHatDir y x σ = .error .zeroDivisionError) ∧
    (σ < 0 → (∃ v, Filt.gaussianFilter x σ true = .ok v ∧ v < 0) ∧
      ∃ z, Filt.mexHat x σ = .ok z ∧ (z.im ≠ 0 ↔ x ^ 2 ≠ σ ^ 2)) := by
  refine ⟨fun h => by simp [Filt.gaussianFilter, Filt.mexHat, Filt.mexHatDir, h],
    fun h => ⟨⟨_, by simp [Filt.gaussianFilter, h.ne]; rfl, ?_⟩, ?_⟩⟩
  · apply div_neg_of_pos_of_neg (Real.exp_pos _)
    exact mul_neg_of_pos_of_neg (by positivity) h
  · refine ⟨_, by rw [Filt.mexHat, if_neg h.ne], ?_⟩
    have hneg : (3 * σ : ℝ) < 0 := by linarith
    have h3 : (((3 * σ : ℝ) : ℂ)) ^ ((-0.5 : ℝ) : ℂ) =
        (((-(3 * σ)) ^ (-0.5 : ℝ) : ℝ) : ℂ) * (-Complex.I) := by
      rw [Complex.ofReal_cpow_of_nonpos hneg.le]
      have e1 : ((-((3 * σ : ℝ) : ℂ))) ^ ((-0.5 : ℝ) : ℂ) = (((-(3 * σ)) ^ (-0.5 : ℝ) : ℝ) : ℂ) := by
        rw [Complex.ofReal_cpow (by linarith)]
        push_cast; rfl
      rw [e1]
      congr 1
      rw [show (Real.pi : ℂ) * Complex.I * ((-0.5 : ℝ) : ℂ) = -(Real.pi / 2 * Complex.I) by
        push_cast; ring, Complex.exp_neg, Complex.exp_pi_div_two_mul_I, Complex.inv_I]
    rw [h3]
    set r : ℝ := (-(3 * σ)) ^ (-0.5 : ℝ) with hr
    set p : ℝ := Real.pi ^ (-0.25 : ℝ) with hp
    have hr0 : r ≠ 0 := (Real.rpow_pos_of_pos (by linarith) _).ne'
    have hp0 : p ≠ 0 := (Real.rpow_pos_of_pos Real.pi_pos _).ne'
    have e : (2 * ((r : ℂ) * -Complex.I) * (p : ℂ) * ((1 - (x / σ) ^ 2 : ℝ) : ℂ) *
        ((Real.exp (-0.5 * (x / σ) ^ 2) : ℝ) : ℂ)) =
        ((2 * r * p * (1 - (x / σ) ^ 2) * Real.exp (-0.5 * (x / σ) ^ 2) : ℝ) : ℂ) * -Complex.I := by
      push_cast; ring
    rw [e]
    have him : ∀ a : ℝ, ((a : ℂ) * -Complex.I).im = -a := fun a => by simp
    rw [him, neg_ne_zero]
    have hE := (Real.exp_pos (-0.5 * (x / σ) ^ 2)).ne'
    constructor
    · intro hz hx
      apply hz
      rw [div_pow, hx, div_self (pow_ne_zero 2 h.ne)]
      ring
    · intro hx hz
      have h1 : 1 - (x / σ) ^ 2 = 0 := by
        simpa [hr0, hp0, hE] using hz
      apply hx
      have h2 : σ ≠ 0 := h.ne
      rw [div_pow] at h1
      field_simp at h1
      linarith

/-! ## Mexican hat -/

theorem mexHat_eq_ricker (σ : ℝ) (hσ : 0 < σ) (x : ℝ) :
    Filt.mexHat x σ = .ok ((Spec.ricker σ x : ℝ) : ℂ) := by
  rw [Filt.mexHat, if_neg hσ.ne', ← Complex.ofReal_cpow (by positivity), Spec.ricker]
  have e1 : (3 * σ) ^ (-0.5 : ℝ) = (Real.sqrt (3 * σ))⁻¹ := by
    rw [Real.sqrt_eq_rpow, ← Real.rpow_neg (by positivity)]
    norm_num
  have e2 : Real.pi ^ (-0.25 : ℝ) = (Real.pi ^ (1 / 4 : ℝ))⁻¹ := by
    rw [← Real.rpow_neg Real.pi_pos.le]
    norm_num
  have e3 : -0.5 * (x / σ) ^ 2 = -x ^ 2 / (2 * σ ^ 2) := by
    have := hσ.ne'
    field_simp
    ring
  rw [e1, e2]
  simp only [e3]
  have e4 : ∀ a b : ℝ, 2 / (a * b) = 2 * a⁻¹ * b⁻¹ := fun a b => by
    rw [div_eq_mul_inv, mul_inv, mul_assoc]
  simp only [e4]
  push_cast
  rfl

theorem integrable_pow_gauss {b : ℝ} (hb : 0 < b) (n : ℕ) :
    Integrable fun x : ℝ => x ^ n * Real.exp (-b * x ^ 2) := by
  have := integrable_rpow_mul_exp_neg_mul_sq hb (s := n) (by
    have : (0 : ℝ) ≤ n := Nat.cast_nonneg n
    linarith)
  simpa [Real.rpow_natCast] using this

/-- For a positive scale `mex_hat` is the (real) Ricker wavelet: even, of zero mean and unit energy. -/
theorem C67_mex_hat (σ : ℝ) (hσ : 0 < σ) :
    (∀ x, Filt.mexHat x σ = .ok ((Spec.ricker σ x : ℝ) : ℂ)) ∧
    (∀ x, Filt.mexHat (-x) σ = Filt.mexHat x σ) ∧
    ∫ x, Spec.ricker σ x = 0 ∧ ∫ x, Spec.ricker σ x ^ 2 = 1 := by
  refine ⟨mexHat_eq_ricker σ hσ, fun x => by simp [Filt.mexHat, neg_div], ?_, ?_⟩
  · set c := 2 / (Real.sqrt (3 * σ) * Real.pi ^ (1 / 4 : ℝ)) with hc
    set b := 1 / (2 * σ ^ 2) with hb
    have hb0 : 0 < b := by positivity
    have hd : ∀ x : ℝ, HasDerivAt (fun x => x * Real.exp (-b * x ^ 2))
        ((1 - (x / σ) ^ 2) * Real.exp (-x ^ 2 / (2 * σ ^ 2))) x := by
      intro x
      have h1 : HasDerivAt (fun x : ℝ => -b * x ^ 2) (-b * (2 * x)) x := by
        simpa using (hasDerivAt_pow 2 x).const_mul (-b)
      have h2 := (hasDerivAt_id x).mul h1.exp
      refine h2.congr_deriv ?_
      have e : -x ^ 2 / (2 * σ ^ 2) = -b * x ^ 2 := by rw [hb]; ring
      rw [e, id, hb, div_pow]
      field_simp
      ring
    have i1 : Integrable fun x : ℝ => x * Real.exp (-b * x ^ 2) := by
      simpa using integrable_pow_gauss hb0 1
    have e' : (fun x : ℝ => (1 - (x / σ) ^ 2) * Real.exp (-x ^ 2 / (2 * σ ^ 2))) =
        fun x => x ^ 0 * Real.exp (-b * x ^ 2) - 1 / σ ^ 2 * (x ^ 2 * Real.exp (-b * x ^ 2)) := by
      funext x
      have e : -x ^ 2 / (2 * σ ^ 2) = -b * x ^ 2 := by rw [hb]; ring
      rw [e, div_pow]; ring
    have i2 : Integrable fun x : ℝ => (1 - (x / σ) ^ 2) * Real.exp (-x ^ 2 / (2 * σ ^ 2)) := by
      rw [e']
      exact (integrable_pow_gauss hb0 0).sub ((integrable_pow_gauss hb0 2).const_mul _)
    have := integral_eq_zero_of_hasDerivAt_of_integrable hd i2 i1
    simp only [Spec.ricker, mul_assoc]
    rw [integral_const_mul, this, mul_zero]
  · set b := 1 / σ ^ 2 with hb
    have hb0 : 0 < b := by positivity
    have hd : ∀ x : ℝ, HasDerivAt (fun x => (x / 4 - b / 2 * x ^ 3) * Real.exp (-b * x ^ 2))
        ((1 / 4 - 2 * b * x ^ 2 + b ^ 2 * x ^ 4) * Real.exp (-b * x ^ 2)) x := by
      intro x
      have h1 : HasDerivAt (fun x : ℝ => -b * x ^ 2) (-b * (2 * x)) x := by
        simpa using (hasDerivAt_pow 2 x).const_mul (-b)
      have h3 : HasDerivAt (fun x : ℝ => x / 4 - b / 2 * x ^ 3) (1 / 4 - b / 2 * (3 * x ^ 2)) x := by
        have := ((hasDerivAt_id x).div_const 4).sub ((hasDerivAt_pow 3 x).const_mul (b / 2))
        refine this.congr_deriv ?_
        norm_num
      refine (h3.mul h1.exp).congr_deriv ?_
      ring
    have i1 : Integrable fun x : ℝ => (x / 4 - b / 2 * x ^ 3) * Real.exp (-b * x ^ 2) := by
      have := ((integrable_pow_gauss hb0 1).const_mul (1 / 4)).sub
        ((integrable_pow_gauss hb0 3).const_mul (b / 2))
      refine this.congr (ae_of_all _ fun x => ?_)
      simp only [Pi.sub_apply]; ring
    have i2 : Integrable fun x : ℝ =>
        (1 / 4 - 2 * b * x ^ 2 + b ^ 2 * x ^ 4) * Real.exp (-b * x ^ 2) := by
      have := (((integrable_pow_gauss hb0 0).const_mul (1 / 4)).sub
        ((integrable_pow_gauss hb0 2).const_mul (2 * b))).add
        ((integrable_pow_gauss hb0 4).const_mul (b ^ 2))
      refine this.congr (ae_of_all _ fun x => ?_)
      simp only [Pi.sub_apply, Pi.add_apply]; ring
    have hz := integral_eq_zero_of_hasDerivAt_of_integrable hd i2 i1
    have hsq : ∀ x, Spec.ricker σ x ^ 2 = 4 / (3 * σ * Real.sqrt Real.pi) *
        (3 / 4 * Real.exp (-b * x ^ 2) +
          (1 / 4 - 2 * b * x ^ 2 + b ^ 2 * x ^ 4) * Real.exp (-b * x ^ 2)) := by
      intro x
      have e1 : Real.exp (-x ^ 2 / (2 * σ ^ 2)) ^ 2 = Real.exp (-b * x ^ 2) := by
        rw [← Real.exp_nat_mul]
        congr 1
        rw [hb]; push_cast; field_simp
      have e2 : (Real.pi ^ (1 / 4 : ℝ)) ^ 2 = Real.sqrt Real.pi := by
        rw [← Real.rpow_natCast, ← Real.rpow_mul Real.pi_pos.le, Real.sqrt_eq_rpow]
        norm_num
      rw [Spec.ricker, mul_pow, mul_pow, e1, div_pow, mul_pow, e2, Real.sq_sqrt (by positivity),
        div_pow x σ 2, show x ^ 2 / σ ^ 2 = b * x ^ 2 by rw [hb]; ring]
      ring
    simp only [hsq]
    rw [integral_const_mul, integral_add ((integrable_exp_neg_mul_sq hb0).const_mul _) i2, hz,
      integral_const_mul, integral_gaussian, hb, div_div_eq_mul_div, div_one,
      Real.sqrt_mul Real.pi_pos.le, Real.sqrt_sq hσ.le]
    have := Real.sqrt_pos.2 Real.pi_pos
    field_simp
    norm_num

/-- Non-trivial instance: scale 1. -/
example : Filt.mexHat 0 1 = .ok ((Spec.ricker 1 0 : ℝ) : ℂ) ∧ Spec.ricker 1 0 ≠ 0 := by
  refine ⟨(C67_mex_hat 1 one_pos).1 0, ?_⟩
  have : 0 < Real.pi ^ (1 / 4 : ℝ) := Real.rpow_pos_of_pos Real.pi_pos _
  have h3 : 0 < Real.sqrt (3 * 1) := Real.sqrt_pos.2 (by norm_num)
  exact mul_ne_zero (mul_ne_zero (div_ne_zero two_ne_zero (mul_pos h3 this).ne') (by simp))
    (Real.exp_pos _).ne'

/-- `mex_hat_dir` is even in both of its data arguments. -/
theorem C67_mex_hat_dir_even (xg xm σ : ℝ) :
    Filt.mexHatDir (-xg) xm σ = Filt.mexHatDir xg xm σ ∧
    Filt.mexHatDir xg (-xm) σ = Filt.mexHatDir xg xm σ := by
  simp [Filt.mexHatDir, Filt.mexHat, neg_div]

/-! ## The directional filter (C86) -/

/-- The directional Mexican hat is not the product of a Gaussian profile in one direction and a Mexican
hat in the other: it is missing the exponential.  It vanishes where the Gaussian profile peaks, whatever
the second coordinate, although the product does not. -/
theorem C86_dir_is_not_gaussian_times_mex_hat (σ : ℝ) (hσ : 0 < σ) :
    (∀ xm, Filt.mexHatDir 0 xm σ = .ok 0) ∧
    ∃ g m, Filt.gaussianFilter 0 σ false = .ok g ∧ Filt.mexHat 0 σ = .ok ((m : ℝ) : ℂ) ∧ g * m ≠ 0 := by
  refine ⟨fun xm => ?_, 1, Spec.ricker σ 0, ?_, mexHat_eq_ricker σ hσ 0, ?_⟩
  · rw [Filt.mexHatDir, if_neg hσ.ne', mexHat_eq_ricker σ hσ]
    simp [bind, Except.bind]
  · simp [Filt.gaussianFilter, hσ.ne']
  · have : 0 < Real.pi ^ (1 / 4 : ℝ) := Real.rpow_pos_of_pos Real.pi_pos _
    have h3 : 0 < Real.sqrt (3 * σ) := Real.sqrt_pos.2 (by linarith)
    simp only [Spec.ricker, one_mul]
    refine mul_ne_zero (mul_ne_zero (div_ne_zero two_ne_zero (mul_pos h3 this).ne') (by simp))
      (Real.exp_pos _).ne'

/-- Its exact value, and that it is no localised filter: along the Gaussian direction it grows without
bound (off the zeros of the Mexican hat). -/
theorem C86_dir_unbounded (σ : ℝ) (hσ : 0 < σ) (xm : ℝ) (hx : xm ^ 2 ≠ σ ^ 2) (B : ℝ) :
    (∀ xg, Filt.mexHatDir xg xm σ = .ok ((-(1 / 2) * (xg / σ) ^ 2 * Spec.ricker σ xm : ℝ) : ℂ)) ∧
    ∃ xg z, Filt.mexHatDir xg xm σ = .ok z ∧ B < ‖z‖ := by
  have hval : ∀ xg, Filt.mexHatDir xg xm σ =
      .ok ((-(1 / 2) * (xg / σ) ^ 2 * Spec.ricker σ xm : ℝ) : ℂ) := by
    intro xg
    rw [Filt.mexHatDir, if_neg hσ.ne', mexHat_eq_ricker σ hσ]
    simp only [bind, Except.bind]
    congr 1
    push_cast
    norm_num
  have hr : Spec.ricker σ xm ≠ 0 := by
    have : 0 < Real.pi ^ (1 / 4 : ℝ) := Real.rpow_pos_of_pos Real.pi_pos _
    have h3 : 0 < Real.sqrt (3 * σ) := Real.sqrt_pos.2 (by linarith)
    refine mul_ne_zero (mul_ne_zero (div_ne_zero two_ne_zero (mul_pos h3 this).ne') ?_)
      (Real.exp_pos _).ne'
    intro h
    apply hx
    rw [div_pow] at h
    have := hσ.ne'
    field_simp at h
    linarith
  refine ⟨hval, ?_⟩
  set r := |Spec.ricker σ xm| with hrr
  have hr0 : 0 < r := abs_pos.2 hr
  set q := 2 * (|B| + 1) / r with hq
  have hq0 : 0 < q := by positivity
  refine ⟨σ * Real.sqrt q, _, hval _, ?_⟩
  rw [Complex.norm_real, Real.norm_eq_abs, abs_mul, ← hrr, mul_div_cancel_left₀ _ hσ.ne',
    Real.sq_sqrt hq0.le, abs_mul, abs_neg, abs_of_pos hq0, abs_of_pos (by norm_num : (0 : ℝ) < 1 / 2), hq]
  have : 1 / 2 * (2 * (|B| + 1) / r) * r = |B| + 1 := by field_simp
  rw [this]
  have := le_abs_self B
  linarith

example : (0 : ℝ) ^ 2 ≠ 1 ^ 2 := by norm_num

end Verif
