import Verif.Core.Num
import Mathlib.Data.Int.Log
import Mathlib.Algebra.Order.Archimedean.Real.Basic
import Mathlib.Algebra.Order.Field.Power
import Mathlib.Tactic.Positivity
import Mathlib.Tactic.FieldSimp

/-!
# Floating-point rounding

`Rounding` is what the theorems about floating-point computations use: the result of an arithmetic operation is the
exact result, rounded by a monotone, odd function whose values are its fixed points (the representable numbers).
`binary64` is IEEE-754 double precision with round-to-nearest-even and gradual underflow; overflow is not modelled.
-/

namespace Verif

/-- A rounding function; `fl x = x` says that `x` is representable. -/
structure Rounding where
  fl : ℝ → ℝ
  mono : Monotone fl
  idem : ∀ x, fl (fl x) = fl x
  neg : ∀ x, fl (-x) = -fl x
  half : fl (1 / 2) = 1 / 2
  one : fl 1 = 1
  two : fl 2 = 2

namespace Rounding

theorem zero (R : Rounding) : R.fl 0 = 0 := by
  have := R.neg 0
  rw [neg_zero] at this
  linarith

theorem nonneg (R : Rounding) {x : ℝ} (h : 0 ≤ x) : 0 ≤ R.fl x := by
  have := R.mono h
  rwa [R.zero] at this

theorem nonpos (R : Rounding) {x : ℝ} (h : x ≤ 0) : R.fl x ≤ 0 := by
  have := R.mono h
  rwa [R.zero] at this

theorem abs (R : Rounding) (x : ℝ) : |R.fl x| = R.fl |x| := by
  rcases le_total 0 x with h | h
  · rw [abs_of_nonneg h, abs_of_nonneg (R.nonneg h)]
  · rw [abs_of_nonpos h, abs_of_nonpos (R.nonpos h), R.neg]

end Rounding

theorem rint_mono {x y : ℝ} (h : x ≤ y) : rint x ≤ rint y := by
  have low : ∀ z : ℝ, ⌊z⌋ ≤ rint z := by
    intro z; unfold rint; split_ifs <;> omega
  have high : ∀ z : ℝ, rint z ≤ ⌊z⌋ + 1 := by
    intro z; unfold rint; split_ifs <;> omega
  rcases (Int.floor_mono h).eq_or_lt with e | e
  · have hf : Int.fract x ≤ Int.fract y := by
      unfold Int.fract; rw [e]; linarith
    unfold rint
    rw [e]
    split_ifs with c1 c2 c3 c4 c5 <;> first | omega | (exfalso; linarith)
  · have := low y
    have := high x
    omega

namespace Float64

/-- The exponent of the last bit of `x`: 53 significant bits, not below the smallest subnormal number. -/
noncomputable def ulpExp (x : ℝ) : ℤ := max (Int.log 2 |x| - 52) (-1074)

/-- Round to nearest, ties to even, on the numbers with the last bit of `x`. -/
noncomputable def fl (x : ℝ) : ℝ := (rint (x / 2 ^ ulpExp x) : ℝ) * 2 ^ ulpExp x

theorem ulp_pos (x : ℝ) : (0 : ℝ) < 2 ^ ulpExp x := zpow_pos two_pos _

theorem abs_lt_ulp (x : ℝ) : |x| < 2 ^ (ulpExp x + 53) := by
  have h1 : |x| < ((2 : ℕ) : ℝ) ^ (Int.log 2 |x| + 1) := Int.lt_zpow_succ_log_self (by norm_num) _
  refine lt_of_lt_of_le (by exact_mod_cast h1) (zpow_le_zpow_right₀ (by norm_num) ?_)
  have := le_max_left (Int.log 2 |x| - 52) (-1074)
  unfold ulpExp
  omega

theorem fixed_of_lt (m : ℤ) (e : ℤ) (hm : |m| < 2 ^ 53) (he : -1074 ≤ e) : fl (m * 2 ^ e) = m * 2 ^ e := by
  by_cases h0 : m = 0
  · subst h0
    unfold fl
    have : rint (((0 : ℤ) : ℝ) * 2 ^ e / 2 ^ ulpExp (((0 : ℤ) : ℝ) * 2 ^ e)) = 0 := by
      rw [Int.cast_zero, zero_mul, zero_div]
      exact_mod_cast rint_intCast (K := ℝ) 0
    rw [this]; simp
  set y : ℝ := m * 2 ^ e with hy
  have hye : ulpExp y ≤ e := by
    unfold ulpExp
    refine max_le ?_ he
    have hlt : |y| < (2 : ℝ) ^ (e + 53) := by
      rw [hy, abs_mul, abs_of_pos (zpow_pos two_pos e : (0 : ℝ) < 2 ^ e), zpow_add₀ (by norm_num), mul_comm]
      refine mul_lt_mul_of_pos_left ?_ (zpow_pos two_pos e)
      have : ((|m| : ℤ) : ℝ) < ((2 ^ 53 : ℤ) : ℝ) := by exact_mod_cast hm
      rw [Int.cast_abs] at this
      refine this.trans_eq ?_
      norm_num
    have hpos : 0 < |y| := abs_pos.2 (mul_ne_zero (by exact_mod_cast h0) (zpow_ne_zero _ two_ne_zero))
    have := (Int.lt_zpow_iff_log_lt (b := 2) (by norm_num) hpos).1 (by exact_mod_cast hlt)
    omega
  have hint : y / 2 ^ ulpExp y = ((m * 2 ^ (e - ulpExp y).toNat : ℤ) : ℝ) := by
    push_cast
    rw [hy, ← hy, div_eq_iff (ulp_pos y).ne', mul_assoc, ← zpow_natCast, ← zpow_add₀ (by norm_num),
      Int.toNat_of_nonneg (by omega), sub_add_cancel]
  unfold fl
  rw [hint, rint_intCast, ← hint, div_mul_cancel₀ _ (ulp_pos y).ne']

theorem rint_abs_le (x : ℝ) : |rint (x / 2 ^ ulpExp x)| ≤ 2 ^ 53 := by
  have h1 : |x / 2 ^ ulpExp x| ≤ ((2 ^ 53 : ℤ) : ℝ) := by
    rw [abs_div, abs_of_pos (ulp_pos x), div_le_iff₀ (ulp_pos x)]
    refine (abs_lt_ulp x).le.trans_eq ?_
    rw [zpow_add₀ (by norm_num), mul_comm]
    norm_num
  rw [abs_le] at h1 ⊢
  constructor
  · have := rint_mono h1.1
    rw [← Int.cast_neg, rint_intCast] at this
    exact this
  · have := rint_mono h1.2
    rwa [rint_intCast] at this

/-- Every result is representable with 53 bits. -/
theorem fl_rep (x : ℝ) : ∃ (m e : ℤ), |m| < 2 ^ 53 ∧ -1074 ≤ e ∧ fl x = m * 2 ^ e := by
  have he : -1074 ≤ ulpExp x := le_max_right _ _
  rcases (rint_abs_le x).lt_or_eq with h | h
  · exact ⟨_, _, h, he, rfl⟩
  · rcases (abs_eq (by norm_num)).1 h with h | h
    · refine ⟨2 ^ 52, ulpExp x + 1, by norm_num, by omega, ?_⟩
      unfold fl
      rw [h, zpow_add₀ (by norm_num)]; push_cast; ring
    · refine ⟨-2 ^ 52, ulpExp x + 1, by norm_num, by omega, ?_⟩
      unfold fl
      rw [h, zpow_add₀ (by norm_num)]; push_cast; ring

theorem fl_idem (x : ℝ) : fl (fl x) = fl x := by
  obtain ⟨m, e, h1, h2, h3⟩ := fl_rep x
  rw [h3, fixed_of_lt m e h1 h2]

theorem fl_neg (x : ℝ) : fl (-x) = -fl x := by
  unfold fl
  have : ulpExp (-x) = ulpExp x := by unfold ulpExp; rw [abs_neg]
  rw [this, neg_div, rint_neg_of]; push_cast; ring

theorem fl_zero : fl 0 = 0 := by
  have := fl_neg 0
  rw [neg_zero] at this
  linarith

theorem fl_mono_pos {x y : ℝ} (hx : 0 < x) (h : x ≤ y) : fl x ≤ fl y := by
  have hy : 0 < y := lt_of_lt_of_le hx h
  have hle : ulpExp x ≤ ulpExp y := by
    unfold ulpExp
    exact max_le_max (by
      have : Int.log 2 |x| ≤ Int.log 2 |y| := Int.log_mono_right (abs_pos.2 hx.ne') (by
        rw [abs_of_pos hx, abs_of_pos hy]; exact h)
      omega) le_rfl
  rcases hle.eq_or_lt with e | e
  · unfold fl
    rw [e]
    refine mul_le_mul_of_nonneg_right ?_ (ulp_pos y).le
    exact_mod_cast rint_mono (div_le_div_of_nonneg_right h (ulp_pos y).le)
  · have hxe : -1074 ≤ ulpExp x := le_max_right _ _
    have hye : ulpExp y = Int.log 2 |y| - 52 := by
      unfold ulpExp at e ⊢
      rcases max_choice (Int.log 2 |y| - 52) (-1074) with h | h
      · exact h
      · rw [h] at e
        have := le_max_right (Int.log 2 |x| - 52) (-1074)
        omega
    have h1 : fl x ≤ (2 : ℝ) ^ (ulpExp y + 52) := by
      have hr : ((rint (x / 2 ^ ulpExp x) : ℤ) : ℝ) ≤ ((2 ^ 53 : ℤ) : ℝ) := by
        exact_mod_cast (le_abs_self _).trans (rint_abs_le x)
      calc fl x ≤ ((2 ^ 53 : ℤ) : ℝ) * 2 ^ ulpExp x := mul_le_mul_of_nonneg_right hr (ulp_pos x).le
        _ = 2 ^ (ulpExp x + 53) := by rw [zpow_add₀ (by norm_num), mul_comm]; norm_num
        _ ≤ _ := zpow_le_zpow_right₀ (by norm_num) (by omega)
    have h2 : (2 : ℝ) ^ (ulpExp y + 52) ≤ y := by
      have : (2 : ℝ) ^ Int.log 2 |y| ≤ |y| := by
        exact_mod_cast Int.zpow_log_le_self (b := 2) (by norm_num) (abs_pos.2 hy.ne')
      rw [abs_of_pos hy] at this hye
      rw [hye]
      simpa using this
    have h3 : (2 : ℝ) ^ (ulpExp y + 52) ≤ fl y := by
      have hr : ((2 ^ 52 : ℤ) : ℝ) ≤ y / 2 ^ ulpExp y := by
        rw [le_div_iff₀ (ulp_pos y)]
        refine le_trans (le_of_eq ?_) h2
        rw [zpow_add₀ (by norm_num), mul_comm]
        norm_num
      have := rint_mono hr
      rw [rint_intCast] at this
      calc (2 : ℝ) ^ (ulpExp y + 52) = ((2 ^ 52 : ℤ) : ℝ) * 2 ^ ulpExp y := by
            rw [zpow_add₀ (by norm_num), mul_comm]; norm_num
        _ ≤ _ := mul_le_mul_of_nonneg_right (by exact_mod_cast this) (ulp_pos y).le
    exact h1.trans h3

theorem fl_nonneg {x : ℝ} (h : 0 ≤ x) : 0 ≤ fl x := by
  unfold fl
  refine mul_nonneg ?_ (ulp_pos x).le
  have := rint_mono (div_nonneg h (ulp_pos x).le)
  have h0 : rint (0 : ℝ) = 0 := by exact_mod_cast rint_intCast (K := ℝ) 0
  rw [h0] at this
  exact_mod_cast this

theorem fl_mono : Monotone fl := by
  intro x y h
  rcases lt_trichotomy x 0 with hx | hx | hx
  · rcases lt_or_ge y 0 with hy | hy
    · have := fl_mono_pos (neg_pos.2 hy) (neg_le_neg h)
      rw [fl_neg, fl_neg] at this
      linarith
    · have := fl_nonneg (neg_nonneg.2 hx.le)
      rw [fl_neg] at this
      linarith [fl_nonneg hy]
  · subst hx
    rw [fl_zero]
    exact fl_nonneg h
  · exact fl_mono_pos hx h

/-- The error of a single operation: relative `2⁻⁵³`, or half of the smallest subnormal number. -/
theorem fl_error (x : ℝ) : |fl x - x| ≤ max (2⁻¹ ^ 53 * |x|) (2⁻¹ ^ 1075) := by
  have h1 : |fl x - x| ≤ 1 / 2 * 2 ^ ulpExp x := by
    have h := rint_sub_le (x / 2 ^ ulpExp x)
    have e : fl x - x = ((rint (x / 2 ^ ulpExp x) : ℝ) - x / 2 ^ ulpExp x) * 2 ^ ulpExp x := by
      unfold fl; rw [sub_mul, div_mul_cancel₀ _ (ulp_pos x).ne']
    rw [e, abs_mul, abs_of_pos (ulp_pos x)]
    exact mul_le_mul_of_nonneg_right h (ulp_pos x).le
  by_cases h0 : x = 0
  · rw [h0, fl_zero]; simp
  refine h1.trans ?_
  unfold ulpExp
  rcases le_total (Int.log 2 |x| - 52) (-1074) with h | h
  · rw [max_eq_right h]
    refine le_trans (le_of_eq ?_) (le_max_right _ _)
    have e : (2 : ℝ) ^ (-1074 : ℤ) = 2⁻¹ ^ 1074 := by
      rw [inv_pow, zpow_neg]; norm_cast
    rw [e, pow_succ (2⁻¹ : ℝ) 1074]
    generalize (2⁻¹ : ℝ) ^ 1074 = z
    ring
  · rw [max_eq_left h]
    refine le_trans ?_ (le_max_left _ _)
    have h2 : (2 : ℝ) ^ Int.log 2 |x| ≤ |x| := by
      exact_mod_cast Int.zpow_log_le_self (b := 2) (by norm_num) (abs_pos.2 h0)
    have e : (2 : ℝ) ^ (Int.log 2 |x| - 52) = 2⁻¹ ^ 52 * 2 ^ Int.log 2 |x| := by
      rw [zpow_sub₀ (by norm_num), inv_pow, div_eq_mul_inv, mul_comm]; norm_cast
    rw [e]
    calc 1 / 2 * (2⁻¹ ^ 52 * (2 : ℝ) ^ Int.log 2 |x|) = 2⁻¹ ^ 53 * 2 ^ Int.log 2 |x| := by ring
      _ ≤ _ := mul_le_mul_of_nonneg_left h2 (by positivity)

end Float64

/-- IEEE-754 double precision. -/
noncomputable def binary64 : Rounding where
  fl := Float64.fl
  mono := Float64.fl_mono
  idem := Float64.fl_idem
  neg := Float64.fl_neg
  half := by
    have := Float64.fixed_of_lt 1 (-1) (by norm_num) (by norm_num)
    rw [show ((1 : ℤ) : ℝ) * 2 ^ (-1 : ℤ) = 1 / 2 by norm_num] at this
    exact this
  one := by
    have := Float64.fixed_of_lt 1 0 (by norm_num) (by norm_num)
    rw [show ((1 : ℤ) : ℝ) * 2 ^ (0 : ℤ) = 1 by norm_num] at this
    exact this
  two := by
    have := Float64.fixed_of_lt 1 1 (by norm_num) (by norm_num)
    rw [show ((1 : ℤ) : ℝ) * 2 ^ (1 : ℤ) = 2 by norm_num] at this
    exact this

end Verif
