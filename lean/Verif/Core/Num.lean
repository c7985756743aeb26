import Mathlib.Algebra.Order.Floor.Ring
import Mathlib.Algebra.Order.Field.Basic
import Mathlib.Algebra.Order.AbsoluteValue.Basic
import Mathlib.Algebra.Ring.Parity
import Mathlib.Tactic.Linarith
import Mathlib.Tactic.Ring
import Mathlib.Tactic.NormNum

/-!
# Numeric primitives: NumPy `rint` and `around`, in exact arithmetic
-/

namespace Verif

variable {K : Type _} [Field K] [LinearOrder K] [IsStrictOrderedRing K] [FloorRing K]

/-- `np.rint`: nearest integer, ties to even. -/
def rint (x : K) : ℤ :=
  if Int.fract x < 1 / 2 then ⌊x⌋
  else if 1 / 2 < Int.fract x then ⌊x⌋ + 1
  else if ⌊x⌋ % 2 = 0 then ⌊x⌋ else ⌊x⌋ + 1

/-- `np.around(x, decimals=d)`: scale, round half to even, unscale. -/
def around (d : ℕ) (x : K) : K := (rint (x * 10 ^ d) : K) / 10 ^ d

theorem rint_sub_le (x : K) : |(rint x : K) - x| ≤ 1 / 2 := by
  have h1 := Int.fract_nonneg x
  have h2 := Int.fract_lt_one x
  have h3 : x = ⌊x⌋ + Int.fract x := (Int.floor_add_fract x).symm
  generalize Int.fract x = f at *
  have key : ∀ a : K, |a| ≤ 1 / 2 ↔ -(1 / 2) ≤ a ∧ a ≤ 1 / 2 := fun a => abs_le
  unfold rint
  rw [key]
  split_ifs with c1 c2 c3 <;> push_cast
  all_goals
    generalize hz : (⌊x⌋ : K) = z at *
    try rw [show Int.fract x = x - ⌊x⌋ from rfl, hz] at c1
    try rw [show Int.fract x = x - ⌊x⌋ from rfl, hz] at c2
    constructor <;> linarith

theorem rint_intCast (n : ℤ) : rint (n : K) = n := by
  unfold rint; simp

theorem rint_neg_of (x : K) : rint (-x) = -rint x := by
  rcases eq_or_ne (Int.fract x) 0 with h | h
  · have : x = (⌊x⌋ : K) := by have := Int.floor_add_fract x; rw [h, add_zero] at this; exact this.symm
    rw [this, ← Int.cast_neg, rint_intCast, rint_intCast]
  · have hf : Int.fract (-x) = 1 - Int.fract x := Int.fract_neg h
    have hfl : ⌊-x⌋ = -⌊x⌋ - 1 := by
      have e1 := Int.floor_add_fract x
      have e2 := Int.floor_add_fract (-x)
      rw [hf] at e2
      have : ((⌊-x⌋ : ℤ) : K) = ((-⌊x⌋ - 1 : ℤ) : K) := by push_cast; linarith
      exact_mod_cast this
    unfold rint
    rw [hf, hfl]
    by_cases c1 : Int.fract x < 1 / 2
    · have a : ¬ (1 - Int.fract x < 1 / 2) := by linarith
      have b : 1 / 2 < 1 - Int.fract x := by linarith
      simp only [c1, a, b, if_true, if_false]; omega
    · by_cases c2 : 1 / 2 < Int.fract x
      · have a : (1 - Int.fract x < 1 / 2) := by linarith
        simp only [c1, a, c2, if_true, if_false]; omega
      · have e : Int.fract x = 1 / 2 := le_antisymm (not_lt.1 c2) (not_lt.1 c1)
        have a : ¬ (1 - Int.fract x < 1 / 2) := by rw [e]; linarith
        have b : ¬ (1 / 2 < 1 - Int.fract x) := by rw [e]; linarith
        simp only [c1, a, b, c2, if_false]
        split_ifs <;> omega

theorem rint_eq_zero_iff (x : K) : rint x = 0 ↔ |x| ≤ 1 / 2 := by
  constructor
  · intro h
    have := rint_sub_le x
    rw [h] at this
    simpa using this
  · intro h
    rw [abs_le] at h
    obtain ⟨h1, h2⟩ := h
    rcases le_or_gt 0 x with hx | hx
    · have hfl : ⌊x⌋ = 0 := by rw [Int.floor_eq_iff]; constructor <;> norm_num <;> linarith
      have hf : Int.fract x = x := by rw [Int.fract, hfl]; simp
      unfold rint
      rw [hf, hfl]
      split_ifs with c1 c2 <;> first | rfl | (exfalso; linarith) | simp_all
    · have hfl : ⌊x⌋ = -1 := by rw [Int.floor_eq_iff]; constructor <;> norm_num <;> linarith
      have hf : Int.fract x = x + 1 := by rw [Int.fract, hfl]; push_cast; ring
      unfold rint
      rw [hf, hfl]
      split_ifs with c1 c2 c3 <;> first | rfl | (exfalso; linarith) | simp_all

theorem around_eq_zero_iff (d : ℕ) (x : K) : around d x = 0 ↔ |x| * 10 ^ d ≤ 1 / 2 := by
  have h10 : (0 : K) < 10 ^ d := by positivity
  unfold around
  rw [div_eq_zero_iff]
  constructor
  · rintro (h | h)
    · have : rint (x * 10 ^ d) = 0 := by exact_mod_cast h
      rw [rint_eq_zero_iff, abs_mul, abs_of_pos h10] at this
      exact this
    · exact absurd h h10.ne'
  · intro h
    left
    have : rint (x * 10 ^ d) = 0 := by
      rw [rint_eq_zero_iff, abs_mul, abs_of_pos h10]; exact h
    rw [this]; simp

theorem abs_around_sub_le (d : ℕ) (x : K) : |around d x - x| ≤ 1 / 2 / 10 ^ d := by
  have h10 : (0 : K) < 10 ^ d := by positivity
  have h := rint_sub_le (x * 10 ^ d)
  have : around d x - x = ((rint (x * 10 ^ d) : K) - x * 10 ^ d) / 10 ^ d := by
    unfold around; field_simp
  rw [this, abs_div, abs_of_pos h10]
  exact div_le_div_of_nonneg_right h h10.le

theorem around_neg (d : ℕ) (x : K) : around d (-x) = -around d x := by
  unfold around
  rw [neg_mul, rint_neg_of]; push_cast; ring

theorem around_zero (d : ℕ) : around d (0 : K) = 0 := by
  unfold around
  have : rint (0 * 10 ^ d : K) = 0 := by rw [zero_mul]; exact_mod_cast rint_intCast (K := K) 0
  rw [this]; simp

end Verif
