import Mathlib.Data.Int.Log
import Mathlib.Data.Rat.Floor
import Mathlib.Algebra.Order.Archimedean.Real.Basic
import Mathlib.Tactic.NormNum
import Mathlib.Tactic.Linarith

/-!
# Binary64 rounding

IEEE-754 round-to-nearest-even on rational numbers, for results in the normal range (no overflow, no
subnormals): the range of every computation it is used for here.
-/

namespace Verif.F64

/-- Nearest integer, ties to even. -/
def roundEven (q : ℚ) : ℤ :=
  let f := ⌊q⌋
  if q - f < 1 / 2 then f
  else if 1 / 2 < q - f then f + 1
  else if f % 2 = 0 then f else f + 1

/-- The binary64 number nearest to `q` (53 significant bits, ties to even). -/
def rn (q : ℚ) : ℚ :=
  if q = 0 then 0
  else roundEven (q / 2 ^ (Int.log 2 |q| - 52)) * 2 ^ (Int.log 2 |q| - 52)

/-- Left-to-right summation with rounding after every addition: what `np.sum` does for fewer than eight
items. -/
def fsum (l : List ℚ) : ℚ := l.foldl (fun s a => rn (s + a)) 0

/-- Evaluation of `rn` on a positive number with known exponent. -/
theorem rn_eq {q : ℚ} (e : ℤ) (h1 : (2 : ℚ) ^ (e + 52) ≤ q) (h2 : q < (2 : ℚ) ^ (e + 53)) :
    rn q = roundEven (q / 2 ^ e) * 2 ^ e := by
  have hq : 0 < q := lt_of_lt_of_le (zpow_pos two_pos _) h1
  have hl : Int.log 2 |q| = e + 52 := by
    rw [abs_of_pos hq]
    have a1 : e + 52 ≤ Int.log 2 q := (Int.zpow_le_iff_le_log (by norm_num) hq).1 (by exact_mod_cast h1)
    have a2 : Int.log 2 q < e + 53 := (Int.lt_zpow_iff_log_lt (by norm_num) hq).1 (by exact_mod_cast h2)
    omega
  rw [rn, if_neg hq.ne', hl, add_sub_cancel_right]

end Verif.F64
