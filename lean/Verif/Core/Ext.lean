import Mathlib.Algebra.Order.Field.Basic
import Mathlib.Analysis.SpecialFunctions.Log.Base
import Mathlib.Analysis.Real.Sqrt

/-!
# Numbers with infinities and NaN

`Ext K` adds `+∞`, `-∞` and NaN to an ordered field; signed zeros and rounding are not modelled.
-/

namespace Verif

/-- A floating-point value without rounding. -/
inductive Ext (K : Type*)
  | fin (a : K)
  | posInf
  | negInf
  | nan
  deriving DecidableEq, Repr

namespace Ext
variable {K : Type*} [Field K] [LinearOrder K]

/-- `v > 0` (IEEE: false for NaN). -/
def gtZero : Ext K → Bool
  | fin a => decide (0 < a)
  | posInf => true
  | negInf => false
  | nan => false

/-- `v * b` for a boolean `b` (IEEE: `∞ * 0` is NaN). -/
def mulBool : Ext K → Bool → Ext K
  | fin a, true => fin a
  | fin _, false => fin 0
  | posInf, true => posInf
  | negInf, true => negInf
  | posInf, false => nan
  | negInf, false => nan
  | nan, _ => nan

/-- The infinity (or NaN) of the sign of `a`. -/
def infOf (a : K) : Ext K := if a = 0 then nan else if 0 < a then posInf else negInf

/-- `-v`. -/
def neg : Ext K → Ext K
  | fin a => fin (-a)
  | posInf => negInf
  | negInf => posInf
  | nan => nan

/-- `v + w` (IEEE: `∞ - ∞` is NaN). -/
def add : Ext K → Ext K → Ext K
  | fin a, fin b => fin (a + b)
  | nan, _ => nan
  | _, nan => nan
  | posInf, negInf => nan
  | negInf, posInf => nan
  | posInf, _ => posInf
  | _, posInf => posInf
  | negInf, _ => negInf
  | _, negInf => negInf

/-- `v - w`. -/
def sub (v w : Ext K) : Ext K := add v (neg w)

/-- `c * v` for a finite positive constant `c`. -/
def scalePos (c : K) : Ext K → Ext K
  | fin a => fin (c * a)
  | posInf => posInf
  | negInf => negInf
  | nan => nan

/-- `v / w` as NumPy computes it: division by (unsigned) zero gives an infinity or NaN. -/
def div : Ext K → Ext K → Ext K
  | fin a, fin b => if b = 0 then infOf a else fin (a / b)
  | fin _, posInf => fin 0
  | fin _, negInf => fin 0
  | posInf, fin b => if b < 0 then negInf else posInf
  | negInf, fin b => if b < 0 then posInf else negInf
  | _, _ => nan

/-- `np.log10`. -/
noncomputable def log10 : Ext ℝ → Ext ℝ
  | fin a => if a < 0 then nan else if a = 0 then negInf else fin (Real.logb 10 a)
  | posInf => posInf
  | negInf => nan
  | nan => nan

/-- `np.sqrt`. -/
noncomputable def sqrt : Ext ℝ → Ext ℝ
  | fin a => if a < 0 then nan else fin (Real.sqrt a)
  | posInf => posInf
  | negInf => nan
  | nan => nan

end Ext
end Verif
