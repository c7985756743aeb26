import Mathlib.Analysis.RCLike.Basic
import Mathlib.Analysis.Complex.Basic

/-!
# Transformations of arrays (specification)
-/

namespace Verif.Cx

/-- A real array stored as a complex one. -/
def toComplex {ι : Type} (x : ι → ℝ) : ι → ℂ := fun i => (x i : ℂ)

/-- Every entry multiplied by `u`; a global phase when `‖u‖ = 1`. -/
def rotate {ι : Type} (u : ℂ) (x : ι → ℂ) : ι → ℂ := fun i => u * x i

/-- Every entry conjugated. -/
def conjArr {ι : Type} (x : ι → ℂ) : ι → ℂ := fun i => starRingEnd ℂ (x i)

/-- A map of arrays `φ` carries the operator `op` over to `op'`. -/
def Carries {A A' B B' : Type} (φ : A → A') (ψ : B → B') (op : A → B) (op' : A' → B') : Prop :=
  ∀ x, op' (φ x) = ψ (op x)

/-- The same for proximity operators, whose second argument is a number. -/
def CarriesProx {A A' C : Type} (φ : A → A') (op : A → C → A) (op' : A' → C → A') : Prop :=
  ∀ x c, op' (φ x) c = φ (op x c)

end Verif.Cx
