import Mathlib.Analysis.RCLike.Basic

/-!
# Rearranging, splitting and rescaling arrays (specification)
-/

namespace Verif.Eqv

/-- The entries of `x` at the positions `j`.  For a bijection `j` this is `x` with its pixels in another order or under
another shape; for the positions of one image in a stack it is that image. -/
def part {ι ι' A : Type} (j : ι' → ι) (x : ι → A) : ι' → A := fun i => x (j i)

/-- `x` in other units. -/
def scale {ι 𝕜 : Type} [RCLike 𝕜] (s : ℝ) (x : ι → 𝕜) : ι → 𝕜 := fun i => (s : 𝕜) * x i

/-- An operator applied to every image of a stack; image `k` has the entries `(k, i)`. -/
def eachImage {K ι κ A B : Type} (op : K → (ι → A) → κ → B) (x : K × ι → A) : K × κ → B :=
  fun p => op p.1 (fun i => x (p.1, i)) p.2

end Verif.Eqv
