import Mathlib.Analysis.Matrix.Spectrum
import Mathlib.LinearAlgebra.Matrix.Rank

/-!
# Specification: singular value decomposition, Frobenius distance, nuclear norm
-/

namespace Verif.Spec
open Matrix

variable {m n r : Type*} [Fintype m] [Fintype n] [Fintype r] {𝕜 : Type*} [RCLike 𝕜]

/-- Squared Frobenius norm: the sum of the squared moduli of the entries. -/
noncomputable def frobSq (A : Matrix m n 𝕜) : ℝ := ∑ i, ∑ j, ‖A i j‖ ^ 2

/-- `A = U · diag(s) · V` with orthonormal columns of `U`, orthonormal rows of `V`, and non-negative
singular values in decreasing order. -/
structure IsSVD {k : ℕ} (A : Matrix m n 𝕜) (U : Matrix m (Fin k) 𝕜) (s : Fin k → ℝ)
    (V : Matrix (Fin k) n 𝕜) : Prop where
  factor : A = U * diagonal (fun i => (s i : 𝕜)) * V
  left : Uᴴ * U = 1
  right : V * Vᴴ = 1
  nonneg : ∀ i, 0 ≤ s i
  anti : Antitone s

/-- `G` is a contraction: `|⟨x, G y⟩| ≤ ‖x‖ ‖y‖`. -/
def IsContraction (G : Matrix m n 𝕜) : Prop :=
  ∀ (x : m → 𝕜) (y : n → 𝕜),
    ‖∑ i, ∑ j, star (x i) * G i j * y j‖ ^ 2 ≤ (∑ i, ‖x i‖ ^ 2) * ∑ j, ‖y j‖ ^ 2

/-- Real part of the entrywise inner product. -/
noncomputable def frobInner (A B : Matrix m n 𝕜) : ℝ := ∑ i, ∑ j, RCLike.re (star (A i j) * B i j)

/-- The nuclear norm, defined without singular values: the dual of the spectral norm. -/
noncomputable def nuclearNorm (A : Matrix m n 𝕜) : ℝ :=
  sSup {c | ∃ G : Matrix m n 𝕜, IsContraction G ∧ c = frobInner G A}

end Verif.Spec
