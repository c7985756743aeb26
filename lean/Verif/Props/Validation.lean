import Verif.Model.Validation
import Mathlib.LinearAlgebra.Matrix.ToLin
import Mathlib.MeasureTheory.Measure.Lebesgue.EqHaar
import Mathlib.MeasureTheory.Measure.Prod

/-!
# C68: what the transpose test accepts
-/

open MeasureTheory Matrix
open scoped BigOperators

namespace Verif

open Validation

variable {ι κ A : Type} [Fintype ι] [Fintype κ]

/-- An operator that is the matrix `M`, whatever its extra arguments. -/
def matOp {m n : Type} [Fintype n] (M : Matrix m n ℝ) : Option ((n → ℝ) → A → m → ℝ) :=
  some fun x _ => M *ᵥ x

/-- For every pair of operators (linear or not): if they are adjoint for the extra arguments the test
passes to them, the printed difference is zero for all data; without `y_args` both get `x_args`; an
operator that is not callable raises `TypeError`. -/
theorem C68_adjoint_pairs_pass (op : (ι → ℝ) → A → κ → ℝ) (opT : (κ → ℝ) → A → ι → ℝ) (a b : A) :
    ((∀ x y, ∑ k, op x a k * y k = ∑ i, x i * opT y b i) →
      ∀ x y, transposeTest (some op) (some opT) a (some b) x y = .ok 0) ∧
    (∀ x y, transposeTest (some op) (some opT) a none x y =
      transposeTest (some op) (some opT) a (some a) x y) ∧
    ∀ yArgs x y, transposeTest none (some opT) a yArgs x y = .error .typeError ∧
      transposeTest (some op) none a yArgs x y = .error .typeError ∧
      transposeTest (ι := ι) (κ := κ) none none a yArgs x y = .error .typeError := by
  refine ⟨fun h x y => ?_, fun x y => rfl, fun _ _ _ => ⟨rfl, rfl, rfl⟩⟩
  simp [transposeTest, h x y]

theorem transposeTest_mat (M : Matrix κ ι ℝ) (N : Matrix ι κ ℝ) (a : A) (yArgs : Option A) (x : ι → ℝ)
    (y : κ → ℝ) :
    transposeTest (matOp M) (matOp N) a yArgs x y = .ok |x ⬝ᵥ ((Mᵀ - N) *ᵥ y)| := by
  have e : ∀ b : A, transposeTest (matOp M) (matOp N) a (some b) x y = .ok |x ⬝ᵥ ((Mᵀ - N) *ᵥ y)| := by
    intro b
    simp only [transposeTest, matOp]
    congr 2
    have h1 : ∑ k, (M *ᵥ x) k * y k = x ⬝ᵥ (Mᵀ *ᵥ y) := by
      rw [← vecMul_transpose, dotProduct_mulVec]
      rfl
    rw [h1, sub_mulVec, dotProduct_sub]
    rfl
  cases yArgs with
  | none => exact e a
  | some b => exact e b

/-- For linear operators the test is exact: the difference is zero for every outcome of the random
draws (which lie in `[0, 1)`) if and only if the second matrix is the transpose of the first. -/
theorem C68_iff_transpose [DecidableEq ι] [DecidableEq κ] (M : Matrix κ ι ℝ) (N : Matrix ι κ ℝ) (a : A)
    (yArgs : Option A) :
    (∀ x y, (∀ i, 0 ≤ x i ∧ x i < 1) → (∀ k, 0 ≤ y k ∧ y k < 1) →
      transposeTest (matOp M) (matOp N) a yArgs x y = .ok 0) ↔ N = Mᵀ := by
  constructor
  · intro h
    ext i k
    have := h (Pi.single i (1 / 2)) (Pi.single k (1 / 2))
      (fun j => by by_cases hj : j = i <;> [subst hj; skip] <;> simp [*] <;> norm_num)
      (fun j => by by_cases hj : j = k <;> [subst hj; skip] <;> simp [*] <;> norm_num)
    rw [transposeTest_mat] at this
    injection this with this
    rw [abs_eq_zero, single_dotProduct, mulVec_single] at this
    rw [transpose_apply]
    simp at this
    linarith
  · rintro rfl x y - -
    rw [transposeTest_mat]
    simp

/-- Non-trivial instance: a non-symmetric matrix and its transpose. -/
example : ∀ x y, transposeTest (A := Unit) (matOp !![1, 2; 3, 4]) (matOp !![1, 3; 2, 4]) () none x y =
    .ok 0 := by
  intro x y
  rw [transposeTest_mat]
  have : (!![1, 2; 3, 4] : Matrix (Fin 2) (Fin 2) ℝ)ᵀ - !![1, 3; 2, 4] = 0 := by
    ext i j; fin_cases i <;> fin_cases j <;> simp
  rw [this]; simp

/-- One run is enough: if the second matrix is not the transpose of the first, the draws for which the
test prints zero form a set of measure zero. -/
theorem C68_mismatch_detected_almost_surely {n m : ℕ} (M : Matrix (Fin m) (Fin n) ℝ)
    (N : Matrix (Fin n) (Fin m) ℝ) (a : A) (yArgs : Option A) (h : N ≠ Mᵀ) :
    ∀ᵐ p : (Fin n → ℝ) × (Fin m → ℝ), transposeTest (matOp M) (matOp N) a yArgs p.1 p.2 ≠ .ok 0 := by
  set D := Mᵀ - N with hD
  have hD0 : D ≠ 0 := fun e => h (by rw [hD] at e; exact (sub_eq_zero.1 e).symm)
  have hcont : Continuous fun p : (Fin n → ℝ) × (Fin m → ℝ) => p.1 ⬝ᵥ (D *ᵥ p.2) := by
    simp only [dotProduct, mulVec]
    fun_prop
  have hmeas : MeasurableSet {p : (Fin n → ℝ) × (Fin m → ℝ) | p.1 ⬝ᵥ (D *ᵥ p.2) = 0} :=
    (isClosed_singleton.preimage hcont).measurableSet
  have key : (volume : Measure ((Fin n → ℝ) × (Fin m → ℝ))) {p | p.1 ⬝ᵥ (D *ᵥ p.2) = 0} = 0 := by
    rw [Measure.volume_eq_prod, Measure.measure_prod_null hmeas]
    -- rows: for almost every `x` the vector `x D` is non-zero, and then almost every `y` works
    have hx : ∀ᵐ x : Fin n → ℝ, x ᵥ* D ≠ 0 := by
      have hne : LinearMap.ker (Matrix.vecMulLinear D) ≠ ⊤ := by
        intro ht
        apply hD0
        ext i j
        have : Pi.single i 1 ∈ LinearMap.ker (Matrix.vecMulLinear D) := by rw [ht]; trivial
        rw [LinearMap.mem_ker] at this
        have := congrFun this j
        simpa using this
      have := Measure.addHaar_submodule (volume : Measure (Fin n → ℝ)) _ hne
      refine measure_mono_null (fun x hx => ?_) this
      simp only [ne_eq, Set.mem_compl_iff, Set.mem_ofPred_eq, not_not] at hx
      exact hx
    filter_upwards [hx] with x hx
    have hne : LinearMap.ker (dotProductBilin ℝ ℝ (x ᵥ* D)) ≠ ⊤ := by
      intro ht
      apply hx
      funext j
      have : Pi.single j 1 ∈ LinearMap.ker (dotProductBilin ℝ ℝ (x ᵥ* D)) := by rw [ht]; trivial
      rw [LinearMap.mem_ker] at this
      simpa using this
    have := Measure.addHaar_submodule (volume : Measure (Fin m → ℝ)) _ hne
    refine measure_mono_null (fun y hy => ?_) this
    simp only [Set.mem_preimage, Set.mem_ofPred_eq] at hy
    rw [dotProduct_mulVec] at hy
    exact hy
  refine measure_mono_null (fun p hp => ?_) key
  simp only [ne_eq, Set.mem_compl_iff, Set.mem_ofPred_eq, not_not] at hp
  rw [transposeTest_mat] at hp
  injection hp with hp
  exact abs_eq_zero.1 hp

example : (1 : Matrix (Fin 2) (Fin 2) ℝ) ≠ (0 : Matrix (Fin 2) (Fin 2) ℝ)ᵀ := by
  intro h
  have := congrFun (congrFun h 0) 0
  simp at this

/-- For complex operators the accepted pairs are the transposes, not the adjoints: multiplication by `i`
and its adjoint, multiplication by `-i`, are rejected on every draw of non-zero numbers, and `i` with
itself is accepted. -/
theorem C68_complex_transpose_not_adjoint (x y : Fin 1 → ℝ) (hx : x 0 ≠ 0) (hy : y 0 ≠ 0) :
    (∃ d, transposeTestC (A := Unit) (ι := Fin 1) (κ := Fin 1)
        (some fun x _ k => Complex.I * x k) (some fun y _ k => -Complex.I * y k) () none x y = .ok d ∧
      d ≠ 0) ∧
    transposeTestC (A := Unit) (ι := Fin 1) (κ := Fin 1)
        (some fun x _ k => Complex.I * x k) (some fun y _ k => Complex.I * y k) () none x y = .ok 0 := by
  refine ⟨⟨_, rfl, ?_⟩, ?_⟩
  · simp only [Finset.univ_unique, Finset.sum_singleton, Fin.default_eq_zero]
    rw [show Complex.I * (x 0 : ℂ) * (y 0 : ℂ) - (x 0 : ℂ) * (-Complex.I * (y 0 : ℂ)) =
      2 * Complex.I * x 0 * y 0 by ring]
    simp [hx, hy]
  · simp only [transposeTestC, Finset.univ_unique, Finset.sum_singleton, Fin.default_eq_zero]
    rw [show Complex.I * (x 0 : ℂ) * (y 0 : ℂ) - (x 0 : ℂ) * (Complex.I * (y 0 : ℂ)) = 0 by ring]
    simp

end Verif
