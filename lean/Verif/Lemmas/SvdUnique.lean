import Verif.Lemmas.Svd
import Mathlib.LinearAlgebra.Lagrange

/-!
# Singular values, and functions of them, do not depend on the chosen decomposition
-/

set_option linter.unusedSectionVars false

namespace Verif
open Matrix Spec Polynomial

variable {m n : Type*} [Fintype m] [Fintype n] [DecidableEq m] {𝕜 : Type*} [RCLike 𝕜]

theorem frobSq_factor_sub' {r : ℕ} {A : Matrix m n 𝕜} {U : Matrix m (Fin r) 𝕜}
    {s : Fin r → ℝ} {V : Matrix (Fin r) n 𝕜} (h : IsSVD A U s V) (d : Fin r → ℝ) :
    frobSq (A - U * diagonal (fun i => (d i : 𝕜)) * V) = ∑ i, (s i - d i) ^ 2 := by
  conv_lhs => rw [h.factor]
  rw [← Matrix.sub_mul, ← Matrix.mul_sub, diagonal_sub, frobSq_mul_right _ h.right,
    frobSq_mul_left _ h.left, frobSq_diagonal]
  refine Finset.sum_congr rfl fun i _ => ?_
  rw [← RCLike.ofReal_sub, RCLike.norm_ofReal, sq_abs]

theorem rank_factor_le' {r : ℕ} (U : Matrix m (Fin r) 𝕜) (d : Fin r → ℝ)
    (V : Matrix (Fin r) n 𝕜) (k : ℕ) (hd : ∀ i : Fin r, k ≤ i → d i = 0) :
    (U * diagonal (fun i => (d i : 𝕜)) * V).rank ≤ k := by
  refine (Matrix.rank_mul_le_left _ _).trans ((Matrix.rank_mul_le_right _ _).trans ?_)
  rw [Matrix.rank_diagonal]
  rw [Fintype.card_subtype]
  calc _ ≤ ((Finset.univ : Finset (Fin r)).filter fun i : Fin r => (i : ℕ) < k).card := by
        refine Finset.card_le_card fun i hi => ?_
        simp only [Finset.mem_filter, Finset.mem_univ, true_and] at hi ⊢
        by_contra hc
        exact hi (by rw [hd i (by omega)]; simp)
    _ ≤ k := by
        have := Finset.card_le_card_of_injOn
          (s := (Finset.univ : Finset (Fin r)).filter fun i : Fin r => (i : ℕ) < k)
          (t := Finset.range k) (fun i => (i : ℕ)) (by intro i hi; simpa using hi)
          (fun i _ j _ h => Fin.ext h)
        simpa using this

theorem tail_le {r : ℕ} {A : Matrix m n 𝕜} {U U' : Matrix m (Fin r) 𝕜} {s s' : Fin r → ℝ}
    {V V' : Matrix (Fin r) n 𝕜} (h : IsSVD A U s V) (h' : IsSVD A U' s' V') (k : ℕ) :
    (∑ i : Fin r, if (i : ℕ) < k then 0 else s i ^ 2) ≤
      ∑ i : Fin r, if (i : ℕ) < k then 0 else s' i ^ 2 := by
  have := eckart_young h k
    (U' * diagonal (fun i : Fin r => ((if (i : ℕ) < k then s' i else 0 : ℝ) : 𝕜)) * V')
    (rank_factor_le' U' (fun i : Fin r => if (i : ℕ) < k then s' i else 0) V' k
      (fun i hi => if_neg (by omega)))
  rw [frobSq_factor_sub' h'] at this
  refine this.trans (Finset.sum_le_sum fun i _ => ?_)
  split_ifs <;> simp

/-- The singular values are determined by the matrix. -/
theorem isSVD_values_unique {r : ℕ} {A : Matrix m n 𝕜} {U U' : Matrix m (Fin r) 𝕜} {s s' : Fin r → ℝ}
    {V V' : Matrix (Fin r) n 𝕜} (h : IsSVD A U s V) (h' : IsSVD A U' s' V') : s = s' := by
  funext q
  have hk : ∀ k : ℕ, (∑ i : Fin r, if (i : ℕ) < k then 0 else s i ^ 2) =
      ∑ i : Fin r, if (i : ℕ) < k then 0 else s' i ^ 2 := fun k =>
    le_antisymm (tail_le h h' k) (tail_le h' h k)
  have hd : ∀ t : Fin r → ℝ, t q ^ 2 = (∑ i : Fin r, if (i : ℕ) < (q : ℕ) then 0 else t i ^ 2) -
      ∑ i : Fin r, if (i : ℕ) < (q : ℕ) + 1 then 0 else t i ^ 2 := by
    intro t
    rw [← Finset.sum_sub_distrib, Finset.sum_eq_single q]
    · simp
    · intro b _ hb
      have : (b : ℕ) ≠ q := fun h => hb (Fin.ext h)
      by_cases h1 : (b : ℕ) < q
      · rw [if_pos h1, if_pos (by omega)]; simp
      · rw [if_neg h1, if_neg (by omega)]; simp
    · simp
  have : s q ^ 2 = s' q ^ 2 := by rw [hd s, hd s', hk, hk]
  exact (pow_left_inj₀ (h.nonneg q) (h'.nonneg q) two_ne_zero).1 this

theorem aeval_svd {r : ℕ} {A : Matrix m n 𝕜} {U : Matrix m (Fin r) 𝕜} {s : Fin r → ℝ}
    {V : Matrix (Fin r) n 𝕜} (h : IsSVD A U s V) (p : ℝ[X]) :
    aeval (A * Aᴴ) p * A = U * diagonal (fun i => ((s i * p.eval (s i ^ 2) : ℝ) : 𝕜)) * V := by
  have hAA : ∀ d : Fin r → ℝ, (A * Aᴴ) * (U * diagonal (fun i => (d i : 𝕜)) * V) =
      U * diagonal (fun i => ((s i ^ 2 * d i : ℝ) : 𝕜)) * V := by
    intro d
    have e1 : A * Aᴴ = U * (diagonal (fun i => ((s i ^ 2 : ℝ) : 𝕜)) * Uᴴ) := by
      conv_lhs => rw [h.factor]
      rw [conjTranspose_mul, conjTranspose_mul, diagonal_conjTranspose]
      have e : (star fun i => ((s i : ℝ) : 𝕜)) = fun i => (s i : 𝕜) := by funext i; simp
      rw [e]
      calc _ = U * (diagonal (fun i => (s i : 𝕜)) * ((V * Vᴴ) * (diagonal (fun i => (s i : 𝕜)) * Uᴴ))) := by
            simp only [Matrix.mul_assoc]
        _ = _ := by
            rw [h.right, Matrix.one_mul, ← Matrix.mul_assoc (diagonal _), diagonal_mul_diagonal]
            congr 3; funext i; push_cast; ring
    rw [e1]
    calc _ = U * (diagonal (fun i => ((s i ^ 2 : ℝ) : 𝕜)) * ((Uᴴ * U) * (diagonal (fun i => (d i : 𝕜)) * V))) := by
          simp only [Matrix.mul_assoc]
      _ = _ := by
          rw [h.left, Matrix.one_mul, ← Matrix.mul_assoc (diagonal _), diagonal_mul_diagonal,
            ← Matrix.mul_assoc]
          congr 3; funext i; push_cast; ring
  induction p using Polynomial.induction_on' with
  | add p q hp hq =>
    rw [map_add, Matrix.add_mul, hp, hq, ← Matrix.add_mul, ← Matrix.mul_add, diagonal_add]
    congr 3; funext i; rw [eval_add]; push_cast; ring
  | monomial k a =>
    rw [aeval_monomial]
    have hpow : ∀ k : ℕ, (A * Aᴴ) ^ k * A = U * diagonal (fun i => ((s i * (s i ^ 2) ^ k : ℝ) : 𝕜)) * V := by
      intro k
      induction k with
      | zero => simpa using h.factor
      | succ k ih =>
        rw [pow_succ', Matrix.mul_assoc, ih, hAA]
        congr 3; funext i; congr 1; ring
    rw [Algebra.algebraMap_eq_smul_one, smul_one_mul, Matrix.smul_mul, hpow, ← Matrix.smul_mul,
      ← Matrix.mul_smul, ← diagonal_smul]
    congr 3; funext i
    rw [Pi.smul_apply, eval_monomial, RCLike.real_smul_eq_coe_mul, ← RCLike.ofReal_mul]
    congr 1; ring

/-- A function of the singular values that vanishes with them gives the same matrix for all
decompositions. -/
theorem svd_function_unique {r : ℕ} {A : Matrix m n 𝕜} {U U' : Matrix m (Fin r) 𝕜} {s s' : Fin r → ℝ}
    {V V' : Matrix (Fin r) n 𝕜} (h : IsSVD A U s V) (h' : IsSVD A U' s' V') (f : ℝ → ℝ) (hf : f 0 = 0) :
    U * diagonal (fun i => (f (s i) : 𝕜)) * V = U' * diagonal (fun i => (f (s' i) : 𝕜)) * V' := by
  classical
  have hss : s = s' := isSVD_values_unique h h'
  subst hss
  let S : Finset ℝ := Finset.univ.image fun i => s i ^ 2
  let p : ℝ[X] := Lagrange.interpolate S id fun x => f (Real.sqrt x) / Real.sqrt x
  have hp : ∀ i, s i * p.eval (s i ^ 2) = f (s i) := by
    intro i
    have := Lagrange.eval_interpolate_at_node (v := id) (fun x => f (Real.sqrt x) / Real.sqrt x)
      (s := S) (Function.injective_id.injOn) (Finset.mem_image.2 ⟨i, Finset.mem_univ i, rfl⟩)
    simp only [id] at this
    rw [show p.eval (s i ^ 2) = _ from this, Real.sqrt_sq (h.nonneg i)]
    rcases eq_or_ne (s i) 0 with h0 | h0
    · rw [h0, hf, zero_mul]
    · field_simp
  have h1 := aeval_svd h p
  have h2 := aeval_svd h' p
  simp only [hp] at h1 h2
  rw [← h1, h2]

end Verif
