import Verif.Spec.Svd
import Mathlib.Analysis.Matrix.PosDef
import Mathlib.Analysis.InnerProductSpace.PiL2
import Mathlib.Analysis.InnerProductSpace.SingularValues

/-!
# Lemmas about Frobenius norms, nuclear norms and singular value decompositions
-/

set_option linter.unusedSectionVars false

namespace Verif
open Matrix Spec

variable {m n r p : Type*} [Fintype m] [Fintype n] [Fintype r] [Fintype p]
variable {𝕜 : Type*} [RCLike 𝕜]

theorem frobSq_nonneg (A : Matrix m n 𝕜) : 0 ≤ frobSq A := by unfold frobSq; positivity

theorem frobSq_eq_trace (A : Matrix m n 𝕜) : (frobSq A : 𝕜) = trace (Aᴴ * A) := by
  unfold frobSq
  simp only [trace, diag_apply, mul_apply, conjTranspose_apply]
  rw [Finset.sum_comm]
  push_cast
  refine Finset.sum_congr rfl fun j _ => Finset.sum_congr rfl fun i _ => ?_
  rw [← RCLike.conj_mul]; rfl

theorem frobSq_eq_trace' (A : Matrix m n 𝕜) : (frobSq A : 𝕜) = trace (A * Aᴴ) := by
  rw [frobSq_eq_trace, trace_mul_comm]

theorem frobSq_conjTranspose (A : Matrix m n 𝕜) : frobSq Aᴴ = frobSq A := by
  have h : (frobSq Aᴴ : 𝕜) = (frobSq A : 𝕜) := by
    rw [frobSq_eq_trace, conjTranspose_conjTranspose, ← frobSq_eq_trace']
  exact_mod_cast h

theorem frobSq_mul_left [DecidableEq r] (U : Matrix m r 𝕜) (h : Uᴴ * U = 1) (B : Matrix r n 𝕜) :
    frobSq (U * B) = frobSq B := by
  have e : (frobSq (U * B) : 𝕜) = (frobSq B : 𝕜) := by
    rw [frobSq_eq_trace, frobSq_eq_trace, conjTranspose_mul, Matrix.mul_assoc, ← Matrix.mul_assoc Uᴴ,
      h, Matrix.one_mul]
  exact_mod_cast e

theorem frobSq_mul_right [DecidableEq r] (V : Matrix r n 𝕜) (h : V * Vᴴ = 1) (B : Matrix m r 𝕜) :
    frobSq (B * V) = frobSq B := by
  rw [← frobSq_conjTranspose, conjTranspose_mul, frobSq_mul_left _ (by simpa using h),
    frobSq_conjTranspose]

theorem frobSq_diagonal [DecidableEq r] (d : r → 𝕜) : frobSq (diagonal d) = ∑ i, ‖d i‖ ^ 2 := by
  unfold frobSq
  refine Finset.sum_congr rfl fun i _ => ?_
  rw [Finset.sum_eq_single i]
  · simp
  · intro j _ hj; simp [diagonal_apply_ne _ hj.symm]
  · simp

theorem frobInner_eq_trace (A B : Matrix m n 𝕜) : frobInner A B = RCLike.re (trace (Aᴴ * B)) := by
  unfold frobInner
  simp only [trace, diag_apply, mul_apply, conjTranspose_apply, map_sum]
  rw [Finset.sum_comm]

theorem frobSq_sub (A B : Matrix m n 𝕜) :
    frobSq (A - B) = frobSq A - 2 * frobInner A B + frobSq B := by
  unfold frobSq frobInner
  simp only [Finset.mul_sum, ← Finset.sum_sub_distrib, ← Finset.sum_add_distrib]
  refine Finset.sum_congr rfl fun i _ => Finset.sum_congr rfl fun j _ => ?_
  have := norm_sub_sq (𝕜 := 𝕜) (A i j) (B i j)
  rw [Matrix.sub_apply, this]
  simp [RCLike.inner_apply, mul_comm]

theorem frobInner_sub_right (A B C : Matrix m n 𝕜) :
    frobInner A (B - C) = frobInner A B - frobInner A C := by
  simp only [frobInner_eq_trace, Matrix.mul_sub, trace_sub, map_sub]

theorem frobInner_sub_left (A B C : Matrix m n 𝕜) :
    frobInner (A - B) C = frobInner A C - frobInner B C := by
  simp only [frobInner_eq_trace, conjTranspose_sub, Matrix.sub_mul, trace_sub, map_sub]

theorem frobInner_self (A : Matrix m n 𝕜) : frobInner A A = frobSq A := by
  rw [frobInner_eq_trace, ← frobSq_eq_trace, RCLike.ofReal_re]

theorem frobInner_comm (A B : Matrix m n 𝕜) : frobInner A B = frobInner B A := by
  unfold frobInner
  refine Finset.sum_congr rfl fun i _ => Finset.sum_congr rfl fun j _ => ?_
  rw [← RCLike.conj_re]; simp [mul_comm]

/-- Bessel: an orthonormal family captures at most the whole energy, column by column. -/
theorem col_bessel [DecidableEq r] (U : Matrix m r 𝕜) (h : Uᴴ * U = 1) (X : Matrix m n 𝕜) (j : n) :
    ∑ i, ‖(Uᴴ * X) i j‖ ^ 2 ≤ ∑ i, ‖X i j‖ ^ 2 := by
  classical
  -- restrict to one column
  let Y : Matrix m (Fin 1) 𝕜 := fun i _ => X i j
  have e1 : frobSq (Uᴴ * Y) = ∑ i, ‖(Uᴴ * X) i j‖ ^ 2 := by
    unfold frobSq; rw [Finset.sum_congr rfl fun i _ => ?_]
    rw [Fin.sum_univ_one, mul_apply, mul_apply]
  have e2 : frobSq Y = ∑ i, ‖X i j‖ ^ 2 := by unfold frobSq; simp [Y]
  rw [← e1, ← e2]
  have e3 : frobSq (U * (Uᴴ * Y)) = frobSq (Uᴴ * Y) := frobSq_mul_left U h _
  have e4 : frobInner Y (U * (Uᴴ * Y)) = frobSq (Uᴴ * Y) := by
    rw [frobInner_eq_trace, ← RCLike.ofReal_re (K := 𝕜) (frobSq _), frobSq_eq_trace, conjTranspose_mul,
      conjTranspose_conjTranspose]
    simp only [Matrix.mul_assoc]
  have h5 := frobSq_nonneg (Y - U * (Uᴴ * Y))
  rw [frobSq_sub, e3, e4] at h5
  linarith

theorem frobSq_bessel [DecidableEq r] (U : Matrix m r 𝕜) (h : Uᴴ * U = 1) (X : Matrix m n 𝕜) :
    frobSq (Uᴴ * X) ≤ frobSq X := by
  unfold frobSq
  rw [Finset.sum_comm, Finset.sum_comm (s := Finset.univ (α := m))]
  exact Finset.sum_le_sum fun j _ => col_bessel U h X j

theorem row_bessel [DecidableEq r] (V : Matrix r n 𝕜) (h : V * Vᴴ = 1) (X : Matrix m n 𝕜) (i : m) :
    ∑ j, ‖(X * Vᴴ) i j‖ ^ 2 ≤ ∑ j, ‖X i j‖ ^ 2 := by
  have := col_bessel Vᴴ (by simpa using h) Xᴴ i
  have e : ∀ j, ‖(Vᴴᴴ * Xᴴ) j i‖ = ‖(X * Vᴴ) i j‖ := by
    intro j
    have : Vᴴᴴ * Xᴴ = (X * Vᴴ)ᴴ := by simp
    rw [this, conjTranspose_apply, norm_star]
  simp only [e, conjTranspose_apply, norm_star] at this
  exact this


/-! ## Nuclear norm -/

theorem bilin_eq [DecidableEq r] (U : Matrix m r 𝕜) (d : r → 𝕜) (V : Matrix r n 𝕜) (x : m → 𝕜)
    (y : n → 𝕜) :
    ∑ i, ∑ j, star (x i) * (U * diagonal d * V) i j * y j =
      ∑ k, star (∑ i, star (U i k) * x i) * d k * ∑ j, V k j * y j := by
  have e : ∀ i j, (U * diagonal d * V) i j = ∑ k, U i k * d k * V k j := by
    intro i j; rw [mul_apply]; exact Finset.sum_congr rfl fun k _ => by rw [mul_diagonal]
  simp only [e, star_sum, star_mul', star_star, Finset.sum_mul, Finset.mul_sum]
  rw [Finset.sum_comm' (t' := Finset.univ) (s' := fun _ => Finset.univ) (by simp)]
  conv_rhs => rw [Finset.sum_comm]
  refine Finset.sum_congr rfl fun j _ => ?_
  rw [Finset.sum_comm]
  refine Finset.sum_congr rfl fun k _ => ?_
  refine Finset.sum_congr rfl fun i _ => ?_
  ring

theorem vec_bessel [DecidableEq r] (U : Matrix m r 𝕜) (h : Uᴴ * U = 1) (x : m → 𝕜) :
    ∑ k, ‖∑ i, star (U i k) * x i‖ ^ 2 ≤ ∑ i, ‖x i‖ ^ 2 := by
  have := col_bessel U h (Matrix.of fun i (_ : Fin 1) => x i) 0
  have e : ∀ k, (Uᴴ * (Matrix.of fun i (_ : Fin 1) => x i)) k 0 = ∑ i, star (U i k) * x i := by
    intro k; rw [mul_apply]; rfl
  simpa only [e, Matrix.of_apply] using this

theorem vec_bessel' [DecidableEq r] (V : Matrix r n 𝕜) (h : V * Vᴴ = 1) (y : n → 𝕜) :
    ∑ k, ‖∑ j, V k j * y j‖ ^ 2 ≤ ∑ j, ‖y j‖ ^ 2 := by
  have := vec_bessel Vᴴ (by simpa using h) y
  simpa using this

theorem isContraction_factor [DecidableEq r] (U : Matrix m r 𝕜) (hU : Uᴴ * U = 1) (V : Matrix r n 𝕜)
    (hV : V * Vᴴ = 1) (d : r → 𝕜) (hd : ∀ i, ‖d i‖ ≤ 1) : IsContraction (U * diagonal d * V) := by
  intro x y
  rw [bilin_eq]
  set a : r → 𝕜 := fun k => ∑ i, star (U i k) * x i
  set b : r → 𝕜 := fun k => ∑ j, V k j * y j
  have h1 : ‖∑ k, star (a k) * d k * b k‖ ≤ ∑ k, ‖a k‖ * ‖b k‖ := by
    refine (norm_sum_le _ _).trans (Finset.sum_le_sum fun k _ => ?_)
    rw [norm_mul, norm_mul, norm_star]
    have := mul_le_mul_of_nonneg_left (hd k) (norm_nonneg (a k))
    exact mul_le_mul_of_nonneg_right (by linarith) (norm_nonneg _)
  calc ‖∑ k, star (a k) * d k * b k‖ ^ 2 ≤ (∑ k, ‖a k‖ * ‖b k‖) ^ 2 := by gcongr
    _ ≤ (∑ k, ‖a k‖ ^ 2) * ∑ k, ‖b k‖ ^ 2 := Finset.sum_mul_sq_le_sq_mul_sq _ _ _
    _ ≤ _ := by
      gcongr
      · exact vec_bessel U hU x
      · exact vec_bessel' V hV y

theorem frobInner_factor_le {k : ℕ} {A : Matrix m n 𝕜} {U : Matrix m (Fin k) 𝕜} {s : Fin k → ℝ}
    {V : Matrix (Fin k) n 𝕜} (h : IsSVD A U s V) (G : Matrix m n 𝕜) (hG : IsContraction G) :
    frobInner G A ≤ ∑ i, s i := by
  have e : ∀ i j, A i j = ∑ l, (s l : 𝕜) * (U i l * V l j) := by
    intro i j; rw [h.factor, mul_apply]
    exact Finset.sum_congr rfl fun l _ => by rw [mul_diagonal]; ring
  have e2 : frobInner G A = ∑ l, s l * RCLike.re (∑ i, ∑ j, star (G i j) * (U i l * V l j)) := by
    unfold frobInner
    have : ∀ i j, RCLike.re (star (G i j) * A i j) =
        ∑ l, s l * RCLike.re (star (G i j) * (U i l * V l j)) := by
      intro i j
      rw [e, Finset.mul_sum, map_sum]
      refine Finset.sum_congr rfl fun l _ => ?_
      rw [← RCLike.re_ofReal_mul]; congr 1; ring
    simp only [this, map_sum, Finset.mul_sum]
    rw [Finset.sum_comm' (t' := Finset.univ) (s' := fun _ => Finset.univ) (by simp)]
    rw [Finset.sum_comm' (t' := Finset.univ) (s' := fun _ => Finset.univ) (by simp)]
    conv_rhs => rw [Finset.sum_comm]
    refine Finset.sum_congr rfl fun i _ => ?_
    rw [Finset.sum_comm]
  rw [e2]
  refine Finset.sum_le_sum fun l _ => ?_
  have hc := hG (fun i => U i l) (fun j => star (V l j))
  have hu : ∑ i, ‖U i l‖ ^ 2 = 1 := by
    have := congrFun (congrFun h.left l) l
    rw [mul_apply, one_apply_eq] at this
    have e3 : ((∑ i, ‖U i l‖ ^ 2 : ℝ) : 𝕜) = 1 := by
      rw [← this]; push_cast
      exact Finset.sum_congr rfl fun i _ => by rw [conjTranspose_apply, ← RCLike.conj_mul]; rfl
    exact_mod_cast e3
  have hv : ∑ j, ‖star (V l j)‖ ^ 2 = 1 := by
    have := congrFun (congrFun h.right l) l
    rw [mul_apply, one_apply_eq] at this
    have e3 : ((∑ i, ‖star (V l i)‖ ^ 2 : ℝ) : 𝕜) = 1 := by
      rw [← this]; push_cast
      exact Finset.sum_congr rfl fun i _ => by
        rw [conjTranspose_apply, norm_star, ← RCLike.mul_conj]; rfl
    exact_mod_cast e3
  rw [hu, hv, mul_one] at hc
  have e4 : ∑ i, ∑ j, star (G i j) * (U i l * V l j) =
      star (∑ i, ∑ j, star (U i l) * G i j * star (V l j)) := by
    simp only [star_sum, star_mul', star_star]
    refine Finset.sum_congr rfl fun i _ => Finset.sum_congr rfl fun j _ => ?_
    ring
  have h1 : RCLike.re (∑ i, ∑ j, star (G i j) * (U i l * V l j)) ≤ 1 := by
    refine (RCLike.re_le_norm _).trans ?_
    rw [e4, norm_star]
    exact (sq_le_one_iff₀ (norm_nonneg _)).1 hc
  exact (mul_le_mul_of_nonneg_left h1 (h.nonneg l)).trans (by rw [mul_one])

theorem frobInner_factor [DecidableEq r] (U : Matrix m r 𝕜) (hU : Uᴴ * U = 1) (V : Matrix r n 𝕜)
    (hV : V * Vᴴ = 1) (a b : r → ℝ) :
    frobInner (U * diagonal (fun i => (a i : 𝕜)) * V) (U * diagonal (fun i => (b i : 𝕜)) * V)
      = ∑ i, a i * b i := by
  rw [frobInner_eq_trace]
  have : (U * diagonal (fun i => (a i : 𝕜)) * V)ᴴ * (U * diagonal (fun i => (b i : 𝕜)) * V) =
      Vᴴ * (diagonal (fun i => ((a i * b i : ℝ) : 𝕜)) * V) := by
    rw [conjTranspose_mul, conjTranspose_mul, diagonal_conjTranspose]
    have e : (star fun i => ((a i : ℝ) : 𝕜)) = fun i => (a i : 𝕜) := by funext i; simp
    rw [e]
    calc _ = Vᴴ * (diagonal (fun i => (a i : 𝕜)) * ((Uᴴ * U) * (diagonal (fun i => (b i : 𝕜)) * V))) := by
          simp only [Matrix.mul_assoc]
      _ = _ := by
          rw [hU, Matrix.one_mul, ← Matrix.mul_assoc (diagonal _), diagonal_mul_diagonal]
          congr 2; congr 1; funext i; push_cast; rfl
  rw [this, trace_mul_comm, Matrix.mul_assoc, hV, Matrix.mul_one, trace_diagonal, map_sum]
  exact Finset.sum_congr rfl fun i _ => by rw [RCLike.ofReal_re]

theorem sum_single_sq {q : Type*} [Fintype q] [DecidableEq q] (i : q) :
    ∑ i', ‖(Pi.single i 1 : q → 𝕜) i'‖ ^ 2 = 1 := by
  rw [Finset.sum_eq_single i]
  · simp
  · intro b _ hb; simp [Pi.single_eq_of_ne hb]
  · simp

theorem contraction_entry {G : Matrix m n 𝕜} (hG : IsContraction G) (i : m) (j : n) : ‖G i j‖ ≤ 1 := by
  classical
  have := hG (Pi.single i 1) (Pi.single j 1)
  have e : ∑ i', ∑ j', star ((Pi.single i 1 : m → 𝕜) i') * G i' j' * (Pi.single j 1 : n → 𝕜) j' = G i j := by
    rw [Finset.sum_eq_single i, Finset.sum_eq_single j]
    · simp
    · intro b _ hb; simp [Pi.single_eq_of_ne hb]
    · simp
    · intro b _ hb; simp [Pi.single_eq_of_ne hb]
    · simp
  rw [e, sum_single_sq i, sum_single_sq j, mul_one] at this
  exact (sq_le_one_iff₀ (norm_nonneg _)).1 this

theorem frobInner_contraction_bdd (A : Matrix m n 𝕜) :
    BddAbove {c | ∃ G : Matrix m n 𝕜, IsContraction G ∧ c = frobInner G A} := by
  refine ⟨∑ i, ∑ j, ‖A i j‖, ?_⟩
  rintro c ⟨G, hG, rfl⟩
  unfold frobInner
  refine Finset.sum_le_sum fun i _ => Finset.sum_le_sum fun j _ => ?_
  refine (RCLike.re_le_norm _).trans ?_
  rw [norm_mul, norm_star]
  exact mul_le_of_le_one_left (norm_nonneg _) (contraction_entry hG i j)

theorem frobInner_le_nuclearNorm (A G : Matrix m n 𝕜) (hG : IsContraction G) :
    frobInner G A ≤ nuclearNorm A :=
  le_csSup (frobInner_contraction_bdd A) ⟨G, hG, rfl⟩

theorem isContraction_zero : IsContraction (0 : Matrix m n 𝕜) := by
  intro x y; simp; positivity

/-- The nuclear norm is the sum of the singular values of any decomposition. -/
theorem nuclearNorm_eq_sum {k : ℕ} {A : Matrix m n 𝕜} {U : Matrix m (Fin k) 𝕜} {s : Fin k → ℝ}
    {V : Matrix (Fin k) n 𝕜} (h : IsSVD A U s V) : nuclearNorm A = ∑ i, s i := by
  refine le_antisymm ?_ ?_
  · refine csSup_le ⟨_, 0, isContraction_zero, rfl⟩ ?_
    rintro c ⟨G, hG, rfl⟩
    exact frobInner_factor_le h G hG
  · have h1 := frobInner_le_nuclearNorm A (U * diagonal (fun _ => ((1 : ℝ) : 𝕜)) * V)
      (isContraction_factor U h.left V h.right _ (by simp))
    conv at h1 => lhs; rw [h.factor, frobInner_factor U h.left V h.right]
    simpa using h1

theorem nuclearNorm_nonneg (A : Matrix m n 𝕜) : 0 ≤ nuclearNorm A := by
  have := frobInner_le_nuclearNorm A 0 isContraction_zero
  simpa [frobInner] using this

/-- Soft thresholding of the singular values solves the nuclear-norm proximal problem, with a
quadratic margin. -/
theorem nuclear_prox {k : ℕ} {A : Matrix m n 𝕜} {U : Matrix m (Fin k) 𝕜} {s : Fin k → ℝ}
    {V : Matrix (Fin k) n 𝕜} (h : IsSVD A U s V) (t : ℝ) (ht : 0 ≤ t) (B : Matrix m n 𝕜) :
    1 / 2 * frobSq (A - U * diagonal (fun i => ((max (s i - t) 0 : ℝ) : 𝕜)) * V)
        + t * nuclearNorm (U * diagonal (fun i => ((max (s i - t) 0 : ℝ) : 𝕜)) * V)
        + 1 / 2 * frobSq (U * diagonal (fun i => ((max (s i - t) 0 : ℝ) : 𝕜)) * V - B)
      ≤ 1 / 2 * frobSq (A - B) + t * nuclearNorm B := by
  set z : Fin k → ℝ := fun i => max (s i - t) 0 with hz
  set Z : Matrix m n 𝕜 := U * diagonal (fun i => (z i : 𝕜)) * V with hZ
  have hsvdZ : IsSVD Z U z V := by
    refine ⟨rfl, h.left, h.right, fun i => le_max_right _ _, fun i j hij => ?_⟩
    exact max_le_max (by have := h.anti hij; linarith) le_rfl
  have hnZ : nuclearNorm Z = ∑ i, z i := nuclearNorm_eq_sum hsvdZ
  have hG : A - Z = U * diagonal (fun i => ((min (s i) t : ℝ) : 𝕜)) * V := by
    conv_lhs => rw [h.factor]
    rw [hZ, ← Matrix.sub_mul, ← Matrix.mul_sub, diagonal_sub]
    congr 3; funext i
    rw [← RCLike.ofReal_sub]; congr 1
    rcases le_total (s i) t with hh | hh
    · simp [hz, max_eq_right (sub_nonpos.2 hh), min_eq_left hh]
    · simp [hz, max_eq_left (sub_nonneg.2 hh), min_eq_right hh]
  have hGZ : frobInner (A - Z) Z = t * ∑ i, z i := by
    rw [hG, hZ, frobInner_factor U h.left V h.right, Finset.mul_sum]
    refine Finset.sum_congr rfl fun i _ => ?_
    rcases le_total (s i) t with hh | hh
    · simp [hz, max_eq_right (sub_nonpos.2 hh)]
    · simp [min_eq_right hh]
  have hGB : frobInner (A - Z) B ≤ t * nuclearNorm B := by
    rcases ht.eq_or_lt with rfl | ht'
    · rw [hG]
      have e : (fun i => ((min (s i) 0 : ℝ) : 𝕜)) = fun _ => 0 := by
        funext i; simp [min_eq_right (h.nonneg i)]
      rw [e]
      simp [frobInner]
    · have hc := frobInner_le_nuclearNorm B (U * diagonal (fun i => ((min (s i) t / t : ℝ) : 𝕜)) * V)
        (isContraction_factor U h.left V h.right _ (fun i => by
          rw [RCLike.norm_ofReal, abs_of_nonneg (div_nonneg (le_min (h.nonneg i) ht) ht)]
          exact div_le_one_of_le₀ (min_le_right _ _) ht))
      have e : A - Z = ((t : ℝ) : 𝕜) • (U * diagonal (fun i => ((min (s i) t / t : ℝ) : 𝕜)) * V) := by
        rw [hG, ← Matrix.smul_mul, ← Matrix.mul_smul, ← diagonal_smul]
        congr 3; funext i
        rw [Pi.smul_apply, smul_eq_mul, ← RCLike.ofReal_mul, mul_div_cancel₀ _ ht'.ne']
      have e2 : ∀ M : Matrix m n 𝕜, frobInner (((t : ℝ) : 𝕜) • M) B = t * frobInner M B := by
        intro M
        unfold frobInner
        simp only [Finset.mul_sum]
        refine Finset.sum_congr rfl fun i _ => Finset.sum_congr rfl fun j _ => ?_
        rw [← RCLike.re_ofReal_mul, Matrix.smul_apply, smul_eq_mul, star_mul']
        congr 1; simp; ring
      rw [e, e2]
      exact mul_le_mul_of_nonneg_left hc ht
  have expand : frobSq (A - B) = frobSq (A - Z) + 2 * frobInner (A - Z) (Z - B) + frobSq (Z - B) := by
    have := frobSq_sub (A - Z) (B - Z)
    have e1 : A - Z - (B - Z) = A - B := by abel
    have e2 : frobSq (B - Z) = frobSq (Z - B) := by
      unfold frobSq
      refine Finset.sum_congr rfl fun i _ => Finset.sum_congr rfl fun j _ => ?_
      rw [Matrix.sub_apply, Matrix.sub_apply, norm_sub_rev]
    have e3 : frobInner (A - Z) (B - Z) = - frobInner (A - Z) (Z - B) := by
      rw [frobInner_sub_right, frobInner_sub_right]; ring
    rw [e1, e2, e3] at this
    linarith
  rw [expand, frobInner_sub_right, hGZ, hnZ]
  linarith


/-! ## Best approximation of bounded rank -/

/-- Weights in `[0,1]` of total mass at most `k` collect at most the `k` largest of a decreasing
sequence. -/
theorem sum_top_le {N : ℕ} (c w : Fin N → ℝ) (hc : Antitone c) (hc0 : ∀ i, 0 ≤ c i)
    (hw0 : ∀ i, 0 ≤ w i) (hw1 : ∀ i, w i ≤ 1) (k : ℕ) (hk : ∑ i, w i ≤ k) :
    ∑ i, c i * w i ≤ ∑ i : Fin N, if (i : ℕ) < k then c i else 0 := by
  rcases Nat.lt_or_ge k N with hkN | hkN
  · let q : Fin N := ⟨k, hkN⟩
    have hterm : ∀ i : Fin N, c i * w i - (if (i : ℕ) < k then c i else 0) ≤
        c q * (w i - if (i : ℕ) < k then 1 else 0) := by
      intro i
      by_cases hi : (i : ℕ) < k
      · have : c q ≤ c i := hc (by rw [Fin.le_def]; exact hi.le)
        have h1 := hw1 i
        simp only [if_pos hi]
        nlinarith
      · have : c i ≤ c q := hc (by rw [Fin.le_def]; exact Nat.le_of_not_lt hi)
        simp only [if_neg hi, sub_zero]
        exact mul_le_mul_of_nonneg_right this (hw0 i)
    have hs := Finset.sum_le_sum fun i (_ : i ∈ Finset.univ) => hterm i
    rw [Finset.sum_sub_distrib, ← Finset.mul_sum, Finset.sum_sub_distrib] at hs
    have hcount : ∑ i : Fin N, (if (i : ℕ) < k then (1 : ℝ) else 0) = k := by
      rw [Fin.sum_univ_eq_sum_range (fun i => if i < k then (1 : ℝ) else 0) N,
        Finset.sum_ite, Finset.sum_const_zero, add_zero, Finset.sum_const, nsmul_eq_mul, mul_one]
      have : (Finset.range N).filter (fun i => i < k) = Finset.range k := by
        ext i; simp; omega
      rw [this, Finset.card_range]
    rw [hcount] at hs
    have := mul_nonneg (hc0 q) (sub_nonneg.2 hk)
    nlinarith
  · refine Finset.sum_le_sum fun i _ => ?_
    rw [if_pos (lt_of_lt_of_le i.2 hkN)]
    exact mul_le_of_le_one_right (hc0 i) (hw1 i)

/-- An orthonormal basis of the column space of `B`. -/
theorem exists_orthonormal_range (B : Matrix m n 𝕜) :
    ∃ (Q : Matrix m (Fin B.rank) 𝕜) (C : Matrix (Fin B.rank) n 𝕜), Qᴴ * Q = 1 ∧ B = Q * C := by
  classical
  let S : Submodule 𝕜 (EuclideanSpace 𝕜 m) :=
    Submodule.span 𝕜 (Set.range fun j : n => WithLp.toLp 2 (B.col j))
  have hfin : Module.finrank 𝕜 S = B.rank := by
    rw [Matrix.rank_eq_finrank_span_cols]
    have e : S = (Submodule.span 𝕜 (Set.range B.col)).map
        ((WithLp.linearEquiv 2 𝕜 (m → 𝕜)).symm : (m → 𝕜) →ₗ[𝕜] EuclideanSpace 𝕜 m) := by
      rw [Submodule.map_span, ← Set.range_comp]; rfl
    rw [e]
    exact LinearEquiv.finrank_map_eq _ _
  let b : OrthonormalBasis (Fin B.rank) 𝕜 S := (stdOrthonormalBasis 𝕜 S).reindex (finCongr hfin)
  have hmem : ∀ j : n, (WithLp.toLp 2 (B.col j) : EuclideanSpace 𝕜 m) ∈ S := fun j =>
    Submodule.subset_span ⟨j, rfl⟩
  refine ⟨Matrix.of fun i k => (b k : EuclideanSpace 𝕜 m) i,
    Matrix.of fun k j => inner 𝕜 (b k) (⟨_, hmem j⟩ : S), ?_, ?_⟩
  · ext k l
    have := orthonormal_iff_ite.1 b.orthonormal k l
    rw [mul_apply, one_apply, ← this, Submodule.coe_inner, PiLp.inner_apply]
    refine Finset.sum_congr rfl fun i _ => ?_
    rw [RCLike.inner_apply, conjTranspose_apply, mul_comm]; rfl
  · ext i j
    have := b.sum_repr' (⟨_, hmem j⟩ : S)
    have h2 := congrArg (fun z : S => (z : EuclideanSpace 𝕜 m) i) this
    simp only [Submodule.coe_sum, Submodule.coe_smul] at h2
    rw [mul_apply]
    have e : ∀ f : Fin B.rank → EuclideanSpace 𝕜 m, (∑ k, f k) i = ∑ k, f k i := by
      intro f; simp
    rw [e] at h2
    refine Eq.trans h2.symm ?_
    refine Finset.sum_congr rfl fun k _ => ?_
    simp [mul_comm]

/-- Distance from `A` to any matrix of rank at most `k`: at least the energy of the singular values
after the first `k`. -/
theorem eckart_young {N : ℕ} {A : Matrix m n 𝕜} {U : Matrix m (Fin N) 𝕜} {s : Fin N → ℝ}
    {V : Matrix (Fin N) n 𝕜} (h : IsSVD A U s V) (k : ℕ) (B : Matrix m n 𝕜) (hB : B.rank ≤ k) :
    (∑ i : Fin N, if (i : ℕ) < k then 0 else s i ^ 2) ≤ frobSq (A - B) := by
  obtain ⟨Q, C, hQ, hBQ⟩ := exists_orthonormal_range B
  -- projecting on the column space of `B`
  have h1 : frobSq A - frobSq (Qᴴ * A) ≤ frobSq (A - B) := by
    have e1 : frobInner A B = frobInner (Qᴴ * A) C := by
      rw [frobInner_eq_trace, frobInner_eq_trace, conjTranspose_mul, conjTranspose_conjTranspose,
        Matrix.mul_assoc, ← hBQ]
    have e2 : frobSq B = frobSq C := (congrArg frobSq hBQ).trans (frobSq_mul_left Q hQ C)
    have h2 := frobSq_nonneg (Qᴴ * A - C)
    rw [frobSq_sub] at h2
    rw [frobSq_sub, e1, e2]
    linarith
  have hA : frobSq A = ∑ i, s i ^ 2 := by
    rw [h.factor, frobSq_mul_right _ h.right, frobSq_mul_left _ h.left, frobSq_diagonal]
    exact Finset.sum_congr rfl fun i _ => by rw [RCLike.norm_ofReal, sq_abs]
  -- energy in the column space
  let w : Fin N → ℝ := fun i => ∑ j, ‖(Qᴴ * U) j i‖ ^ 2
  have hQA : frobSq (Qᴴ * A) = ∑ i, s i ^ 2 * w i := by
    have e : Qᴴ * A = (Qᴴ * U * diagonal (fun i => (s i : 𝕜))) * V := by
      conv_lhs => rw [h.factor]
      simp only [Matrix.mul_assoc]
    rw [e, frobSq_mul_right _ h.right]
    unfold frobSq
    rw [Finset.sum_comm]
    refine Finset.sum_congr rfl fun i _ => ?_
    rw [Finset.mul_sum]
    refine Finset.sum_congr rfl fun j _ => ?_
    rw [mul_diagonal, norm_mul, RCLike.norm_ofReal, mul_pow, sq_abs, mul_comm]
  have hUcol : ∀ i, ∑ j, ‖U j i‖ ^ 2 = 1 := by
    intro i
    have := congrFun (congrFun h.left i) i
    rw [mul_apply, one_apply_eq] at this
    have e3 : ((∑ j, ‖U j i‖ ^ 2 : ℝ) : 𝕜) = 1 := by
      rw [← this]; push_cast
      exact Finset.sum_congr rfl fun i _ => by rw [conjTranspose_apply, ← RCLike.conj_mul]; rfl
    exact_mod_cast e3
  have hw1 : ∀ i, w i ≤ 1 := fun i => (col_bessel Q hQ U i).trans (hUcol i).le
  have hsum : ∑ i, w i ≤ k := by
    have e1 : ∑ i, w i = frobSq (Uᴴ * Q) := by
      have : Uᴴ * Q = (Qᴴ * U)ᴴ := by simp
      rw [this, frobSq_conjTranspose]; unfold frobSq; rw [Finset.sum_comm]
    have e2 : frobSq Q = B.rank := by
      have : (frobSq Q : 𝕜) = ((B.rank : ℝ) : 𝕜) := by
        rw [frobSq_eq_trace, hQ, trace_one, Fintype.card_fin]; simp
      exact_mod_cast this
    have h3 := frobSq_bessel U h.left Q
    rw [e1]
    calc _ ≤ frobSq Q := h3
      _ = B.rank := e2
      _ ≤ k := by exact_mod_cast hB
  have h4 := sum_top_le (fun i => s i ^ 2) w
    (fun i j hij => by
      have := h.anti hij; have := h.nonneg j
      exact pow_le_pow_left₀ (h.nonneg j) (h.anti hij) 2)
    (fun i => sq_nonneg _) (fun i => by positivity) hw1 k hsum
  have h5 : (∑ i : Fin N, if (i : ℕ) < k then 0 else s i ^ 2) =
      ∑ i, s i ^ 2 - ∑ i : Fin N, if (i : ℕ) < k then s i ^ 2 else 0 := by
    rw [← Finset.sum_sub_distrib]
    refine Finset.sum_congr rfl fun i _ => ?_
    split_ifs <;> ring
  rw [h5]
  linarith


/-! ## Every matrix has a singular value decomposition -/

theorem exists_isSVD_tall {M N : ℕ} (hNM : N ≤ M) (A : Matrix (Fin M) (Fin N) 𝕜) :
    ∃ (U : Matrix (Fin M) (Fin N) 𝕜) (s : Fin N → ℝ) (V : Matrix (Fin N) (Fin N) 𝕜), IsSVD A U s V := by
  classical
  let T : EuclideanSpace 𝕜 (Fin N) →ₗ[𝕜] EuclideanSpace 𝕜 (Fin M) := Matrix.toEuclideanLin A
  have hT := T.isSymmetric_adjoint_comp_self
  have hn : Module.finrank 𝕜 (EuclideanSpace 𝕜 (Fin N)) = N := by simp
  let l : Fin N → ℝ := hT.eigenvalues hn
  let v : OrthonormalBasis (Fin N) 𝕜 (EuclideanSpace 𝕜 (Fin N)) := hT.eigenvectorBasis hn
  have hl0 : ∀ i, 0 ≤ l i := fun i => T.isPositive_adjoint_comp_self.nonneg_eigenvalues hn i
  have hla : Antitone l := hT.eigenvalues_antitone hn
  have hin : ∀ i j, inner 𝕜 (T (v i)) (T (v j)) = if i = j then (l j : 𝕜) else 0 := by
    intro i j
    rw [← LinearMap.adjoint_inner_right]
    have := hT.apply_eigenvectorBasis hn j
    rw [LinearMap.comp_apply] at this
    rw [this, inner_smul_right]
    have := orthonormal_iff_ite.1 v.orthonormal i j
    rw [this]
    split_ifs <;> simp [l]
  let s : Fin N → ℝ := fun i => √(l i)
  let f : Fin M → EuclideanSpace 𝕜 (Fin M) := fun i =>
    if h : (i : ℕ) < N then (((s ⟨i, h⟩)⁻¹ : ℝ) : 𝕜) • T (v ⟨i, h⟩) else 0
  let S : Set (Fin M) := {i | ∃ h : (i : ℕ) < N, s ⟨i, h⟩ ≠ 0}
  have hf : Orthonormal 𝕜 (S.domRestrict f) := by
    rw [orthonormal_iff_ite]
    rintro ⟨i, hi, hsi⟩ ⟨j, hj, hsj⟩
    have ei : ∀ h, S.domRestrict f ⟨i, h⟩ = (((s ⟨i, hi⟩)⁻¹ : ℝ) : 𝕜) • T (v ⟨i, hi⟩) := fun _ => dif_pos hi
    have ej : ∀ h, S.domRestrict f ⟨j, h⟩ = (((s ⟨j, hj⟩)⁻¹ : ℝ) : 𝕜) • T (v ⟨j, hj⟩) := fun _ => dif_pos hj
    rw [ei, ej, inner_smul_left, inner_smul_right, hin]
    by_cases hij : i = j
    · subst hij
      simp only [if_true]
      have h2 : s ⟨i, hi⟩ * s ⟨i, hi⟩ = l ⟨i, hi⟩ := Real.mul_self_sqrt (hl0 _)
      rw [RCLike.conj_ofReal, ← RCLike.ofReal_mul, ← RCLike.ofReal_mul, ← h2]
      have : (s ⟨i, hi⟩)⁻¹ * ((s ⟨i, hi⟩)⁻¹ * (s ⟨i, hi⟩ * s ⟨i, hi⟩)) = 1 := by field_simp
      rw [this]; simp
    · have h1 : (⟨i, hi⟩ : Fin N) ≠ ⟨j, hj⟩ := fun h => hij (Fin.ext (Fin.mk.inj_iff.1 h))
      rw [if_neg h1, if_neg (fun h => hij (congrArg Subtype.val h))]; simp
  obtain ⟨b, hb⟩ := hf.exists_orthonormalBasis_extension_of_card_eq (by simp)
  have hTv : ∀ k : Fin N, T (v k) = (s k : 𝕜) • b (Fin.castLE hNM k) := by
    intro k
    by_cases hk : s k = 0
    · have h1 : l k = 0 := (Real.sqrt_eq_zero (hl0 k)).1 hk
      have h2 : inner 𝕜 (T (v k)) (T (v k)) = (0 : 𝕜) := by rw [hin, if_pos rfl, h1]; simp
      rw [inner_self_eq_zero.1 h2, hk]; simp
    · have hmem : Fin.castLE hNM k ∈ S := ⟨k.2, hk⟩
      rw [hb _ hmem]
      have hlt : ((Fin.castLE hNM k : Fin M) : ℕ) < N := k.2
      simp only [f, dif_pos hlt]
      rw [smul_smul, ← RCLike.ofReal_mul]
      have : s k * (s ⟨(Fin.castLE hNM k : ℕ), hlt⟩)⁻¹ = 1 := mul_inv_cancel₀ hk
      rw [this]; simp
  let U : Matrix (Fin M) (Fin N) 𝕜 := Matrix.of fun i k => b (Fin.castLE hNM k) i
  let V : Matrix (Fin N) (Fin N) 𝕜 := Matrix.of fun k j => star (v k j)
  have hV : V * Vᴴ = 1 := by
    ext i j
    have := orthonormal_iff_ite.1 v.orthonormal i j
    rw [mul_apply, one_apply, ← this, PiLp.inner_apply]
    refine Finset.sum_congr rfl fun k _ => ?_
    rw [RCLike.inner_apply, conjTranspose_apply]
    simp [V, mul_comm]
  have hU : Uᴴ * U = 1 := by
    ext i j
    have := orthonormal_iff_ite.1 b.orthonormal (Fin.castLE hNM i) (Fin.castLE hNM j)
    have e : (Fin.castLE hNM i = Fin.castLE hNM j) ↔ i = j := (Fin.castLE_injective hNM).eq_iff
    rw [mul_apply, one_apply, ← if_congr e rfl rfl, ← this, PiLp.inner_apply]
    refine Finset.sum_congr rfl fun k _ => ?_
    rw [RCLike.inner_apply, conjTranspose_apply]
    simp [U, mul_comm]
  refine ⟨U, s, V, ?_, hU, hV, fun i => Real.sqrt_nonneg _, fun i j hij => Real.sqrt_le_sqrt (hla hij)⟩
  have hV' : Vᴴ * V = 1 := mul_eq_one_comm.1 hV
  have key : A * Vᴴ = U * diagonal (fun i => (s i : 𝕜)) := by
    ext i k
    have h1 := congrArg (fun z : EuclideanSpace 𝕜 (Fin M) => z i) (hTv k)
    have e1 : (T (v k)) i = ∑ j, A i j * v k j := by
      simp only [T, Matrix.toLpLin_apply]; rfl
    rw [mul_apply, mul_diagonal]
    have e2 : ∑ j, A i j * Vᴴ j k = ∑ j, A i j * v k j := by
      refine Finset.sum_congr rfl fun j _ => ?_
      simp [V, conjTranspose_apply]
    rw [e2, ← e1]
    refine h1.trans ?_
    rw [PiLp.smul_apply, smul_eq_mul, mul_comm]; rfl
  calc A = A * (Vᴴ * V) := by rw [hV', Matrix.mul_one]
    _ = A * Vᴴ * V := by rw [Matrix.mul_assoc]
    _ = _ := by rw [key]

/-- Every matrix has a (thin) singular value decomposition. -/
theorem exists_isSVD {M N : ℕ} (A : Matrix (Fin M) (Fin N) 𝕜) :
    ∃ (U : Matrix (Fin M) (Fin (min M N)) 𝕜) (s : Fin (min M N) → ℝ)
      (V : Matrix (Fin (min M N)) (Fin N) 𝕜), IsSVD A U s V := by
  rcases le_total N M with h | h
  · rw [min_eq_right h]; exact exists_isSVD_tall h A
  · rw [min_eq_left h]
    obtain ⟨U, s, V, hh⟩ := exists_isSVD_tall h Aᴴ
    refine ⟨Vᴴ, s, Uᴴ, ?_, by simpa using hh.right, by simpa using hh.left, hh.nonneg, hh.anti⟩
    have := congrArg conjTranspose hh.factor
    rw [conjTranspose_conjTranspose, conjTranspose_mul, conjTranspose_mul, diagonal_conjTranspose] at this
    have e : (star fun i => ((s i : ℝ) : 𝕜)) = fun i => (s i : 𝕜) := by funext i; simp
    rw [e] at this
    rw [this, Matrix.mul_assoc]

end Verif
