import Verif.Spec.Convex
import Mathlib.Analysis.SpecificLimits.Basic
import Mathlib.Topology.Algebra.InfiniteSum.Real
import Mathlib.Analysis.Normed.Module.FiniteDimension
import Mathlib.Analysis.InnerProductSpace.Basic

/-!
# Gradient descent with momentum that may be reset at any time
-/

namespace Verif
open Spec RealInnerProductSpace Topology

section
variable {E : Type*} [NormedAddCommGroup E] [InnerProductSpace ℝ E]

/-- Iterates `x` and momenta `m`: after every update the momentum is kept or reset. -/
structure MomentumRun (G : E → E) (η β : ℝ) (x m : ℕ → E) : Prop where
  start : m 0 = 0
  step : ∀ n, x (n + 1) = x n - η • (β • m n + G (x n))
  momentum : ∀ n, m (n + 1) = β • m n + G (x n) ∨ m (n + 1) = 0

namespace MomentumRun
variable {F : E → ℝ} {G : E → E} {η β L : ℝ} {x m : ℕ → E}

theorem m_le (h : MomentumRun G η β x m) (n : ℕ) : ‖m (n + 1)‖ ^ 2 ≤ ‖β • m n + G (x n)‖ ^ 2 := by
  rcases h.momentum n with e | e <;> rw [e]
  simp

/-- The energy decreases. -/
theorem energy_step (h : MomentumRun G η β x m) (hS : Smooth F G L) (hη : 0 ≤ η) (hβ : 0 ≤ β) (n : ℕ) :
    F (x (n + 1)) + η * β / 2 * ‖m (n + 1)‖ ^ 2 + η * (1 - β - L * η / 2) * ‖β • m n + G (x n)‖ ^ 2
      ≤ F (x n) + η * β / 2 * ‖m n‖ ^ 2 := by
  have h1 := hS (x n) (x (n + 1))
  set v := β • m n + G (x n) with hv
  have e1 : x (n + 1) - x n = -(η • v) := by rw [h.step n]; abel
  rw [e1, inner_neg_right, norm_neg, real_inner_smul_right, norm_smul, mul_pow, Real.norm_eq_abs, sq_abs] at h1
  have e2 : G (x n) = v - β • m n := by rw [hv]; abel
  have e3 : ⟪G (x n), v⟫ = ‖v‖ ^ 2 - β * ⟪m n, v⟫ := by
    rw [e2, inner_sub_left, real_inner_self_eq_norm_sq, real_inner_smul_left]
  rw [e3] at h1
  have h2 : 2 * ⟪m n, v⟫ ≤ ‖m n‖ ^ 2 + ‖v‖ ^ 2 := by
    have := norm_sub_sq_real (m n) v
    nlinarith [sq_nonneg ‖m n - v‖]
  have h3 := mul_le_mul_of_nonneg_left h2 (mul_nonneg hη hβ)
  have h4 := mul_le_mul_of_nonneg_left (h.m_le n) (mul_nonneg hη hβ)
  linarith

theorem energy (h : MomentumRun G η β x m) (hS : Smooth F G L) (hη : 0 ≤ η) (hβ : 0 ≤ β) (n : ℕ) :
    F (x n) + η * β / 2 * ‖m n‖ ^ 2
      + η * (1 - β - L * η / 2) * ∑ k ∈ Finset.range n, ‖β • m k + G (x k)‖ ^ 2 ≤ F (x 0) := by
  induction n with
  | zero => simp [h.start]
  | succ n ih =>
    rw [Finset.sum_range_succ, mul_add]
    linarith [h.energy_step hS hη hβ n]

theorem m_sum (h : MomentumRun G η β x m) (n : ℕ) :
    ∑ k ∈ Finset.range n, ‖m k‖ ^ 2 ≤ ∑ k ∈ Finset.range n, ‖β • m k + G (x k)‖ ^ 2 := by
  cases n with
  | zero => simp
  | succ n =>
    rw [Finset.sum_range_succ' (fun k => ‖m k‖ ^ 2), Finset.sum_range_succ, h.start]
    have h1 : ∑ k ∈ Finset.range n, ‖m (k + 1)‖ ^ 2 ≤ ∑ k ∈ Finset.range n, ‖β • m k + G (x k)‖ ^ 2 :=
      Finset.sum_le_sum fun k _ => h.m_le k
    have h2 := sq_nonneg ‖β • m n + G (x n)‖
    simp only [norm_zero]
    linarith

/-- The squared gradients add up. -/
theorem gradients (h : MomentumRun G η β x m) (hS : Smooth F G L) (hη : 0 < η) (hβ : 0 ≤ β)
    (hc : 0 < 1 - β - L * η / 2) {b : ℝ} (hb : ∀ u, b ≤ F u) (n : ℕ) :
    ∑ k ∈ Finset.range n, ‖G (x k)‖ ^ 2 ≤ 2 * (1 + β ^ 2) * (F (x 0) - b) / (η * (1 - β - L * η / 2)) := by
  have h1 := h.energy hS hη.le hβ n
  have h2 := hb (x n)
  have h3 : 0 ≤ η * β / 2 * ‖m n‖ ^ 2 := by positivity
  have hκ : 0 < η * (1 - β - L * η / 2) := mul_pos hη hc
  rw [le_div_iff₀ hκ]
  have h4 : ∑ k ∈ Finset.range n, ‖G (x k)‖ ^ 2 ≤ 2 * (1 + β ^ 2) * ∑ k ∈ Finset.range n, ‖β • m k + G (x k)‖ ^ 2 := by
    have h5 : ∑ k ∈ Finset.range n, ‖G (x k)‖ ^ 2
        ≤ ∑ k ∈ Finset.range n, (2 * ‖β • m k + G (x k)‖ ^ 2 + 2 * β ^ 2 * ‖m k‖ ^ 2) := by
      refine Finset.sum_le_sum fun k _ => ?_
      have e : G (x k) = (β • m k + G (x k)) - β • m k := by abel
      have h6 : ‖G (x k)‖ ≤ ‖β • m k + G (x k)‖ + β * ‖m k‖ := by
        have h7 := norm_sub_le (β • m k + G (x k)) (β • m k)
        rw [← e, norm_smul, Real.norm_of_nonneg hβ] at h7
        exact h7
      have h8 := pow_le_pow_left₀ (norm_nonneg _) h6 2
      nlinarith [sq_nonneg (‖β • m k + G (x k)‖ - β * ‖m k‖)]
    rw [Finset.sum_add_distrib, ← Finset.mul_sum, ← Finset.mul_sum] at h5
    have h9 := mul_le_mul_of_nonneg_left (h.m_sum n) (by positivity : 0 ≤ 2 * β ^ 2)
    linarith
  have h10 := mul_le_mul_of_nonneg_right h4 hκ.le
  have h11 : 2 * (1 + β ^ 2) * (η * (1 - β - L * η / 2) * ∑ k ∈ Finset.range n, ‖β • m k + G (x k)‖ ^ 2)
      ≤ 2 * (1 + β ^ 2) * (F (x 0) - b) := mul_le_mul_of_nonneg_left (by linarith) (by positivity)
  linarith

/-- The directions add up. -/
theorem directions (h : MomentumRun G η β x m) (hS : Smooth F G L) (hη : 0 < η) (hβ : 0 ≤ β)
    (hc : 0 < 1 - β - L * η / 2) {b : ℝ} (hb : ∀ u, b ≤ F u) (n : ℕ) :
    ∑ k ∈ Finset.range n, ‖β • m k + G (x k)‖ ^ 2 ≤ (F (x 0) - b) / (η * (1 - β - L * η / 2)) := by
  have h1 := h.energy hS hη.le hβ n
  have h2 := hb (x n)
  have h3 : 0 ≤ η * β / 2 * ‖m n‖ ^ 2 := by positivity
  rw [le_div_iff₀ (mul_pos hη hc)]
  linarith

/-- Change of the distance to a minimiser in one update. -/
theorem distance_step (h : MomentumRun G η β x m) (hF : AboveTangents F G) (hη : 0 < η) (hβ : 0 ≤ β) (u : E) (n : ℕ) :
    ‖x (n + 2) - u‖ ^ 2 - ‖x (n + 1) - u‖ ^ 2 + 2 * η * (F (x (n + 1)) - F u)
      ≤ β * max (‖x (n + 1) - u‖ ^ 2 - ‖x n - u‖ ^ 2) 0 + β * η ^ 2 * ‖β • m n + G (x n)‖ ^ 2
        + η ^ 2 * ‖β • m (n + 1) + G (x (n + 1))‖ ^ 2 := by
  have hstep : ∀ k, ‖x (k + 1) - u‖ ^ 2 - ‖x k - u‖ ^ 2
      = -(2 * η * ⟪β • m k + G (x k), x k - u⟫) + η ^ 2 * ‖β • m k + G (x k)‖ ^ 2 := by
    intro k
    have e : x (k + 1) - u = (x k - u) - η • (β • m k + G (x k)) := by rw [h.step k]; abel
    rw [e, norm_sub_sq_real, real_inner_smul_right, norm_smul, mul_pow, Real.norm_eq_abs, sq_abs,
      real_inner_comm (β • m k + G (x k))]
    ring
  have e1 := hstep (n + 1)
  have e2 : ⟪β • m (n + 1) + G (x (n + 1)), x (n + 1) - u⟫
      = β * ⟪m (n + 1), x (n + 1) - u⟫ + ⟪G (x (n + 1)), x (n + 1) - u⟫ := by
    rw [inner_add_left, real_inner_smul_left]
  have h1 : F (x (n + 1)) - F u ≤ ⟪G (x (n + 1)), x (n + 1) - u⟫ := by
    have h2 := hF (x (n + 1)) u
    have e : u - x (n + 1) = -(x (n + 1) - u) := by abel
    rw [e, inner_neg_right] at h2
    linarith
  have h3 : -(2 * η * ⟪m (n + 1), x (n + 1) - u⟫)
      ≤ max (‖x (n + 1) - u‖ ^ 2 - ‖x n - u‖ ^ 2) 0 + η ^ 2 * ‖β • m n + G (x n)‖ ^ 2 := by
    have hV : 0 ≤ η ^ 2 * ‖β • m n + G (x n)‖ ^ 2 := by positivity
    rcases h.momentum n with e | e
    · have e3 := hstep n
      have e4 : ⟪m (n + 1), x (n + 1) - u⟫
          = ⟪β • m n + G (x n), x n - u⟫ - η * ‖β • m n + G (x n)‖ ^ 2 := by
        have e5 : x (n + 1) - u = (x n - u) - η • (β • m n + G (x n)) := by rw [h.step n]; abel
        rw [e, e5, inner_sub_right, real_inner_smul_right, real_inner_self_eq_norm_sq]
      have h4 := le_max_left (‖x (n + 1) - u‖ ^ 2 - ‖x n - u‖ ^ 2) 0
      rw [e4]
      nlinarith
    · rw [e, inner_zero_left]
      have h4 := le_max_right (‖x (n + 1) - u‖ ^ 2 - ‖x n - u‖ ^ 2) 0
      linarith
  have h5 := mul_le_mul_of_nonneg_left h3 hβ
  have h6 := mul_le_mul_of_nonneg_left h1 (by linarith : 0 ≤ 2 * η)
  rw [show x (n + 1 + 1) = x (n + 2) from rfl] at e1
  rw [e1, e2]
  linarith

theorem distance_first (h : MomentumRun G η β x m) (hF : AboveTangents F G) (hη : 0 < η) (u : E) :
    ‖x 1 - u‖ ^ 2 - ‖x 0 - u‖ ^ 2 + 2 * η * (F (x 0) - F u) ≤ η ^ 2 * ‖β • m 0 + G (x 0)‖ ^ 2 := by
  have e : x 1 - u = (x 0 - u) - η • (β • m 0 + G (x 0)) := by rw [h.step 0]; abel
  have e2 : β • m 0 + G (x 0) = G (x 0) := by rw [h.start, smul_zero, zero_add]
  rw [e, e2, norm_sub_sq_real, real_inner_smul_right, norm_smul, mul_pow, Real.norm_eq_abs, sq_abs,
    real_inner_comm (G (x 0))]
  have h2 := hF (x 0) u
  have e3 : u - x 0 = -(x 0 - u) := by abel
  rw [e3, inner_neg_right] at h2
  have h6 := mul_le_mul_of_nonneg_left (by linarith : F (x 0) - F u ≤ ⟪G (x 0), x 0 - u⟫) (by linarith : 0 ≤ 2 * η)
  linarith

/-- The increases of the distance to a minimiser add up to a bounded amount. -/
theorem increases (h : MomentumRun G η β x m) (hF : AboveTangents F G) (hη : 0 < η) (hβ : 0 ≤ β) {u : E}
    (hu : ∀ w, F u ≤ F w) (n : ℕ) :
    (1 - β) * ∑ k ∈ Finset.range n, max (‖x (k + 1) - u‖ ^ 2 - ‖x k - u‖ ^ 2) 0
      ≤ η ^ 2 * (1 + β) * ∑ k ∈ Finset.range n, ‖β • m k + G (x k)‖ ^ 2 := by
  set θ := fun k => max (‖x (k + 1) - u‖ ^ 2 - ‖x k - u‖ ^ 2) 0 with hθ
  set V := fun k => ‖β • m k + G (x k)‖ ^ 2 with hV
  have hθ0 : ∀ k, 0 ≤ θ k := fun k => le_max_right _ _
  have hV0 : ∀ k, 0 ≤ V k := fun k => sq_nonneg _
  have hs : ∀ k, θ (k + 1) ≤ β * θ k + β * η ^ 2 * V k + η ^ 2 * V (k + 1) := by
    intro k
    have h1 := h.distance_step hF hη hβ u k
    have h2 := mul_nonneg (by linarith : 0 ≤ 2 * η) (by linarith [hu (x (k + 1))] : 0 ≤ F (x (k + 1)) - F u)
    have h3 : 0 ≤ β * θ k + β * η ^ 2 * V k + η ^ 2 * V (k + 1) := by
      have := hθ0 k
      have := hV0 k
      have := hV0 (k + 1)
      positivity
    refine max_le ?_ h3
    simp only [hθ, hV]
    linarith
  have h0 : θ 0 ≤ η ^ 2 * V 0 := by
    have h1 := h.distance_first hF hη u
    have h2 := mul_nonneg (by linarith : 0 ≤ 2 * η) (by linarith [hu (x 0)] : 0 ≤ F (x 0) - F u)
    refine max_le ?_ (mul_nonneg (sq_nonneg _) (hV0 0))
    simp only [hV]
    linarith
  cases n with
  | zero => simp
  | succ n =>
    have key : ∑ k ∈ Finset.range (n + 1), θ k ≤ β * ∑ k ∈ Finset.range n, θ k
        + β * η ^ 2 * ∑ k ∈ Finset.range n, V k + η ^ 2 * ∑ k ∈ Finset.range (n + 1), V k := by
      induction n with
      | zero => simpa using h0
      | succ n ih =>
        rw [Finset.sum_range_succ θ (n + 1), Finset.sum_range_succ V (n + 1), Finset.sum_range_succ θ n]
        rw [Finset.sum_range_succ θ n, Finset.sum_range_succ V n] at ih
        rw [Finset.sum_range_succ V n]
        have := hs n
        simp only [mul_add] at ih ⊢
        linarith
    have e1 : ∑ k ∈ Finset.range n, θ k ≤ ∑ k ∈ Finset.range (n + 1), θ k := by
      rw [Finset.sum_range_succ]; linarith [hθ0 n]
    have e2 : ∑ k ∈ Finset.range n, V k ≤ ∑ k ∈ Finset.range (n + 1), V k := by
      rw [Finset.sum_range_succ]; linarith [hV0 n]
    have e3 := mul_le_mul_of_nonneg_left e1 hβ
    have e4 := mul_le_mul_of_nonneg_left e2 (by positivity : 0 ≤ β * η ^ 2)
    linarith

/-- The excesses of the objective add up. -/
theorem objective_sum (h : MomentumRun G η β x m) (hF : AboveTangents F G) (hη : 0 < η) (hβ : 0 ≤ β) (hβ1 : β < 1) {u : E}
    (hu : ∀ w, F u ≤ F w) (n : ℕ) :
    ‖x n - u‖ ^ 2 + 2 * η * ∑ k ∈ Finset.range n, (F (x k) - F u) ≤ ‖x 0 - u‖ ^ 2
      + η ^ 2 * (1 + β) / (1 - β) * ∑ k ∈ Finset.range n, ‖β • m k + G (x k)‖ ^ 2 := by
  set θ := fun k => max (‖x (k + 1) - u‖ ^ 2 - ‖x k - u‖ ^ 2) 0 with hθ
  set V := fun k => ‖β • m k + G (x k)‖ ^ 2 with hV
  have hV0 : ∀ k, 0 ≤ V k := fun k => sq_nonneg _
  have hθ0 : ∀ k, 0 ≤ θ k := fun k => le_max_right _ _
  have hb : 0 < 1 - β := by linarith
  cases n with
  | zero => simp
  | succ n =>
    have key : ‖x (n + 1) - u‖ ^ 2 + 2 * η * ∑ k ∈ Finset.range (n + 1), (F (x k) - F u) ≤ ‖x 0 - u‖ ^ 2
        + β * ∑ k ∈ Finset.range n, θ k + β * η ^ 2 * ∑ k ∈ Finset.range n, V k
        + η ^ 2 * ∑ k ∈ Finset.range (n + 1), V k := by
      induction n with
      | zero =>
        have h1 := h.distance_first hF hη u
        simp only [Finset.range_one, Finset.sum_singleton, Finset.range_zero, Finset.sum_empty, mul_zero, add_zero,
          zero_add]
        simp only [hV]
        linarith
      | succ n ih =>
        have h1 := h.distance_step hF hη hβ u n
        rw [Finset.sum_range_succ _ (n + 1), Finset.sum_range_succ V (n + 1), Finset.sum_range_succ θ n,
          Finset.sum_range_succ V n]
        rw [Finset.sum_range_succ V n] at ih
        simp only [mul_add] at ih ⊢
        simp only [hθ, hV] at ih ⊢
        linarith
    have h2 := h.increases hF hη hβ hu (n + 1)
    have e1 : ∑ k ∈ Finset.range n, θ k ≤ ∑ k ∈ Finset.range (n + 1), θ k := by
      rw [Finset.sum_range_succ]; linarith [hθ0 n]
    have e2 : ∑ k ∈ Finset.range n, V k ≤ ∑ k ∈ Finset.range (n + 1), V k := by
      rw [Finset.sum_range_succ]; linarith [hV0 n]
    have e3 := mul_le_mul_of_nonneg_left e1 hβ
    have e4 := mul_le_mul_of_nonneg_left e2 (by positivity : 0 ≤ β * η ^ 2)
    have e5 : ∑ k ∈ Finset.range (n + 1), θ k
        ≤ η ^ 2 * (1 + β) / (1 - β) * ∑ k ∈ Finset.range (n + 1), V k := by
      rw [div_mul_eq_mul_div, le_div_iff₀ hb]
      linarith
    have e6 := mul_le_mul_of_nonneg_left e5 hβ
    have e7 : η ^ 2 * (1 + β) / (1 - β) * ∑ k ∈ Finset.range (n + 1), V k
        = β * (η ^ 2 * (1 + β) / (1 - β) * ∑ k ∈ Finset.range (n + 1), V k)
          + η ^ 2 * (1 + β) * ∑ k ∈ Finset.range (n + 1), V k := by
      field_simp
      ring
    rw [e7]
    linarith

/-- The objective approaches its minimum like `1/n`. -/
theorem rate (h : MomentumRun G η β x m) (hF : AboveTangents F G) (hS : Smooth F G L) (hη : 0 < η) (hβ : 0 ≤ β)
    (hβ1 : β < 1) (hc : 0 < 1 - β - L * η / 2) {u : E} (hu : ∀ w, F u ≤ F w) (n : ℕ) :
    n * (F (x n) - F u) ≤ ‖x 0 - u‖ ^ 2 / (2 * η)
      + ((1 + β) / (1 - β) + β) / (2 * (1 - β - L * η / 2)) * (F (x 0) - F u) := by
  set c := 1 - β - L * η / 2 with hcdef
  have hb : 0 < 1 - β := by linarith
  have hmono : Antitone fun n => F (x n) + η * β / 2 * ‖m n‖ ^ 2 := antitone_nat_of_succ_le fun n => by
    have h1 := h.energy_step hS hη.le hβ n
    have h2 : 0 ≤ η * (1 - β - L * η / 2) * ‖β • m n + G (x n)‖ ^ 2 := by rw [← hcdef]; positivity
    linarith
  have h1 : (n : ℝ) * (F (x n) + η * β / 2 * ‖m n‖ ^ 2 - F u)
      ≤ ∑ k ∈ Finset.range n, (F (x k) - F u + η * β / 2 * ‖m k‖ ^ 2) := by
    have h2 := Finset.card_nsmul_le_sum (Finset.range n) (fun k => F (x k) - F u + η * β / 2 * ‖m k‖ ^ 2)
      (F (x n) + η * β / 2 * ‖m n‖ ^ 2 - F u) fun i hi => by
        have h3 := hmono (Finset.mem_range.1 hi).le
        simp only at h3
        linarith
    rwa [Finset.card_range, nsmul_eq_mul] at h2
  rw [Finset.sum_add_distrib, ← Finset.mul_sum] at h1
  have h2 := h.objective_sum hF hη hβ hβ1 hu n
  have h3 := h.m_sum n
  have h4 := h.directions hS hη hβ hc hu n
  rw [← hcdef] at h4
  set V := ∑ k ∈ Finset.range n, ‖β • m k + G (x k)‖ ^ 2 with hV
  set f0 := F (x 0) - F u with hf0
  have h5 : ∑ k ∈ Finset.range n, (F (x k) - F u) ≤ ‖x 0 - u‖ ^ 2 / (2 * η) + η * (1 + β) / (1 - β) / 2 * V := by
    have e : ‖x 0 - u‖ ^ 2 / (2 * η) + η * (1 + β) / (1 - β) / 2 * V
        = (‖x 0 - u‖ ^ 2 + η ^ 2 * (1 + β) / (1 - β) * V) / (2 * η) := by
      field_simp
    rw [e, le_div_iff₀ (by positivity)]
    linarith [sq_nonneg ‖x n - u‖]
  have h6 := mul_le_mul_of_nonneg_left h3 (by positivity : 0 ≤ η * β / 2)
  have h7 := mul_le_mul_of_nonneg_left h4 (by positivity : 0 ≤ η * ((1 + β) / (1 - β) + β) / 2)
  have e8 : η * ((1 + β) / (1 - β) + β) / 2 * (f0 / (η * c))
      = ((1 + β) / (1 - β) + β) / (2 * c) * f0 := by
    field_simp
  have e9 : η * ((1 + β) / (1 - β) + β) / 2 * V = η * (1 + β) / (1 - β) / 2 * V + η * β / 2 * V := by ring
  rw [e8, e9] at h7
  have h10 : (n : ℝ) * (F (x n) - F u) ≤ n * (F (x n) + η * β / 2 * ‖m n‖ ^ 2 - F u) :=
    mul_le_mul_of_nonneg_left (by linarith [(by positivity : 0 ≤ η * β / 2 * ‖m n‖ ^ 2)]) (Nat.cast_nonneg n)
  linarith

/-- The iterates converge. -/
theorem converges [FiniteDimensional ℝ E] (h : MomentumRun G η β x m) (hF : AboveTangents F G) (hS : Smooth F G L)
    (hG : Continuous G) (hη : 0 < η) (hβ : 0 ≤ β) (hβ1 : β < 1) (hc : 0 < 1 - β - L * η / 2) (hex : ∃ u, ∀ w, F u ≤ F w) :
    ∃ q, (∀ w, F q ≤ F w) ∧ Filter.Tendsto x Filter.atTop (𝓝 q) := by
  have : ProperSpace E := FiniteDimensional.proper_real E
  obtain ⟨u₀, hu₀⟩ := hex
  have hVs : Summable fun k => ‖β • m k + G (x k)‖ ^ 2 :=
    summable_of_sum_range_le (fun k => sq_nonneg _) (h.directions hS hη hβ hc hu₀)
  have hb : 0 < 1 - β := by linarith
  -- distances to minimisers converge
  have hdist : ∀ u, (∀ w, F u ≤ F w) → ∃ l, Filter.Tendsto (fun n => ‖x n - u‖ ^ 2) Filter.atTop (𝓝 l) := by
    intro u hu
    set θ := fun k => max (‖x (k + 1) - u‖ ^ 2 - ‖x k - u‖ ^ 2) 0 with hθ
    have hθs : Summable θ := by
      refine summable_of_sum_range_le (c := η ^ 2 * (1 + β) / (1 - β) * ((F (x 0) - F u) / (η * (1 - β - L * η / 2))))
        (fun k => le_max_right _ _) fun n => ?_
      have h1 := h.increases hF hη hβ hu n
      have h2 := mul_le_mul_of_nonneg_left (h.directions hS hη hβ hc hu n)
        (by positivity : 0 ≤ η ^ 2 * (1 + β))
      rw [div_mul_eq_mul_div, le_div_iff₀ hb]
      linarith
    have hanti : Antitone fun n => ‖x n - u‖ ^ 2 - ∑ k ∈ Finset.range n, θ k := antitone_nat_of_succ_le fun n => by
      rw [Finset.sum_range_succ]
      have := le_max_left (‖x (n + 1) - u‖ ^ 2 - ‖x n - u‖ ^ 2) 0
      simp only [hθ]
      linarith
    have hsum := hθs.hasSum.tendsto_sum_nat
    have hbdd : BddBelow (Set.range fun n => ‖x n - u‖ ^ 2 - ∑ k ∈ Finset.range n, θ k) := by
      refine ⟨-∑' k, θ k, ?_⟩
      rintro _ ⟨n, rfl⟩
      have h1 := hθs.sum_le_tsum (Finset.range n) (fun k _ => le_max_right _ _)
      have h2 := sq_nonneg ‖x n - u‖
      simp only
      linarith
    have hl := tendsto_atTop_ciInf hanti hbdd
    refine ⟨_, (hl.add hsum).congr fun n => ?_⟩
    simp
  -- a cluster point
  obtain ⟨l₀, hl₀⟩ := hdist u₀ hu₀
  obtain ⟨R, hR⟩ : ∃ R, ∀ n, x n ∈ Metric.closedBall u₀ R := by
    obtain ⟨R, hR⟩ := hl₀.bddAbove_range
    refine ⟨Real.sqrt R, fun n => ?_⟩
    rw [Metric.mem_closedBall, dist_eq_norm]
    exact Real.le_sqrt_of_sq_le (hR ⟨n, rfl⟩)
  obtain ⟨q, -, φ, hφ, hq⟩ := (isCompact_closedBall u₀ R).tendsto_subseq hR
  have hGs : Summable fun k => ‖G (x k)‖ ^ 2 :=
    summable_of_sum_range_le (fun k => sq_nonneg _) (h.gradients hS hη hβ hc hu₀)
  have hG0 : Filter.Tendsto (fun n => ‖G (x n)‖) Filter.atTop (𝓝 0) := by
    have := (Real.continuous_sqrt.tendsto 0).comp hGs.tendsto_atTop_zero
    rw [Real.sqrt_zero] at this
    refine this.congr fun n => ?_
    exact Real.sqrt_sq (norm_nonneg _)
  have hGq : G q = 0 := by
    have h1 := (hG.norm.tendsto q).comp hq
    have h2 := hG0.comp hφ.tendsto_atTop
    exact norm_eq_zero.1 (tendsto_nhds_unique h1 h2)
  have hqm : ∀ w, F q ≤ F w := fun w => by
    have := hF q w
    rw [hGq, inner_zero_left, add_zero] at this
    exact this
  refine ⟨q, hqm, ?_⟩
  obtain ⟨l, hl⟩ := hdist q hqm
  have h0 : l = 0 := by
    refine tendsto_nhds_unique (hl.comp hφ.tendsto_atTop) ?_
    have h1 : Filter.Tendsto (fun n => x (φ n)) Filter.atTop (𝓝 q) := hq
    have := ((h1.sub_const q).norm.pow 2)
    rw [sub_self, norm_zero, zero_pow two_ne_zero] at this
    exact this
  rw [h0] at hl
  rw [tendsto_iff_norm_sub_tendsto_zero]
  have := (Real.continuous_sqrt.tendsto 0).comp hl
  rw [Real.sqrt_zero] at this
  refine this.congr fun n => ?_
  exact Real.sqrt_sq (norm_nonneg _)

end MomentumRun

end

end Verif
