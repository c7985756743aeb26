import Verif.Spec.Convex
import Mathlib.Analysis.InnerProductSpace.PiL2
import Mathlib.Analysis.SpecialFunctions.Sqrt
import Mathlib.Analysis.SpecialFunctions.Exp
import Mathlib.Topology.Order.MonotoneConvergence
import Mathlib.Topology.MetricSpace.ProperSpace
import Mathlib.Topology.Sequences
import Mathlib.Tactic.Linarith
import Mathlib.Tactic.Positivity
import Mathlib.Tactic.FieldSimp

/-!
# The AdaGrad recursion on smooth functions
-/

set_option linter.unusedSectionVars false

namespace Verif
open Spec RealInnerProductSpace Topology

variable {ι : Type} [Fintype ι]

/-- The AdaGrad recursion: iterate and accumulated squared gradients. -/
noncomputable def adaSeq (G : EuclideanSpace ℝ ι → EuclideanSpace ℝ ι) (η ε : ℝ) (x0 : EuclideanSpace ℝ ι) :
    ℕ → EuclideanSpace ℝ ι × (ι → ℝ)
  | 0 => (x0, fun _ => 0)
  | n + 1 =>
    let p := adaSeq G η ε x0 n
    (WithLp.toLp 2 fun i => p.1 i - η / (Real.sqrt (p.2 i + (G p.1 i) ^ 2) + ε) * G p.1 i,
      fun i => p.2 i + (G p.1 i) ^ 2)

section
variable (G : EuclideanSpace ℝ ι → EuclideanSpace ℝ ι) (η ε : ℝ) (x0 : EuclideanSpace ℝ ι)

/-- The denominators of the steps. -/
noncomputable def adaH (n : ℕ) (i : ι) : ℝ := Real.sqrt ((adaSeq G η ε x0 (n + 1)).2 i) + ε

theorem ada_S_succ (n : ℕ) (i : ι) :
    (adaSeq G η ε x0 (n + 1)).2 i = (adaSeq G η ε x0 n).2 i + (G (adaSeq G η ε x0 n).1 i) ^ 2 := rfl

theorem ada_x_succ (n : ℕ) (i : ι) :
    (adaSeq G η ε x0 (n + 1)).1 i
      = (adaSeq G η ε x0 n).1 i - η / adaH G η ε x0 n i * G (adaSeq G η ε x0 n).1 i := rfl

theorem ada_S_nonneg (n : ℕ) (i : ι) : 0 ≤ (adaSeq G η ε x0 n).2 i := by
  induction n with
  | zero => exact le_refl _
  | succ n ih => rw [ada_S_succ]; positivity

theorem ada_S_mono (i : ι) : Monotone fun n => (adaSeq G η ε x0 n).2 i :=
  monotone_nat_of_le_succ fun n => by
    simp only [ada_S_succ]
    linarith [sq_nonneg (G (adaSeq G η ε x0 n).1 i)]

theorem ada_H_ge (_hε : 0 < ε) (n : ℕ) (i : ι) : ε ≤ adaH G η ε x0 n i := by
  unfold adaH; linarith [Real.sqrt_nonneg ((adaSeq G η ε x0 (n + 1)).2 i)]

theorem ada_H_mono (i : ι) : Monotone fun n => adaH G η ε x0 n i := fun m n h => by
  unfold adaH
  have := Real.sqrt_le_sqrt (ada_S_mono G η ε x0 i (Nat.succ_le_succ h))
  simpa using this

end

/-- The excess of one step over half of the guaranteed decrease. -/
theorem ada_excess {a S M ε : ℝ} (ha : 0 ≤ a) (hM : 0 ≤ M) (hε : 0 < ε) :
    a * (M - (Real.sqrt (S + a) + ε)) / (Real.sqrt (S + a) + ε) ^ 2
      ≤ M * (min (S + a) (M ^ 2) - min S (M ^ 2)) / ε ^ 2 := by
  have hr := Real.sqrt_nonneg (S + a)
  have hmono : min S (M ^ 2) ≤ min (S + a) (M ^ 2) := min_le_min (by linarith) le_rfl
  by_cases h : M ≤ Real.sqrt (S + a)
  · have h1 : a * (M - (Real.sqrt (S + a) + ε)) ≤ 0 := mul_nonpos_of_nonneg_of_nonpos ha (by linarith)
    exact (div_nonpos_of_nonpos_of_nonneg h1 (by positivity)).trans
      (div_nonneg (mul_nonneg hM (by linarith)) (by positivity))
  · push Not at h
    have hlt : S + a < M ^ 2 := by
      by_contra hc
      push Not at hc
      have := Real.sqrt_le_sqrt hc
      rw [Real.sqrt_sq hM] at this
      linarith
    rw [min_eq_left hlt.le, min_eq_left (by linarith)]
    have e : M * (S + a - S) = a * M := by ring
    rw [e]
    apply div_le_div₀ (mul_nonneg ha hM) _ (by positivity) _
    · exact mul_le_mul_of_nonneg_left (by linarith) ha
    · exact pow_le_pow_left₀ hε.le (by linarith) 2

section
variable {F : EuclideanSpace ℝ ι → ℝ} {G : EuclideanSpace ℝ ι → EuclideanSpace ℝ ι} {L η ε : ℝ}

theorem ada_descent (hS : Smooth F G L) (x0 : EuclideanSpace ℝ ι) (n : ℕ) (hε : 0 < ε) :
    F (adaSeq G η ε x0 (n + 1)).1 ≤ F (adaSeq G η ε x0 n).1
      + ∑ i, (-(η * ((G (adaSeq G η ε x0 n).1 i) ^ 2 / adaH G η ε x0 n i)) / 2
        + η / 2 * ((G (adaSeq G η ε x0 n).1 i) ^ 2 * (L * η - adaH G η ε x0 n i) / adaH G η ε x0 n i ^ 2)) := by
  have h := hS (adaSeq G η ε x0 n).1 (adaSeq G η ε x0 (n + 1)).1
  have e1 : ⟪G (adaSeq G η ε x0 n).1, (adaSeq G η ε x0 (n + 1)).1 - (adaSeq G η ε x0 n).1⟫
      = ∑ i, -(η * ((G (adaSeq G η ε x0 n).1 i) ^ 2 / adaH G η ε x0 n i)) := by
    rw [PiLp.inner_apply]
    refine Finset.sum_congr rfl fun i _ => ?_
    simp only [RCLike.inner_apply, conj_trivial, PiLp.sub_apply, ada_x_succ]
    ring
  have e2 : ‖(adaSeq G η ε x0 (n + 1)).1 - (adaSeq G η ε x0 n).1‖ ^ 2
      = ∑ i, η ^ 2 * ((G (adaSeq G η ε x0 n).1 i) ^ 2 / adaH G η ε x0 n i ^ 2) := by
    rw [EuclideanSpace.norm_sq_eq]
    refine Finset.sum_congr rfl fun i _ => ?_
    simp only [Real.norm_eq_abs, sq_abs, PiLp.sub_apply, ada_x_succ]
    ring
  rw [e1, e2, Finset.mul_sum, add_assoc, ← Finset.sum_add_distrib] at h
  refine h.trans (le_of_eq ?_)
  congr 1
  refine Finset.sum_congr rfl fun i _ => ?_
  have := (hε.trans_le (ada_H_ge G η ε x0 hε n i)).ne'
  field_simp
  ring

/-- The decreases add up. -/
theorem ada_total (hS : Smooth F G L) (hL : 0 ≤ L) (hη : 0 < η) (hε : 0 < ε) (x0 : EuclideanSpace ℝ ι) (n : ℕ) :
    F (adaSeq G η ε x0 n).1
        + ∑ i, η / 2 * ∑ k ∈ Finset.range n, (G (adaSeq G η ε x0 k).1 i) ^ 2 / adaH G η ε x0 k i
      ≤ F x0 + ∑ i, η / 2 * ((L * η) * min ((adaSeq G η ε x0 n).2 i) ((L * η) ^ 2) / ε ^ 2) := by
  induction n with
  | zero =>
    have : ∀ i : ι, (adaSeq G η ε x0 0).2 i = 0 := fun _ => rfl
    simp only [Finset.range_zero, Finset.sum_empty, mul_zero, Finset.sum_const_zero, add_zero, this]
    rw [min_eq_left (by positivity)]
    simp [adaSeq]
  | succ n ih =>
    have h := ada_descent hS x0 n hε (η := η)
    have e : ∑ i, η / 2 * ∑ k ∈ Finset.range (n + 1), (G (adaSeq G η ε x0 k).1 i) ^ 2 / adaH G η ε x0 k i
        = ∑ i, η / 2 * ∑ k ∈ Finset.range n, (G (adaSeq G η ε x0 k).1 i) ^ 2 / adaH G η ε x0 k i
          + ∑ i, η / 2 * ((G (adaSeq G η ε x0 n).1 i) ^ 2 / adaH G η ε x0 n i) := by
      rw [← Finset.sum_add_distrib]
      refine Finset.sum_congr rfl fun i _ => ?_
      rw [Finset.sum_range_succ]; ring
    have hex : ∑ i, η / 2 * ((G (adaSeq G η ε x0 n).1 i) ^ 2 * (L * η - adaH G η ε x0 n i) / adaH G η ε x0 n i ^ 2)
        ≤ ∑ i, η / 2 * ((L * η) * min ((adaSeq G η ε x0 (n + 1)).2 i) ((L * η) ^ 2) / ε ^ 2)
          - ∑ i, η / 2 * ((L * η) * min ((adaSeq G η ε x0 n).2 i) ((L * η) ^ 2) / ε ^ 2) := by
      rw [← Finset.sum_sub_distrib]
      refine Finset.sum_le_sum fun i _ => ?_
      have := ada_excess (S := (adaSeq G η ε x0 n).2 i) (sq_nonneg (G (adaSeq G η ε x0 n).1 i))
        (mul_nonneg hL hη.le) hε
      have h2 := mul_le_mul_of_nonneg_left this (by positivity : (0 : ℝ) ≤ η / 2)
      refine h2.trans (le_of_eq ?_)
      rw [ada_S_succ]
      ring
    have e2 : ∑ i, (-(η * ((G (adaSeq G η ε x0 n).1 i) ^ 2 / adaH G η ε x0 n i)) / 2
        + η / 2 * ((G (adaSeq G η ε x0 n).1 i) ^ 2 * (L * η - adaH G η ε x0 n i) / adaH G η ε x0 n i ^ 2))
        = -∑ i, η / 2 * ((G (adaSeq G η ε x0 n).1 i) ^ 2 / adaH G η ε x0 n i)
          + ∑ i, η / 2 * ((G (adaSeq G η ε x0 n).1 i) ^ 2 * (L * η - adaH G η ε x0 n i) / adaH G η ε x0 n i ^ 2) := by
      rw [← Finset.sum_neg_distrib, ← Finset.sum_add_distrib]
      refine Finset.sum_congr rfl fun i _ => ?_
      ring
    rw [e2] at h
    rw [e]
    linarith

theorem ada_S_le_mul (hε : 0 < ε) (x0 : EuclideanSpace ℝ ι) (n : ℕ) (i : ι) :
    (adaSeq G η ε x0 n).2 i ≤ (∑ k ∈ Finset.range n, (G (adaSeq G η ε x0 k).1 i) ^ 2 / adaH G η ε x0 k i)
      * (Real.sqrt ((adaSeq G η ε x0 n).2 i) + ε) := by
  induction n with
  | zero => simp [adaSeq]
  | succ n ih =>
    have hpos := hε.trans_le (ada_H_ge G η ε x0 hε n i)
    have hB : 0 ≤ ∑ k ∈ Finset.range n, (G (adaSeq G η ε x0 k).1 i) ^ 2 / adaH G η ε x0 k i :=
      Finset.sum_nonneg fun k _ => div_nonneg (sq_nonneg _) (hε.trans_le (ada_H_ge G η ε x0 hε k i)).le
    have hm : Real.sqrt ((adaSeq G η ε x0 n).2 i) + ε ≤ adaH G η ε x0 n i := by
      have := Real.sqrt_le_sqrt (ada_S_mono G η ε x0 i (Nat.le_succ n))
      unfold adaH; simpa using this
    have h1 := ih.trans (mul_le_mul_of_nonneg_left hm hB)
    rw [Finset.sum_range_succ, add_mul]
    change _ ≤ _ * adaH G η ε x0 n i + _ * adaH G η ε x0 n i
    rw [div_mul_cancel₀ _ hpos.ne', ada_S_succ]
    linarith

/-- The accumulated squared gradients stay bounded. -/
theorem ada_S_bounded (hS : Smooth F G L) (hL : 0 ≤ L) (hη : 0 < η) (hε : 0 < ε) {m : ℝ} (hm : ∀ x, m ≤ F x)
    (x0 : EuclideanSpace ℝ ι) (n : ℕ) (i : ι) :
    (adaSeq G η ε x0 n).2 i ≤ (2 * (F x0 - m) / η + Fintype.card ι * (L * η) ^ 3 / ε ^ 2 + ε) ^ 2 := by
  have ht := ada_total hS hL hη hε x0 n
  have hpos : ∀ k j, 0 ≤ (G (adaSeq G η ε x0 k).1 j) ^ 2 / adaH G η ε x0 k j := fun k j =>
    div_nonneg (sq_nonneg _) (hε.trans_le (ada_H_ge G η ε x0 hε k j)).le
  set B : ℝ := ∑ k ∈ Finset.range n, (G (adaSeq G η ε x0 k).1 i) ^ 2 / adaH G η ε x0 k i with hBdef
  have hB0 : 0 ≤ B := Finset.sum_nonneg fun k _ => hpos k i
  have h1 : η / 2 * B ≤ ∑ j, η / 2 * ∑ k ∈ Finset.range n, (G (adaSeq G η ε x0 k).1 j) ^ 2 / adaH G η ε x0 k j :=
    Finset.single_le_sum (f := fun j => η / 2 * ∑ k ∈ Finset.range n,
      (G (adaSeq G η ε x0 k).1 j) ^ 2 / adaH G η ε x0 k j)
      (fun j _ => mul_nonneg (by positivity) (Finset.sum_nonneg fun k _ => hpos k j)) (Finset.mem_univ i)
  have h2 : ∑ j, η / 2 * ((L * η) * min ((adaSeq G η ε x0 n).2 j) ((L * η) ^ 2) / ε ^ 2)
      ≤ ∑ _j : ι, η / 2 * ((L * η) ^ 3 / ε ^ 2) := by
    refine Finset.sum_le_sum fun j _ => mul_le_mul_of_nonneg_left ?_ (by positivity)
    rw [div_le_div_iff_of_pos_right (by positivity)]
    have := mul_le_mul_of_nonneg_left (min_le_right ((adaSeq G η ε x0 n).2 j) ((L * η) ^ 2)) (mul_nonneg hL hη.le)
    nlinarith
  rw [Finset.sum_const, Finset.card_univ, nsmul_eq_mul] at h2
  have hBK : B ≤ 2 * (F x0 - m) / η + Fintype.card ι * (L * η) ^ 3 / ε ^ 2 := by
    have h3 : η / 2 * B ≤ (F x0 - m) + Fintype.card ι * (η / 2 * ((L * η) ^ 3 / ε ^ 2)) := by
      linarith [hm (adaSeq G η ε x0 n).1]
    have h4 : η / 2 * B ≤ η / 2 * (2 * (F x0 - m) / η + Fintype.card ι * (L * η) ^ 3 / ε ^ 2) := by
      refine h3.trans (le_of_eq ?_)
      field_simp
    exact le_of_mul_le_mul_left h4 (by positivity)
  have h5 := ada_S_le_mul hε x0 n i (G := G) (η := η)
  rw [← hBdef] at h5
  set r := Real.sqrt ((adaSeq G η ε x0 n).2 i) with hr
  have hr0 : 0 ≤ r := Real.sqrt_nonneg _
  have hrs : r ^ 2 = (adaSeq G η ε x0 n).2 i := Real.sq_sqrt (ada_S_nonneg G η ε x0 n i)
  rw [← hrs] at h5 ⊢
  have hrB : r ≤ B + ε := by
    by_contra hc
    push Not at hc
    nlinarith
  exact pow_le_pow_left₀ hr0 (by linarith) 2

/-- Convergence to a zero of the gradient, for convex functions. -/
theorem ada_converges (hF : AboveTangents F G) (hGc : Continuous G) (hη : 0 < η) (hε : 0 < ε)
    (x0 : EuclideanSpace ℝ ι) {K : ℝ} (hK : ∀ n i, (adaSeq G η ε x0 n).2 i ≤ K)
    (hex : ∃ z, ∀ u, F z ≤ F u) :
    ∃ z, (∀ u, F z ≤ F u) ∧ Filter.Tendsto (fun n => (adaSeq G η ε x0 n).1) Filter.atTop (𝓝 z) := by
  classical
  set x := fun n => (adaSeq G η ε x0 n).1 with hx
  set w := fun n i => adaH G η ε x0 n i with hw
  have hwε : ∀ n i, ε ≤ w n i := fun n i => ada_H_ge G η ε x0 hε n i
  have hwm : ∀ i, Monotone fun n => w n i := fun i => ada_H_mono G η ε x0 i
  have hwB : ∀ n i, w n i ≤ Real.sqrt K + ε := fun n i => by
    have := Real.sqrt_le_sqrt (hK (n + 1) i)
    simp only [hw, adaH]; linarith
  have hKε : 0 < Real.sqrt K + ε := by positivity
  -- the weighted distances
  set D := fun (z : EuclideanSpace ℝ ι) n => ∑ i, w n i * (x n i - z i) ^ 2 with hD
  have hD0 : ∀ z n, 0 ≤ D z n := fun z n =>
    Finset.sum_nonneg fun i _ => mul_nonneg (hε.le.trans (hwε n i)) (sq_nonneg _)
  have hDlow : ∀ z n, ε * ‖x n - z‖ ^ 2 ≤ D z n := fun z n => by
    rw [EuclideanSpace.norm_sq_eq, Finset.mul_sum]
    refine Finset.sum_le_sum fun i _ => ?_
    rw [Real.norm_eq_abs, sq_abs]
    exact mul_le_mul_of_nonneg_right (hwε n i) (sq_nonneg _)
  have hDup : ∀ z n, D z n ≤ (Real.sqrt K + ε) * ‖x n - z‖ ^ 2 := fun z n => by
    rw [EuclideanSpace.norm_sq_eq, Finset.mul_sum]
    refine Finset.sum_le_sum fun i _ => ?_
    rw [Real.norm_eq_abs, sq_abs]
    exact mul_le_mul_of_nonneg_right (hwB n i) (sq_nonneg _)
  set T := fun n => ∑ i, (adaSeq G η ε x0 n).2 i with hT
  set Λ := fun n => Real.exp (∑ i, w n i / ε) with hΛ
  have hΛ1 : ∀ n, 1 ≤ Λ n := fun n => Real.one_le_exp
    (Finset.sum_nonneg fun i _ => div_nonneg (hε.le.trans (hwε n i)) hε.le)
  -- one step
  have hstep : ∀ z, (∀ u, F z ≤ F u) → ∀ n, D z (n + 1) ≤ (Λ (n + 1) / Λ n) * (D z n + η ^ 2 / ε * (T (n + 1) - T n)) := by
    intro z hz n
    have ht := hF (x n) z
    have hin : 0 ≤ ∑ i, G (x n) i * (x n i - z i) := by
      have e : ⟪G (x n), z - x n⟫ = -∑ i, G (x n) i * (x n i - z i) := by
        rw [PiLp.inner_apply, ← Finset.sum_neg_distrib]
        refine Finset.sum_congr rfl fun i _ => ?_
        simp only [RCLike.inner_apply, conj_trivial, PiLp.sub_apply]; ring
      have := hz (x n)
      rw [e] at ht
      linarith
    have h1 : ∑ i, w n i * (x (n + 1) i - z i) ^ 2 ≤ D z n + η ^ 2 / ε * (T (n + 1) - T n) := by
      have e : ∑ i, w n i * (x (n + 1) i - z i) ^ 2
          = D z n - 2 * η * ∑ i, G (x n) i * (x n i - z i) + ∑ i, η ^ 2 * (G (x n) i) ^ 2 / w n i := by
        rw [hD, Finset.mul_sum, ← Finset.sum_sub_distrib, ← Finset.sum_add_distrib]
        refine Finset.sum_congr rfl fun i _ => ?_
        have hp := (hε.trans_le (hwε n i)).ne'
        have : x (n + 1) i = x n i - η / w n i * G (x n) i := ada_x_succ G η ε x0 n i
        rw [this]
        field_simp
        ring
      have h2 : ∑ i, η ^ 2 * (G (x n) i) ^ 2 / w n i ≤ η ^ 2 / ε * (T (n + 1) - T n) := by
        rw [hT, ← Finset.sum_sub_distrib, Finset.mul_sum]
        refine Finset.sum_le_sum fun i _ => ?_
        have : (adaSeq G η ε x0 (n + 1)).2 i - (adaSeq G η ε x0 n).2 i = (G (x n) i) ^ 2 := by
          rw [ada_S_succ]; ring
        rw [this, div_mul_eq_mul_div]
        exact div_le_div_of_nonneg_left (by positivity) hε (hwε n i)
      have h3 : 0 ≤ 2 * η * ∑ i, G (x n) i * (x n i - z i) := by positivity
      linarith
    have hr : ∀ i, w (n + 1) i ≤ Λ (n + 1) / Λ n * w n i := by
      intro i
      have e : Λ (n + 1) / Λ n = Real.exp (∑ j, (w (n + 1) j - w n j) / ε) := by
        rw [hΛ, ← Real.exp_sub, ← Finset.sum_sub_distrib]
        congr 1
        refine Finset.sum_congr rfl fun j _ => by ring
      have h4 : (w (n + 1) i - w n i) / ε ≤ ∑ j, (w (n + 1) j - w n j) / ε :=
        Finset.single_le_sum (f := fun j => (w (n + 1) j - w n j) / ε)
          (fun j _ => div_nonneg (sub_nonneg.2 (hwm j (Nat.le_succ n))) hε.le) (Finset.mem_univ i)
      have h5 : 1 + (w (n + 1) i - w n i) / ε ≤ Λ (n + 1) / Λ n := by
        rw [e]
        have := Real.add_one_le_exp (∑ j, (w (n + 1) j - w n j) / ε)
        linarith
      have h6 : w (n + 1) i ≤ (1 + (w (n + 1) i - w n i) / ε) * w n i := by
        have h7 : (w (n + 1) i - w n i) ≤ (w (n + 1) i - w n i) / ε * w n i := by
          rw [div_mul_eq_mul_div, le_div_iff₀ hε]
          exact mul_le_mul_of_nonneg_left (hwε n i) (sub_nonneg.2 (hwm i (Nat.le_succ n)))
        linarith
      exact h6.trans (mul_le_mul_of_nonneg_right h5 (hε.le.trans (hwε n i)))
    have hq : 0 ≤ Λ (n + 1) / Λ n := div_nonneg (by linarith [hΛ1 (n + 1)]) (by linarith [hΛ1 n])
    calc D z (n + 1) ≤ ∑ i, Λ (n + 1) / Λ n * (w n i * (x (n + 1) i - z i) ^ 2) := by
          refine Finset.sum_le_sum fun i _ => ?_
          rw [← mul_assoc]
          exact mul_le_mul_of_nonneg_right (hr i) (sq_nonneg _)
      _ = Λ (n + 1) / Λ n * ∑ i, w n i * (x (n + 1) i - z i) ^ 2 := by rw [Finset.mul_sum]
      _ ≤ _ := mul_le_mul_of_nonneg_left h1 hq
  have hTm : Monotone T := fun a b h => Finset.sum_le_sum fun i _ => ada_S_mono G η ε x0 i h
  have hTb : ∀ n, T n ≤ Fintype.card ι * K := fun n => by
    have := Finset.sum_le_sum fun (i : ι) (_ : i ∈ Finset.univ) => hK n i
    simpa [Finset.sum_const, nsmul_eq_mul] using this
  obtain ⟨T', hT'⟩ : ∃ T', Filter.Tendsto T Filter.atTop (𝓝 T') :=
    ⟨_, tendsto_atTop_ciSup hTm ⟨_, by rintro _ ⟨n, rfl⟩; exact hTb n⟩⟩
  obtain ⟨Λ', hΛ'⟩ : ∃ Λ', Filter.Tendsto Λ Filter.atTop (𝓝 Λ') := by
    have hm : Monotone Λ := fun a b h => Real.exp_le_exp.2
      (Finset.sum_le_sum fun i _ => div_le_div_of_nonneg_right (hwm i h) hε.le)
    refine ⟨_, tendsto_atTop_ciSup hm ⟨Real.exp (∑ _i : ι, (Real.sqrt K + ε) / ε), ?_⟩⟩
    rintro _ ⟨n, rfl⟩
    exact Real.exp_le_exp.2 (Finset.sum_le_sum fun i _ => div_le_div_of_nonneg_right (hwB n i) hε.le)
  -- the weighted distances converge
  have hlim : ∀ z, (∀ u, F z ≤ F u) → ∃ l, Filter.Tendsto (D z) Filter.atTop (𝓝 l) := by
    intro z hz
    have hanti : Antitone fun n => D z n / Λ n - η ^ 2 / ε * T n := by
      refine antitone_nat_of_succ_le fun n => ?_
      have hp : 0 < Λ n := by linarith [hΛ1 n]
      have hp' : 0 < Λ (n + 1) := by linarith [hΛ1 (n + 1)]
      have hd : 0 ≤ η ^ 2 / ε * (T (n + 1) - T n) :=
        mul_nonneg (by positivity) (sub_nonneg.2 (hTm (Nat.le_succ n)))
      have h1 : D z (n + 1) / Λ (n + 1) ≤ (D z n + η ^ 2 / ε * (T (n + 1) - T n)) / Λ n := by
        rw [div_le_iff₀ hp']
        refine (hstep z hz n).trans (le_of_eq ?_)
        ring
      have h2 : η ^ 2 / ε * (T (n + 1) - T n) / Λ n ≤ η ^ 2 / ε * (T (n + 1) - T n) :=
        div_le_self hd (hΛ1 n)
      rw [add_div] at h1
      linarith
    have hb : BddBelow (Set.range fun n => D z n / Λ n - η ^ 2 / ε * T n) := by
      refine ⟨-(η ^ 2 / ε * (Fintype.card ι * K)), ?_⟩
      rintro _ ⟨n, rfl⟩
      have h1 : 0 ≤ D z n / Λ n := div_nonneg (hD0 z n) (by linarith [hΛ1 n])
      have h2 := mul_le_mul_of_nonneg_left (hTb n) (by positivity : (0 : ℝ) ≤ η ^ 2 / ε)
      simp only
      linarith
    have h3 := (tendsto_atTop_ciInf hanti hb).add (hT'.const_mul (η ^ 2 / ε))
    refine ⟨_, (h3.mul hΛ').congr fun n => ?_⟩
    have hp : Λ n ≠ 0 := by linarith [hΛ1 n]
    simp only [sub_add_cancel]
    exact div_mul_cancel₀ _ hp
  -- the gradients vanish
  have hg : Filter.Tendsto (fun n => ‖G (x n)‖ ^ 2) Filter.atTop (𝓝 0) := by
    have h1 := (hT'.comp (Filter.tendsto_add_atTop_nat 1)).sub hT'
    rw [sub_self] at h1
    refine h1.congr fun n => ?_
    simp only [Function.comp_apply, hT]
    rw [← Finset.sum_sub_distrib, EuclideanSpace.norm_sq_eq]
    refine Finset.sum_congr rfl fun i _ => ?_
    rw [ada_S_succ, Real.norm_eq_abs, sq_abs]
    ring
  obtain ⟨z, hz⟩ := hex
  obtain ⟨l, hl⟩ := hlim z hz
  obtain ⟨R, hR⟩ := hl.bddAbove_range
  have hball : ∀ n, x n ∈ Metric.closedBall z (Real.sqrt (R / ε)) := by
    intro n
    rw [Metric.mem_closedBall, dist_eq_norm]
    apply Real.le_sqrt_of_sq_le
    rw [le_div_iff₀ hε]
    linarith [hDlow z n, hR ⟨n, rfl⟩]
  obtain ⟨q, -, φ, hφ, hq⟩ := (isCompact_closedBall z _).tendsto_subseq hball
  have hGq : G q = 0 := by
    have h1 : Filter.Tendsto (fun n => ‖G (x (φ n))‖ ^ 2) Filter.atTop (𝓝 (‖G q‖ ^ 2)) :=
      (((continuous_norm.comp hGc).pow 2).tendsto q).comp hq
    have h2 := tendsto_nhds_unique h1 (hg.comp hφ.tendsto_atTop)
    simpa using h2
  have hqm : ∀ u, F q ≤ F u := fun u => by
    have := hF q u
    rw [hGq, inner_zero_left, add_zero] at this
    exact this
  refine ⟨q, hqm, ?_⟩
  obtain ⟨l', hl'⟩ := hlim q hqm
  have hl0 : l' = 0 := by
    refine tendsto_nhds_unique (hl'.comp hφ.tendsto_atTop) ?_
    have h1 : Filter.Tendsto (fun n => (Real.sqrt K + ε) * ‖x (φ n) - q‖ ^ 2) Filter.atTop (𝓝 0) := by
      have h2 := (tendsto_iff_norm_sub_tendsto_zero.1 hq).pow 2 |>.const_mul (Real.sqrt K + ε)
      simpa using h2
    exact squeeze_zero (fun n => hD0 q _) (fun n => hDup q _) h1
  rw [hl0] at hl'
  rw [tendsto_iff_norm_sub_tendsto_zero]
  have h4 : Filter.Tendsto (fun n => Real.sqrt (D q n / ε)) Filter.atTop (𝓝 0) := by
    have := (Real.continuous_sqrt.tendsto (0 / ε)).comp (hl'.div_const ε)
    simpa [Function.comp_def] using this
  refine squeeze_zero (fun n => norm_nonneg _) (fun n => ?_) h4
  apply Real.le_sqrt_of_sq_le
  rw [le_div_iff₀ hε]
  linarith [hDlow q n]

end

end Verif
