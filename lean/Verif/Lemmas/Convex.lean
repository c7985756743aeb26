import Verif.Spec.Convex
import Mathlib.Analysis.Calculus.Deriv.Basic
import Mathlib.Analysis.Calculus.FDeriv.Comp
import Mathlib.Analysis.Calculus.Deriv.Comp
import Mathlib.Analysis.Calculus.Deriv.Mul
import Mathlib.Analysis.Calculus.Deriv.Add
import Mathlib.Analysis.Calculus.Deriv.Slope
import Mathlib.Analysis.InnerProductSpace.LinearMap
import Mathlib.Tactic.Linarith
import Mathlib.Tactic.FieldSimp
import Mathlib.Tactic.Module

/-!
# First-order facts about constrained convex functions
-/

namespace Verif.Spec
open RealInnerProductSpace

variable {E : Type*} [NormedAddCommGroup E] [InnerProductSpace ℝ E]

/-- Points of a segment stay in `C` and below the chord. -/
theorem ConvexOn.segment {C : Set E} {g : E → ℝ} (hg : ConvexOn ℝ C g) {x u : E} (hx : x ∈ C)
    (hu : u ∈ C) {t : ℝ} (h0 : 0 ≤ t) (h1 : t ≤ 1) :
    x + t • (u - x) ∈ C ∧ g (x + t • (u - x)) ≤ g x + t * (g u - g x) := by
  have e : x + t • (u - x) = (1 - t) • x + t • u := by module
  rw [e]
  refine ⟨hg.1 hx hu (by linarith) h0 (by ring), ?_⟩
  have := hg.2 hx hu (show 0 ≤ 1 - t by linarith) h0 (by ring)
  simp only [smul_eq_mul] at this
  linarith

/-- Variational characterisation of a proximal point, one direction. -/
theorem IsProxOn.variational {C : Set E} {g : E → ℝ} (hg : ConvexOn ℝ C g) {β : ℝ} (hβ : 0 ≤ β) {x p : E}
    (h : IsProxOn C (fun u => β * g u) x p) {u : E} (hu : u ∈ C) :
    ⟪x - p, u - p⟫ ≤ β * (g u - g p) := by
  by_contra hc
  push Not at hc
  set a := ⟪x - p, u - p⟫ - β * (g u - g p) with ha
  have hapos : 0 < a := by linarith
  -- a small step towards `u` would decrease the objective
  obtain ⟨t, ht0, ht1, ht⟩ : ∃ t : ℝ, 0 < t ∧ t ≤ 1 ∧ t * ‖u - p‖ ^ 2 < 2 * a := by
    refine ⟨min 1 (a / (‖u - p‖ ^ 2 + 1)), lt_min one_pos (by positivity), min_le_left _ _, ?_⟩
    have h1 : min 1 (a / (‖u - p‖ ^ 2 + 1)) ≤ a / (‖u - p‖ ^ 2 + 1) := min_le_right _ _
    have h2 : a / (‖u - p‖ ^ 2 + 1) * ‖u - p‖ ^ 2 ≤ a := by
      rw [div_mul_eq_mul_div, div_le_iff₀ (by positivity)]
      nlinarith [sq_nonneg ‖u - p‖]
    have h3 : min 1 (a / (‖u - p‖ ^ 2 + 1)) * ‖u - p‖ ^ 2 ≤ a / (‖u - p‖ ^ 2 + 1) * ‖u - p‖ ^ 2 :=
      mul_le_mul_of_nonneg_right h1 (sq_nonneg _)
    linarith
  obtain ⟨hC, hseg⟩ := ConvexOn.segment hg h.1 hu ht0.le ht1
  have hm := h.2 _ hC
  have e : x - (p + t • (u - p)) = (x - p) - t • (u - p) := by module
  have en := norm_sub_sq_real (x - p) (t • (u - p))
  rw [inner_smul_right, norm_smul, Real.norm_of_nonneg ht0.le, mul_pow] at en
  rw [e, en] at hm
  have hb := mul_le_mul_of_nonneg_left hseg hβ
  have : 0 ≤ -(t * ⟪x - p, u - p⟫) + 1 / 2 * (t ^ 2 * ‖u - p‖ ^ 2) + β * (t * (g u - g p)) := by
    linarith [hm, hb, mul_add β (g p) (t * (g u - g p))]
  have h2 : 0 ≤ t * (-a + 1 / 2 * (t * ‖u - p‖ ^ 2)) := by
    have e2 : t * (-a + 1 / 2 * (t * ‖u - p‖ ^ 2))
        = -(t * ⟪x - p, u - p⟫) + 1 / 2 * (t ^ 2 * ‖u - p‖ ^ 2) + β * (t * (g u - g p)) := by
      rw [ha]; ring
    rwa [e2]
  have h3 : 0 ≤ -a + 1 / 2 * (t * ‖u - p‖ ^ 2) := (mul_nonneg_iff_of_pos_left ht0).1 h2
  linarith

/-- The other direction. -/
theorem isProxOn_of_variational {C : Set E} {g : E → ℝ} {x p : E} (hp : p ∈ C)
    (h : ∀ u ∈ C, ⟪x - p, u - p⟫ ≤ g u - g p) : IsProxOn C g x p := by
  refine ⟨hp, fun u hu => ?_⟩
  have e : x - u = (x - p) - (u - p) := by abel
  have en := norm_sub_sq_real (x - p) (u - p)
  rw [e, en]
  nlinarith [h u hu, sq_nonneg ‖u - p‖]

/-- Proximal points are unique. -/
theorem IsProxOn.unique {C : Set E} {g : E → ℝ} (hg : ConvexOn ℝ C g) {β : ℝ} (hβ : 0 ≤ β) {x p q : E}
    (hp : IsProxOn C (fun u => β * g u) x p) (hq : IsProxOn C (fun u => β * g u) x q) : p = q := by
  have h1 := hp.variational hg hβ hq.1
  have h2 := hq.variational hg hβ hp.1
  have e : ⟪x - p, q - p⟫ + ⟪x - q, p - q⟫ = ‖q - p‖ ^ 2 := by
    rw [← real_inner_self_eq_norm_sq]
    have e1 : p - q = -(q - p) := by abel
    have e2 : x - q = (x - p) - (q - p) := by abel
    rw [e1, e2, inner_neg_right, inner_sub_left (x - p)]; ring
  have h3 : ‖q - p‖ ^ 2 ≤ 0 := by nlinarith
  have h4 : ‖q - p‖ = 0 := by nlinarith [norm_nonneg (q - p), sq_nonneg ‖q - p‖]
  exact (sub_eq_zero.1 (norm_eq_zero.1 h4)).symm

/-- Firm non-expansiveness, hence non-expansiveness, of the proximity operator. -/
theorem IsProxOn.nonexpansive {C : Set E} {g : E → ℝ} (hg : ConvexOn ℝ C g) {β : ℝ} (hβ : 0 ≤ β)
    {x y p q : E} (hp : IsProxOn C (fun u => β * g u) x p) (hq : IsProxOn C (fun u => β * g u) y q) :
    ‖p - q‖ ≤ ‖x - y‖ := by
  have h1 := hp.variational hg hβ hq.1
  have h2 := hq.variational hg hβ hp.1
  have e : ⟪x - p, q - p⟫ + ⟪y - q, p - q⟫ = ‖p - q‖ ^ 2 - ⟪x - y, p - q⟫ := by
    rw [← real_inner_self_eq_norm_sq]
    have e1 : q - p = -(p - q) := by abel
    have e2 : y - q = (x - p) + (p - q) - (x - y) := by abel
    rw [e1, e2, inner_neg_right, inner_sub_left (x - p + (p - q)), inner_add_left]; ring
  have h3 : ‖p - q‖ ^ 2 ≤ ‖x - y‖ * ‖p - q‖ := by
    have := real_inner_le_norm (x - y) (p - q)
    nlinarith
  by_contra hc
  push Not at hc
  nlinarith [norm_nonneg (x - y), norm_nonneg (p - q)]

/-- The fundamental inequality of the proximal-gradient step. -/
theorem prox_grad_descent {C : Set E} {F g : E → ℝ} {G : E → E} {L β : ℝ} (hg : ConvexOn ℝ C g)
    (hF : AboveTangents F G) (hS : Smooth F G L) (hβ : 0 < β) (hL : β * L ≤ 1) {z p u : E}
    (hp : IsProxOn C (fun u => β * g u) (z - β • G z) p) (hu : u ∈ C) :
    2 * β * ((F p + g p) - (F u + g u)) ≤ ‖z - u‖ ^ 2 - ‖p - u‖ ^ 2 := by
  have h1 := hp.variational hg hβ.le hu
  have h2 := hF z u
  have h3 := hS z p
  have e1 : ⟪z - β • G z - p, u - p⟫ = ⟪z - p, u - p⟫ - β * ⟪G z, u - p⟫ := by
    have : z - β • G z - p = (z - p) - β • G z := by abel
    rw [this, inner_sub_left, real_inner_smul_left]
  have e2 : ⟪G z, u - z⟫ = ⟪G z, u - p⟫ + ⟪G z, p - z⟫ := by
    rw [← inner_add_right]; congr 1; abel
  have e3 : 2 * ⟪z - p, u - p⟫ = ‖z - p‖ ^ 2 + ‖p - u‖ ^ 2 - ‖z - u‖ ^ 2 := by
    have := norm_sub_sq_real (z - p) (u - p)
    have e : (z - p) - (u - p) = z - u := by abel
    rw [e] at this
    rw [norm_sub_rev u p] at this
    linarith
  have e4 : ‖p - z‖ = ‖z - p‖ := norm_sub_rev _ _
  rw [e1] at h1
  rw [e4] at h3
  rw [e2] at h2
  have h4 : β * (F p - F u) ≤ β * (-⟪G z, u - p⟫ + L / 2 * ‖z - p‖ ^ 2) :=
    mul_le_mul_of_nonneg_left (by linarith) hβ.le
  have h5 : β * L * ‖z - p‖ ^ 2 ≤ ‖z - p‖ ^ 2 := by
    have := mul_le_mul_of_nonneg_right hL (sq_nonneg ‖z - p‖)
    linarith
  nlinarith

/-- First-order optimality: at a minimiser of `F + g`, the directional derivative of `F` compensates the
decrease of `g`. -/
theorem Minimises.first_order {C : Set E} {F g : E → ℝ} {G x : E} (hg : ConvexOn ℝ C g)
    (hF : HasFDerivAt F (innerSL ℝ G) x) (h : Minimises C (fun u => F u + g u) x) {u : E} (hu : u ∈ C) :
    g x - g u ≤ ⟪G, u - x⟫ := by
  have hline : HasDerivAt (fun t : ℝ => x + t • (u - x)) (u - x) 0 := by
    have := ((hasDerivAt_id (0 : ℝ)).smul_const (u - x)).const_add x
    simpa using this
  have hF' : HasFDerivAt F (innerSL ℝ G) (x + (0 : ℝ) • (u - x)) := by simpa using hF
  have hd : HasDerivAt (fun t : ℝ => F (x + t • (u - x))) ⟪G, u - x⟫ 0 := by
    have := hF'.comp_hasDerivAt (0 : ℝ) hline
    simp only [innerSL_apply_apply] at this
    exact this
  have hs := hd.tendsto_slope
  have hs' : Filter.Tendsto (slope (fun t : ℝ => F (x + t • (u - x))) 0) (nhdsWithin 0 (Set.Ioi 0))
      (nhds ⟪G, u - x⟫) :=
    hs.mono_left (nhdsWithin_mono 0 (fun t ht => ne_of_gt ht))
  refine ge_of_tendsto hs' ?_
  have hev : Set.Ioo (0 : ℝ) 1 ∈ nhdsWithin (0 : ℝ) (Set.Ioi 0) := Ioo_mem_nhdsGT one_pos
  filter_upwards [hev] with t ht
  obtain ⟨hC, hseg⟩ := ConvexOn.segment hg h.1 hu ht.1.le ht.2.le
  have hm := h.2 _ hC
  simp only at hm
  rw [slope_def_field, sub_zero, zero_smul, add_zero, le_div_iff₀ ht.1]
  nlinarith

/-- Sufficiency of the first-order condition. -/
theorem minimises_of_first_order {C : Set E} {F g : E → ℝ} {G : E → E} {x : E} (hF : AboveTangents F G)
    (hx : x ∈ C) (h : ∀ u ∈ C, g x - g u ≤ ⟪G x, u - x⟫) : Minimises C (fun u => F u + g u) x := by
  refine ⟨hx, fun u hu => ?_⟩
  have := h u hu
  have := hF x u
  simp only
  linarith

end Verif.Spec
