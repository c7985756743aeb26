import Verif.Spec.Prox
import Mathlib.Tactic.Linarith
import Mathlib.Tactic.Positivity
import Mathlib.Tactic.FieldSimp
import Mathlib.Tactic.LinearCombination

/-!
# Norm shrinkage in an inner-product space
-/

namespace Verif
open Spec

section Sep
variable {ι : Type*} [Fintype ι] {V : Type*} [NormedAddCommGroup V]

/-- If every coordinate satisfies a strong minimality inequality, the array is the unique prox of the
separable sum. -/
theorem isUniqueProx_of_coord (h : ι → V → ℝ) (x p : ι → V)
    (hc : ∀ i v, 1 / 2 * ‖x i - p i‖ ^ 2 + h i (p i) + 1 / 2 * ‖v - p i‖ ^ 2
      ≤ 1 / 2 * ‖x i - v‖ ^ 2 + h i v) :
    IsUniqueProx (fun u => ∑ i, h i (u i)) x p := by
  have key : ∀ u : ι → V, halfSqDist x p + ∑ i, h i (p i) + 1 / 2 * ∑ i, ‖u i - p i‖ ^ 2
      ≤ halfSqDist x u + ∑ i, h i (u i) := by
    intro u
    unfold halfSqDist
    rw [Finset.mul_sum, Finset.mul_sum, Finset.mul_sum, ← Finset.sum_add_distrib,
      ← Finset.sum_add_distrib, ← Finset.sum_add_distrib]
    exact Finset.sum_le_sum fun i _ => hc i (u i)
  refine ⟨fun u => ?_, fun q hq => ?_⟩
  · have h1 := key u
    have : 0 ≤ 1 / 2 * ∑ i, ‖u i - p i‖ ^ 2 := by positivity
    show halfSqDist x p + ∑ i, h i (p i) ≤ halfSqDist x u + ∑ i, h i (u i)
    linarith
  · have h1 := key q
    have h2 : halfSqDist x q + ∑ i, h i (q i) ≤ halfSqDist x p + ∑ i, h i (p i) := hq p
    have h3 : ∑ i, ‖q i - p i‖ ^ 2 ≤ 0 := by linarith
    have h4 := (Finset.sum_eq_zero_iff_of_nonneg (fun i _ => sq_nonneg ‖q i - p i‖)).1
      (le_antisymm h3 (Finset.sum_nonneg fun i _ => sq_nonneg _))
    funext i
    have := h4 i (Finset.mem_univ i)
    rw [sq_eq_zero_iff, norm_eq_zero, sub_eq_zero] at this
    exact this

end Sep

section Shrink
variable {V : Type*} [NormedAddCommGroup V] [InnerProductSpace ℝ V]
open RealInnerProductSpace

/-- Expansion around `p`: the strong minimality inequality follows from a subgradient inequality. -/
theorem strong_of_subgradient (h : V → ℝ) (x p : V)
    (hs : ∀ v, h p + ⟪x - p, v - p⟫ ≤ h v) (v : V) :
    1 / 2 * ‖x - p‖ ^ 2 + h p + 1 / 2 * ‖v - p‖ ^ 2 ≤ 1 / 2 * ‖x - v‖ ^ 2 + h v := by
  have e : x - v = (x - p) - (v - p) := by abel
  have := hs v
  have h2 := norm_sub_sq_real (x - p) (v - p)
  rw [e]
  linarith

/-- Shrinking the norm of `x` by `t` gives a subgradient of `t‖·‖`. -/
theorem shrink_subgradient (t : ℝ) (ht : 0 ≤ t) (x : V) (v : V) :
    let p := max (1 - t / ‖x‖) 0 • x
    t * ‖p‖ + ⟪x - p, v - p⟫ ≤ t * ‖v‖ := by
  intro p
  rcases eq_or_ne x 0 with rfl | hx
  · have hp : p = 0 := by simp [p]
    rw [hp]; simp; positivity
  have hn : 0 < ‖x‖ := norm_pos_iff.2 hx
  rcases le_total ‖x‖ t with h | h
  · have : 1 - t / ‖x‖ ≤ 0 := by rw [sub_nonpos, le_div_iff₀ hn]; linarith
    have hp : p = 0 := by simp only [p, max_eq_right this, zero_smul]
    rw [hp]
    simp only [norm_zero, mul_zero, sub_zero, zero_add]
    calc ⟪x, v⟫ ≤ ‖x‖ * ‖v‖ := real_inner_le_norm x v
      _ ≤ t * ‖v‖ := by gcongr
  · have h0 : 0 ≤ 1 - t / ‖x‖ := by rw [sub_nonneg, div_le_one hn]; exact h
    have hp : p = (1 - t / ‖x‖) • x := by simp only [p, max_eq_left h0]
    have hxp : x - p = (t / ‖x‖) • x := by rw [hp, sub_smul, one_smul]; abel
    have hpn : ‖p‖ = ‖x‖ - t := by
      rw [hp, norm_smul, Real.norm_of_nonneg h0]; field_simp
    rw [hxp, inner_sub_right, inner_smul_left, inner_smul_left, hp, inner_smul_right,
      real_inner_self_eq_norm_sq, ← hp, hpn]
    simp only [conj_trivial]
    have h1 : t / ‖x‖ * ⟪x, v⟫ ≤ t * ‖v‖ := by
      have := real_inner_le_norm x v
      calc t / ‖x‖ * ⟪x, v⟫ ≤ t / ‖x‖ * (‖x‖ * ‖v‖) := by gcongr
        _ = t * ‖v‖ := by field_simp
    have h2 : t / ‖x‖ * ((1 - t / ‖x‖) * ‖x‖ ^ 2) = t * (‖x‖ - t) := by field_simp
    linarith

/-- Radial maps whose radial profile is 1-Lipschitz and below the identity are non-expansive. -/
theorem radial_nonexpansive (f : ℝ → ℝ) (h0 : ∀ r, 0 ≤ r → 0 ≤ f r) (h1 : ∀ r, 0 ≤ r → f r ≤ 1)
    (hl : ∀ r s, 0 ≤ r → 0 ≤ s → |f r * r - f s * s| ≤ |r - s|) (x y : V) :
    ‖f ‖x‖ • x - f ‖y‖ • y‖ ≤ ‖x - y‖ := by
  rw [← sq_le_sq₀ (norm_nonneg _) (norm_nonneg _), norm_sub_sq_real, norm_sub_sq_real,
    inner_smul_left, inner_smul_right, norm_smul, norm_smul]
  simp only [conj_trivial]
  have a0 := h0 _ (norm_nonneg x)
  have b0 := h0 _ (norm_nonneg y)
  have a1 := h1 _ (norm_nonneg x)
  have b1 := h1 _ (norm_nonneg y)
  have hlip := hl _ _ (norm_nonneg x) (norm_nonneg y)
  rw [Real.norm_of_nonneg a0, Real.norm_of_nonneg b0]
  have hin := real_inner_le_norm x y
  set a := f ‖x‖; set b := f ‖y‖
  have hsq : (a * ‖x‖ - b * ‖y‖) ^ 2 ≤ (‖x‖ - ‖y‖) ^ 2 := sq_le_sq.2 hlip
  have hab : a * b ≤ 1 := by nlinarith
  have : (1 - a * b) * ⟪x, y⟫ ≤ (1 - a * b) * (‖x‖ * ‖y‖) :=
    mul_le_mul_of_nonneg_left hin (by linarith)
  nlinarith

end Shrink
end Verif
