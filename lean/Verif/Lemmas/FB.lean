import Verif.Model.ForwardBackward
import Verif.Lemmas.Convex
import Verif.Lemmas.Run
import Mathlib.Tactic.Module

/-!
# Lemmas about the forward-backward iterations
-/

namespace Verif.Spec
open RealInnerProductSpace

variable {E : Type*} [NormedAddCommGroup E] [InnerProductSpace ℝ E]

/-- A function above its tangents is below its chords. -/
theorem AboveTangents.chord {F : E → ℝ} {G : E → E} (hF : AboveTangents F G) (a b : E) {s : ℝ}
    (h0 : 0 ≤ s) (h1 : s ≤ 1) : F (a + s • (b - a)) ≤ F a + s * (F b - F a) := by
  set m := a + s • (b - a) with hm
  have ha := hF m a
  have hb := hF m b
  have e1 : a - m = (-s) • (b - a) := by rw [hm]; module
  have e2 : b - m = (1 - s) • (b - a) := by rw [hm]; module
  rw [e1, inner_smul_right] at ha
  rw [e2, inner_smul_right] at hb
  nlinarith

/-- Proximal-gradient steps do not move away from a minimiser. -/
theorem prox_grad_fejer {C : Set E} {F g : E → ℝ} {G : E → E} {L β : ℝ} (hg : ConvexOn ℝ C g)
    (hF : AboveTangents F G) (hS : Smooth F G L) (hβ : 0 < β) (hL : β * L ≤ 1) {z p u : E}
    (hp : IsProxOn C (fun u => β * g u) (z - β • G z) p) (hu : Minimises C (fun u => F u + g u) u) :
    ‖p - u‖ ≤ ‖z - u‖ := by
  have h := prox_grad_descent hg hF hS hβ hL hp hu.1
  have h2 := hu.2 p hp.1
  simp only at h2
  have h3 : 0 ≤ 2 * β * ((F p + g p) - (F u + g u)) := by
    apply mul_nonneg (by linarith); linarith
  have h4 : ‖p - u‖ ^ 2 ≤ ‖z - u‖ ^ 2 := by linarith
  exact (sq_le_sq₀ (norm_nonneg _) (norm_nonneg _)).1 h4

/-- A relaxed step with relaxation in `[0,1]` does not move away either. -/
theorem relaxed_fejer {x p u : E} {lam r : ℝ} (h0 : 0 ≤ lam) (h1 : lam ≤ 1) (hx : ‖x - u‖ ≤ r)
    (hp : ‖p - u‖ ≤ r) : ‖x + lam • (p - x) - u‖ ≤ r := by
  have e : x + lam • (p - x) - u = (1 - lam) • (x - u) + lam • (p - u) := by module
  rw [e]
  calc ‖(1 - lam) • (x - u) + lam • (p - u)‖ ≤ ‖(1 - lam) • (x - u)‖ + ‖lam • (p - u)‖ := norm_add_le _ _
    _ = (1 - lam) * ‖x - u‖ + lam * ‖p - u‖ := by
        rw [norm_smul, norm_smul, Real.norm_of_nonneg (by linarith), Real.norm_of_nonneg h0]
    _ ≤ (1 - lam) * r + lam * r := by
        gcongr
    _ = r := by ring

/-- The Lyapunov argument for accelerated proximal-gradient iterations (Beck-Teboulle). -/
theorem fista_energy {C : Set E} {F g : E → ℝ} {G : E → E} {L β : ℝ} (hg : ConvexOn ℝ C g)
    (hF : AboveTangents F G) (hS : Smooth F G L) (hβ : 0 < β) (hL : β * L ≤ 1) {u : E}
    (hu : Minimises C (fun u => F u + g u) u) (x z : ℕ → E) (t : ℕ → ℝ)
    (hx : ∀ k, IsProxOn C (fun u => β * g u) (z k - β • G (z k)) (x (k + 1)))
    (hz : ∀ k, z (k + 1) = x (k + 1) + ((t k - 1) / t (k + 1)) • (x (k + 1) - x k))
    (ht0 : t 0 = 1) (ht1 : ∀ k, 1 ≤ t k) (ht : ∀ k, t (k + 1) ^ 2 - t (k + 1) ≤ t k ^ 2) (k : ℕ) :
    2 * β * t k ^ 2 * ((F (x (k + 1)) + g (x (k + 1))) - (F u + g u))
      + ‖t k • x (k + 1) - (t k - 1) • x k - u‖ ^ 2 ≤ ‖z 0 - u‖ ^ 2 := by
  induction k with
  | zero =>
    have := prox_grad_descent hg hF hS hβ hL (hx 0) hu.1
    rw [ht0]
    have e : (1 : ℝ) • x (0 + 1) - ((1 : ℝ) - 1) • x 0 - u = x (0 + 1) - u := by module
    rw [e]
    linarith
  | succ k ih =>
    refine le_trans ?_ ih
    set τ := t (k + 1) with hτ
    have hτ1 : 1 ≤ τ := ht1 (k + 1)
    have hτ0 : 0 < τ := by linarith
    set w := x (k + 1) + (1 / τ) • (u - x (k + 1)) with hw
    have hs1 : 1 / τ ≤ 1 := by rw [div_le_one hτ0]; exact hτ1
    have hs0 : 0 ≤ 1 / τ := by positivity
    obtain ⟨hwC, hgw⟩ := ConvexOn.segment hg (hx k).1 hu.1 hs0 hs1
    have hFw := hF.chord (x (k + 1)) u hs0 hs1
    rw [← hw] at hwC hgw hFw
    have hd := prox_grad_descent hg hF hS hβ hL (hx (k + 1)) hwC
    -- multiply by τ²
    have hd' := mul_le_mul_of_nonneg_left hd (sq_nonneg τ)
    have e1 : τ ^ 2 * (‖z (k + 1) - w‖ ^ 2 - ‖x (k + 1 + 1) - w‖ ^ 2)
        = ‖τ • (z (k + 1) - w)‖ ^ 2 - ‖τ • (x (k + 1 + 1) - w)‖ ^ 2 := by
      rw [norm_smul, norm_smul, Real.norm_of_nonneg hτ0.le]; ring
    have e2 : τ • (z (k + 1) - w) = t k • x (k + 1) - (t k - 1) • x k - u := by
      rw [hz k, ← hτ, hw]
      have : τ • (x (k + 1) + ((t k - 1) / τ) • (x (k + 1) - x k)
          - (x (k + 1) + (1 / τ) • (u - x (k + 1))))
          = (τ * ((t k - 1) / τ)) • (x (k + 1) - x k) - (τ * (1 / τ)) • (u - x (k + 1)) := by module
      rw [this, mul_div_cancel₀ _ hτ0.ne', mul_one_div_cancel hτ0.ne']
      module
    have e3 : τ • (x (k + 1 + 1) - w) = τ • x (k + 1 + 1) - (τ - 1) • x (k + 1) - u := by
      rw [hw]
      have : τ • (x (k + 1 + 1) - (x (k + 1) + (1 / τ) • (u - x (k + 1))))
          = τ • x (k + 1 + 1) - τ • x (k + 1) - (τ * (1 / τ)) • (u - x (k + 1)) := by module
      rw [this, mul_one_div_cancel hτ0.ne']
      module
    rw [e1, e2, e3] at hd'
    set v1 := (F (x (k + 1)) + g (x (k + 1))) - (F u + g u) with hv1
    set v2 := (F (x (k + 1 + 1)) + g (x (k + 1 + 1))) - (F u + g u) with hv2
    have hv1n : 0 ≤ v1 := by
      have := hu.2 _ (hx k).1
      simp only at this
      rw [hv1]; linarith
    -- value at the intermediate point
    have hval : F w + g w - (F u + g u) ≤ (1 - 1 / τ) * v1 := by
      rw [hv1]; nlinarith
    have h1 : τ ^ 2 * (2 * β * (v2 - (1 - 1 / τ) * v1))
        ≤ τ ^ 2 * (2 * β * ((F (x (k + 1 + 1)) + g (x (k + 1 + 1))) - (F w + g w))) := by
      apply mul_le_mul_of_nonneg_left _ (sq_nonneg τ)
      apply mul_le_mul_of_nonneg_left _ (by linarith)
      rw [hv2]; linarith
    have h2 : τ ^ 2 * (2 * β * (v2 - (1 - 1 / τ) * v1))
        = 2 * β * τ ^ 2 * v2 - 2 * β * ((τ ^ 2 - τ) * v1) := by
      field_simp
    have h3 : (τ ^ 2 - τ) * v1 ≤ t k ^ 2 * v1 := mul_le_mul_of_nonneg_right (ht k) hv1n
    have h4 : 2 * β * ((τ ^ 2 - τ) * v1) ≤ 2 * β * (t k ^ 2 * v1) :=
      mul_le_mul_of_nonneg_left h3 (by linarith)
    linarith

end Verif.Spec
