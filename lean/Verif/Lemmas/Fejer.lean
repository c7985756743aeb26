import Mathlib.Topology.MetricSpace.ProperSpace
import Mathlib.Topology.Order.MonotoneConvergence
import Mathlib.Topology.Sequences
import Mathlib.Topology.MetricSpace.Bounded
import Mathlib.Topology.Instances.Real.Lemmas
import Mathlib.Analysis.SpecialFunctions.Sqrt
import Mathlib.Tactic.Linarith
import Mathlib.Tactic.Positivity

/-!
# Convergence of Fejér-monotone iterations in proper spaces
-/

namespace Verif
open Topology

/-- If one step brings every point closer to every target by at least `ρ`, where `ρ ≥ 0` is continuous and
vanishes only at targets, then the iterates converge to a target, provided there is one. -/
theorem fejer_converges {X : Type*} [MetricSpace X] [ProperSpace X] (x : ℕ → X) (V : X → X → ℝ) (ρ : X → ℝ)
    (Fix : X → Prop) (hV0 : ∀ p, V p p = 0) (hVc : ∀ p, Continuous fun y => V y p)
    {c : ℝ} (hc : 0 < c) (hco : ∀ y p, c * dist y p ^ 2 ≤ V y p) (hρc : Continuous ρ) (hρ0 : ∀ y, 0 ≤ ρ y)
    (hfix : ∀ y, ρ y = 0 → Fix y) (hF : ∀ n p, Fix p → V (x (n + 1)) p + ρ (x n) ≤ V (x n) p)
    (hex : ∃ p, Fix p) : ∃ q, Fix q ∧ Filter.Tendsto x Filter.atTop (𝓝 q) := by
  obtain ⟨p, hp⟩ := hex
  have hVpos : ∀ y p, 0 ≤ V y p := fun y p => le_trans (by positivity) (hco y p)
  have hanti : ∀ p, Fix p → Antitone fun n => V (x n) p := fun p hp =>
    antitone_nat_of_succ_le fun n => by linarith [hF n p hp, hρ0 (x n)]
  have hlim : ∀ p, Fix p → Filter.Tendsto (fun n => V (x n) p) Filter.atTop (𝓝 (⨅ n, V (x n) p)) :=
    fun p hp => tendsto_atTop_ciInf (hanti p hp) ⟨0, by rintro _ ⟨n, rfl⟩; exact hVpos _ _⟩
  -- the residuals vanish
  have hres : Filter.Tendsto (fun n => ρ (x n)) Filter.atTop (𝓝 0) := by
    have h1 := hlim p hp
    have h2 := h1.comp (Filter.tendsto_add_atTop_nat 1)
    have h3 := h1.sub h2
    rw [sub_self] at h3
    refine squeeze_zero (fun n => hρ0 _) (fun n => ?_) h3
    simp only [Function.comp_apply]
    linarith [hF n p hp]
  -- the iterates are bounded
  have hb : ∀ n, x n ∈ Metric.closedBall p (Real.sqrt (V (x 0) p / c)) := by
    intro n
    rw [Metric.mem_closedBall]
    apply Real.le_sqrt_of_sq_le
    rw [le_div_iff₀ hc]
    have := hanti p hp (Nat.zero_le n)
    simp only at this
    linarith [hco (x n) p]
  obtain ⟨q, -, φ, hφ, hq⟩ := (isCompact_closedBall p _).tendsto_subseq hb
  have hρq : ρ q = 0 := by
    have h1 := (hρc.tendsto q).comp hq
    have h2 := hres.comp hφ.tendsto_atTop
    exact tendsto_nhds_unique h1 h2
  have hqF := hfix q hρq
  refine ⟨q, hqF, ?_⟩
  have hVq : Filter.Tendsto (fun n => V (x n) q) Filter.atTop (𝓝 0) := by
    have h1 := hlim q hqF
    have h2 := ((hVc q).tendsto q).comp hq
    rw [hV0] at h2
    have h3 := h1.comp hφ.tendsto_atTop
    have h4 : (0 : ℝ) = ⨅ n, V (x n) q := tendsto_nhds_unique h2 h3
    rw [h4]
    exact h1
  rw [tendsto_iff_dist_tendsto_zero]
  have h4 : Filter.Tendsto (fun n => Real.sqrt (V (x n) q / c)) Filter.atTop (𝓝 0) := by
    have := (Real.continuous_sqrt.tendsto (0 / c)).comp (hVq.div_const c)
    simpa [Function.comp_def] using this
  refine squeeze_zero (fun n => dist_nonneg) (fun n => ?_) h4
  apply Real.le_sqrt_of_sq_le
  rw [le_div_iff₀ hc]
  linarith [hco (x n) q]

end Verif
