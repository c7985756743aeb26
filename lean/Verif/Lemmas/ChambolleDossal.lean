import Verif.Lemmas.FB
import Verif.Lemmas.Fejer
import Mathlib.Topology.Algebra.InfiniteSum.Order
import Mathlib.Topology.Algebra.InfiniteSum.Real
import Mathlib.Topology.Algebra.InfiniteSum.NatInt
import Mathlib.Analysis.Normed.Module.FiniteDimension

/-!
# Convergence of the iterates of accelerated proximal-gradient methods

The argument of Chambolle and Dossal for the parameters `tₖ = (k+a)/a` with `a > 2`.
-/

namespace Verif.Spec
open RealInnerProductSpace Topology

variable {E : Type*} [NormedAddCommGroup E] [InnerProductSpace ℝ E]

/-- One step of the Lyapunov argument, keeping the slack. -/
theorem fista_energy_step {C : Set E} {F g : E → ℝ} {G : E → E} {L β : ℝ} (hg : ConvexOn ℝ C g)
    (hF : AboveTangents F G) (hS : Smooth F G L) (hβ : 0 < β) (hL : β * L ≤ 1) {u : E}
    (hu : Minimises C (fun u => F u + g u) u) {x0 x1 x2 z : E} {t τ : ℝ} (hx1 : x1 ∈ C)
    (hx2 : IsProxOn C (fun u => β * g u) (z - β • G z) x2)
    (hz : z = x1 + ((t - 1) / τ) • (x1 - x0)) (hτ1 : 1 ≤ τ) :
    2 * β * τ ^ 2 * ((F x2 + g x2) - (F u + g u)) + ‖τ • x2 - (τ - 1) • x1 - u‖ ^ 2
      + 2 * β * (t ^ 2 - τ ^ 2 + τ) * ((F x1 + g x1) - (F u + g u))
      ≤ 2 * β * t ^ 2 * ((F x1 + g x1) - (F u + g u)) + ‖t • x1 - (t - 1) • x0 - u‖ ^ 2 := by
  have hτ0 : 0 < τ := by linarith
  set w := x1 + (1 / τ) • (u - x1) with hw
  have hs1 : 1 / τ ≤ 1 := by rw [div_le_one hτ0]; exact hτ1
  have hs0 : 0 ≤ 1 / τ := by positivity
  obtain ⟨hwC, hgw⟩ := ConvexOn.segment hg hx1 hu.1 hs0 hs1
  have hFw := hF.chord x1 u hs0 hs1
  rw [← hw] at hwC hgw hFw
  have hd := prox_grad_descent hg hF hS hβ hL hx2 hwC
  have hd' := mul_le_mul_of_nonneg_left hd (sq_nonneg τ)
  have e1 : τ ^ 2 * (‖z - w‖ ^ 2 - ‖x2 - w‖ ^ 2) = ‖τ • (z - w)‖ ^ 2 - ‖τ • (x2 - w)‖ ^ 2 := by
    rw [norm_smul, norm_smul, Real.norm_of_nonneg hτ0.le]; ring
  have e2 : τ • (z - w) = t • x1 - (t - 1) • x0 - u := by
    rw [hz, hw]
    have : τ • (x1 + ((t - 1) / τ) • (x1 - x0) - (x1 + (1 / τ) • (u - x1)))
        = (τ * ((t - 1) / τ)) • (x1 - x0) - (τ * (1 / τ)) • (u - x1) := by module
    rw [this, mul_div_cancel₀ _ hτ0.ne', mul_one_div_cancel hτ0.ne']
    module
  have e3 : τ • (x2 - w) = τ • x2 - (τ - 1) • x1 - u := by
    rw [hw]
    have : τ • (x2 - (x1 + (1 / τ) • (u - x1))) = τ • x2 - τ • x1 - (τ * (1 / τ)) • (u - x1) := by module
    rw [this, mul_one_div_cancel hτ0.ne']
    module
  rw [e1, e2, e3] at hd'
  set v1 := (F x1 + g x1) - (F u + g u) with hv1
  set v2 := (F x2 + g x2) - (F u + g u) with hv2
  have hval : F w + g w - (F u + g u) ≤ (1 - 1 / τ) * v1 := by
    rw [hv1]; nlinarith
  have h1 : τ ^ 2 * (2 * β * (v2 - (1 - 1 / τ) * v1))
      ≤ τ ^ 2 * (2 * β * ((F x2 + g x2) - (F w + g w))) := by
    apply mul_le_mul_of_nonneg_left _ (sq_nonneg τ)
    apply mul_le_mul_of_nonneg_left _ (by linarith)
    rw [hv2]; linarith
  have h2 : τ ^ 2 * (2 * β * (v2 - (1 - 1 / τ) * v1))
      = 2 * β * τ ^ 2 * v2 - 2 * β * ((τ ^ 2 - τ) * v1) := by
    field_simp
  nlinarith

/-- Partial sums of a nonnegative sequence dominated by a telescoping bound. -/
theorem sum_le_of_step {A b : ℕ → ℝ} (hA : ∀ k, 0 ≤ A k) (h : ∀ k, A (k + 1) + b k ≤ A k) (n : ℕ) :
    (Finset.range n).sum b ≤ A 0 := by
  have : (Finset.range n).sum b + A n ≤ A 0 := by
    induction n with
    | zero => simp
    | succ n ih => rw [Finset.sum_range_succ]; linarith [h n]
  linarith [hA n]

/-- A nonnegative sequence whose increases are summable converges. -/
theorem converges_of_summable_increase {φ θ : ℕ → ℝ} (hφ : ∀ n, 0 ≤ φ n) (hθ : ∀ n, 0 ≤ θ n) {B : ℝ}
    (hB : ∀ n, (Finset.range n).sum θ ≤ B) (h : ∀ n, φ (n + 1) - φ n ≤ θ n) :
    ∃ l, Filter.Tendsto φ Filter.atTop (𝓝 l) := by
  have hanti : Antitone fun n => φ n - (Finset.range n).sum θ :=
    antitone_nat_of_succ_le fun n => by
      rw [Finset.sum_range_succ]; linarith [h n]
  have h1 := tendsto_atTop_ciInf hanti ⟨-B, by rintro _ ⟨n, rfl⟩; simp only; linarith [hφ n, hB n]⟩
  have hmono : Monotone fun n => (Finset.range n).sum θ :=
    monotone_nat_of_le_succ fun n => by
      rw [Finset.sum_range_succ]; linarith [hθ n]
  have h2 := tendsto_atTop_ciSup hmono ⟨B, by rintro _ ⟨n, rfl⟩; exact hB n⟩
  have h3 := h1.add h2
  exact ⟨_, h3.congr fun n => by ring⟩

/-- The accelerated iterates with `tₖ = (k+a)/a`, `a > 2`, converge to a minimiser. -/
theorem cd_converges [FiniteDimensional ℝ E] {C : Set E} {F g : E → ℝ} {G : E → E} {L β : ℝ}
    (hg : ConvexOn ℝ C g)
    (hF : AboveTangents F G) (hS : Smooth F G L) (hβ : 0 < β) (hL : β * L ≤ 1) (T : E → E) (hT : Continuous T)
    (hTp : ∀ z, IsProxOn C (fun u => β * g u) (z - β • G z) (T z))
    (hfix : ∀ q, T q = q → Minimises C (fun u => F u + g u) q)
    (hex : ∃ u, Minimises C (fun u => F u + g u) u) (x z : ℕ → E) (a : ℝ) (ha : 2 < a)
    (hx : ∀ k, x (k + 1) = T (z k))
    (hz : ∀ k : ℕ, z (k + 1) = x (k + 1)
      + (((k + a) / a - 1) / (((k + 1 : ℕ) + a) / a)) • (x (k + 1) - x k)) :
    ∃ q, Minimises C (fun u => F u + g u) q ∧ Filter.Tendsto x Filter.atTop (𝓝 q) := by
  have ha0 : 0 < a := by linarith
  set t : ℕ → ℝ := fun k => (k + a) / a with ht
  have ht1 : ∀ k, 1 ≤ t k := fun k => by
    simp only [ht]; rw [le_div_iff₀ ha0]; have : (0 : ℝ) ≤ k := Nat.cast_nonneg k; linarith
  have htpos : ∀ k, 0 < t k := fun k => lt_of_lt_of_le one_pos (ht1 k)
  have htS : ∀ k, t (k + 1) = t k + 1 / a := fun k => by simp only [ht]; push_cast; field_simp; ring
  have hainv : 1 / a ≤ 1 / 2 := by rw [div_le_div_iff₀ ha0 two_pos]; linarith
  have hainv0 : 0 < 1 / a := by positivity
  have hxp : ∀ k, IsProxOn C (fun u => β * g u) (z k - β • G (z k)) (x (k + 1)) := fun k => by
    rw [hx k]; exact hTp _
  obtain ⟨u0, hu0⟩ := hex
  set w : ℕ → ℝ := fun k => (F (x (k + 1)) + g (x (k + 1))) - (F u0 + g u0) with hwdef
  set d : ℕ → ℝ := fun k => ‖x (k + 1) - x k‖ ^ 2 with hddef
  have hw0 : ∀ k, 0 ≤ w k := fun k => by
    have := hu0.2 _ (hxp k).1
    simp only [hwdef] at this ⊢
    linarith
  have hd0 : ∀ k, 0 ≤ d k := fun k => sq_nonneg _
  -- summability of `t w`
  have hW : ∃ W, 0 ≤ W ∧ ∀ n, (Finset.range n).sum (fun k => t k * w k) ≤ W := by
    set A : ℕ → ℝ := fun k => 2 * β * t k ^ 2 * w k + ‖t k • x (k + 1) - (t k - 1) • x k - u0‖ ^ 2 with hA
    set c := 2 * β * ((a - 2) / a) with hc
    have hc0 : 0 < c := by
      have : 0 < (a - 2) / a := div_pos (by linarith) ha0
      positivity
    have hA0 : ∀ k, 0 ≤ A k := fun k => by
      have := hw0 k
      simp only [hA]; positivity
    refine ⟨A 0 / c, div_nonneg (hA0 0) hc0.le, fun n => ?_⟩
    have hstep : ∀ k, A (k + 1) + c * (t k * w k) ≤ A k := by
      intro k
      have h1 := fista_energy_step hg hF hS hβ hL hu0 (hxp k).1 (hxp (k + 1)) (hz k) (ht1 (k + 1))
      have h2 : (a - 2) / a * t k ≤ t k ^ 2 - t (k + 1) ^ 2 + t (k + 1) := by
        rw [htS]
        have e : t k ^ 2 - (t k + 1 / a) ^ 2 + (t k + 1 / a) = (a - 2) / a * t k + (1 / a - (1 / a) ^ 2) := by
          field_simp
          ring
        rw [e]
        have : 0 ≤ 1 / a - (1 / a) ^ 2 := by nlinarith
        linarith
      have h3 := mul_le_mul_of_nonneg_right h2 (mul_nonneg (mul_nonneg two_pos.le hβ.le) (hw0 k))
      simp only [hA, hwdef, hc] at h1 h3 ⊢
      nlinarith
    have := sum_le_of_step hA0 hstep n
    rw [← Finset.mul_sum] at this
    rw [le_div_iff₀ hc0]
    linarith
  -- summability of `t d`
  have hD : ∃ D, 0 ≤ D ∧ ∀ n, (Finset.range n).sum (fun k => t k * d k) ≤ D := by
    obtain ⟨W, hW0, hW⟩ := hW
    set A : ℕ → ℝ := fun k => t k ^ 2 * d k + 2 * β * (t k ^ 2 * w k) with hA
    have hA0 : ∀ k, 0 ≤ A k := fun k => by
      have := hw0 k
      have := hd0 k
      simp only [hA]; positivity
    refine ⟨A 0 + 4 * β * W, by have := hA0 0; positivity, fun n => ?_⟩
    have hstep : ∀ k, A (k + 1) + t k * d k ≤ A k + 4 * β * (t k * w k) := by
      intro k
      have h1 := prox_grad_descent hg hF hS hβ hL (hxp (k + 1)) (hxp k).1
      have e : z (k + 1) - x (k + 1) = ((t k - 1) / t (k + 1)) • (x (k + 1) - x k) := by
        rw [hz k]; simp only [ht]; push_cast; module
      rw [e, norm_smul, mul_pow, Real.norm_eq_abs, sq_abs, div_pow] at h1
      have h2 := mul_le_mul_of_nonneg_left h1 (sq_nonneg (t (k + 1)))
      have htp := htpos (k + 1)
      have e2 : t (k + 1) ^ 2 * ((t k - 1) ^ 2 / t (k + 1) ^ 2 * ‖x (k + 1) - x k‖ ^ 2 - ‖x (k + 1 + 1) - x (k + 1)‖ ^ 2)
          = (t k - 1) ^ 2 * d k - t (k + 1) ^ 2 * d (k + 1) := by
        simp only [hddef]
        field_simp
      rw [e2] at h2
      have h3 : (F (x (k + 1 + 1)) + g (x (k + 1 + 1)) - (F (x (k + 1)) + g (x (k + 1)))) = w (k + 1) - w k := by
        simp only [hwdef]; ring
      rw [h3] at h2
      have h4 : t (k + 1) ^ 2 - t k ^ 2 ≤ 2 * t k := by
        rw [htS]
        have := ht1 k
        nlinarith
      have h5 := mul_le_mul_of_nonneg_right h4 (mul_nonneg (mul_nonneg two_pos.le hβ.le) (hw0 k))
      have h6 : (t k - 1) ^ 2 * d k ≤ (t k ^ 2 - t k) * d k := by
        apply mul_le_mul_of_nonneg_right _ (hd0 k)
        have := ht1 k
        nlinarith
      simp only [hA]
      nlinarith
    have key : ∀ n, (Finset.range n).sum (fun k => t k * d k) + A n
        ≤ A 0 + 4 * β * (Finset.range n).sum (fun k => t k * w k) := by
      intro n
      induction n with
      | zero => simp
      | succ n ih => rw [Finset.sum_range_succ, Finset.sum_range_succ]; nlinarith [hstep n]
    have h7 := mul_le_mul_of_nonneg_left (hW n) (show 0 ≤ 4 * β by positivity)
    linarith [key n, hA0 n]
  obtain ⟨D, hD0, hD⟩ := hD
  -- the distances to every minimiser converge
  have hlim : ∀ u, Minimises C (fun u => F u + g u) u →
      ∃ l, Filter.Tendsto (fun n => ‖x n - u‖ ^ 2) Filter.atTop (𝓝 l) := by
    intro u hu
    set φ : ℕ → ℝ := fun n => ‖x n - u‖ ^ 2 with hφ
    set θ : ℕ → ℝ := fun n => max 0 (φ (n + 1) - φ n) with hθ
    have hθ0 : ∀ n, 0 ≤ θ n := fun n => le_max_left _ _
    have hstep : ∀ k, t (k + 1) * θ (k + 1) + θ k ≤ t k * θ k + 4 * (t k * d k) := by
      intro k
      have h1 := prox_grad_fejer hg hF hS hβ hL (hxp (k + 1)) hu
      have h2 : φ (k + 2) ≤ ‖z (k + 1) - u‖ ^ 2 := by
        simp only [hφ]
        exact pow_le_pow_left₀ (norm_nonneg _) h1 2
      set α := (t k - 1) / t (k + 1) with hα
      have hα0 : 0 ≤ α := div_nonneg (by linarith [ht1 k]) (htpos _).le
      have hα1 : α ≤ 1 := by rw [hα, div_le_one (htpos _), htS]; linarith
      have e : z (k + 1) - u = (1 + α) • (x (k + 1) - u) - α • (x k - u) := by
        rw [hz k, hα]; simp only [ht]; push_cast; module
      have e2 : ‖z (k + 1) - u‖ ^ 2 = (1 + α) * φ (k + 1) - α * φ k + α * (1 + α) * d k := by
        have e3 : d k = ‖(x (k + 1) - u) - (x k - u)‖ ^ 2 := by simp only [hddef]; congr 2; abel
        rw [e, e3, norm_sub_sq_real, norm_sub_sq_real, norm_smul, norm_smul, mul_pow, mul_pow, Real.norm_eq_abs,
          Real.norm_eq_abs, sq_abs, sq_abs, real_inner_smul_left, real_inner_smul_right]
        simp only [hφ]
        ring
      have h3 : φ (k + 2) - φ (k + 1) ≤ α * θ k + 2 * d k := by
        have h4 : α * (φ (k + 1) - φ k) ≤ α * θ k := mul_le_mul_of_nonneg_left (le_max_right _ _) hα0
        have h5 : α * (1 + α) * d k ≤ 2 * d k := mul_le_mul_of_nonneg_right (by nlinarith) (hd0 k)
        linarith
      have h6 : θ (k + 1) ≤ α * θ k + 2 * d k := by
        apply max_le _ h3
        have := mul_nonneg hα0 (hθ0 k)
        have := hd0 k
        linarith
      have h7 := mul_le_mul_of_nonneg_left h6 (htpos (k + 1)).le
      have e4 : t (k + 1) * (α * θ k + 2 * d k) = (t k - 1) * θ k + 2 * (t (k + 1) * d k) := by
        rw [hα]
        have := (htpos (k + 1)).ne'
        field_simp
      have h8 : t (k + 1) * d k ≤ 2 * (t k * d k) := by
        have : t (k + 1) ≤ 2 * t k := by rw [htS]; linarith [ht1 k]
        have := mul_le_mul_of_nonneg_right this (hd0 k)
        linarith
      linarith
    have key : ∀ n, (Finset.range n).sum θ + t n * θ n
        ≤ t 0 * θ 0 + 4 * (Finset.range n).sum (fun k => t k * d k) := by
      intro n
      induction n with
      | zero => simp
      | succ n ih => rw [Finset.sum_range_succ, Finset.sum_range_succ]; linarith [hstep n]
    refine converges_of_summable_increase (φ := φ) (θ := θ) (B := t 0 * θ 0 + 4 * D) (fun n => sq_nonneg _) hθ0
      (fun n => ?_) (fun n => le_max_right _ _)
    have h9 := mul_nonneg (htpos n).le (hθ0 n)
    linarith [key n, hD n]
  -- consecutive iterates get closer
  have hdlim : Filter.Tendsto (fun k => x (k + 1) - x k) Filter.atTop (𝓝 0) := by
    have hsum : Summable d := by
      refine summable_of_sum_range_le (c := D) hd0 fun n => le_trans ?_ (hD n)
      exact Finset.sum_le_sum fun k _ => le_mul_of_one_le_left (hd0 k) (ht1 k)
    have h1 := hsum.tendsto_atTop_zero
    have h2 : Filter.Tendsto (fun k => ‖x (k + 1) - x k‖) Filter.atTop (𝓝 0) := by
      have := (Real.continuous_sqrt.tendsto 0).comp h1
      rw [Real.sqrt_zero] at this
      refine this.congr fun k => ?_
      simp only [Function.comp_apply, hddef]
      exact Real.sqrt_sq (norm_nonneg _)
    exact tendsto_zero_iff_norm_tendsto_zero.2 h2
  -- a cluster point
  obtain ⟨l0, hl0⟩ := hlim u0 hu0
  obtain ⟨R, hR⟩ := hl0.bddAbove_range
  have hb : ∀ n, x n ∈ Metric.closedBall u0 (Real.sqrt R) := by
    intro n
    rw [Metric.mem_closedBall, dist_eq_norm]
    exact Real.le_sqrt_of_sq_le (hR ⟨n, rfl⟩)
  obtain ⟨q, -, ψ, hψ, hq⟩ := (isCompact_closedBall u0 (Real.sqrt R)).tendsto_subseq hb
  have hψt := hψ.tendsto_atTop
  -- shift by one: `x (ψ n + 1) → q`, and by two
  have hs1 : Filter.Tendsto (fun n => x (ψ n + 1)) Filter.atTop (𝓝 q) := by
    have := hq.add (hdlim.comp hψt)
    rw [add_zero] at this
    exact this.congr fun n => by simp only [Function.comp_apply]; abel
  have hs2 : Filter.Tendsto (fun n => x (ψ n + 2)) Filter.atTop (𝓝 q) := by
    have := hs1.add ((hdlim.comp (Filter.tendsto_add_atTop_nat 1)).comp hψt)
    rw [add_zero] at this
    exact this.congr fun n => by simp only [Function.comp_apply]; abel
  have hzq : Filter.Tendsto (fun n => z (ψ n + 1)) Filter.atTop (𝓝 q) := by
    have h1 : Filter.Tendsto (fun n => ((t (ψ n) - 1) / t (ψ n + 1)) • (x (ψ n + 1) - x (ψ n))) Filter.atTop (𝓝 0) := by
      rw [tendsto_zero_iff_norm_tendsto_zero]
      have h2 := (tendsto_zero_iff_norm_tendsto_zero.1 hdlim).comp hψt
      refine squeeze_zero (fun n => norm_nonneg _) (fun n => ?_) h2
      rw [norm_smul]
      simp only [Function.comp_apply]
      refine mul_le_of_le_one_left (norm_nonneg _) ?_
      rw [Real.norm_of_nonneg (div_nonneg (by linarith [ht1 (ψ n)]) (htpos _).le), div_le_one (htpos _), htS]
      linarith
    have := hs1.add h1
    rw [add_zero] at this
    refine this.congr fun n => ?_
    rw [hz]
  have hTq : T q = q := by
    have h1 := (hT.tendsto q).comp hzq
    have h2 : Filter.Tendsto (T ∘ fun n => z (ψ n + 1)) Filter.atTop (𝓝 q) :=
      hs2.congr fun n => by simp only [Function.comp_apply]; exact hx (ψ n + 1)
    exact tendsto_nhds_unique h1 h2
  have hqm := hfix q hTq
  refine ⟨q, hqm, ?_⟩
  obtain ⟨l, hl⟩ := hlim q hqm
  have hl0' : l = 0 := by
    have h1 := hl.comp hψt
    have h2 : Filter.Tendsto (fun n => ‖x (ψ n) - q‖ ^ 2) Filter.atTop (𝓝 0) := by
      have h3 : Continuous fun y : E => ‖y - q‖ ^ 2 := (continuous_id.sub continuous_const).norm.pow 2
      have h4 := (h3.tendsto q).comp hq
      simpa [Function.comp_def] using h4
    exact tendsto_nhds_unique h1 h2
  rw [hl0'] at hl
  rw [tendsto_iff_norm_sub_tendsto_zero]
  have := (Real.continuous_sqrt.tendsto 0).comp hl
  rw [Real.sqrt_zero] at this
  refine this.congr fun k => ?_
  simp only [Function.comp_apply]
  exact Real.sqrt_sq (norm_nonneg _)

end Verif.Spec
