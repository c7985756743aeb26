import Verif.Lemmas.Convex
import Mathlib.Analysis.SpecificLimits.Basic
import Mathlib.Topology.Algebra.InfiniteSum.Real
import Mathlib.Analysis.Normed.Module.FiniteDimension

/-!
# Proximal-gradient steps with constant inertia

The estimates behind the convergence of `p (n+2) = T (p (n+1) + α (p (n+1) - p n))` for a proximal-gradient step `T` and
`|α| < 1`.
-/

namespace Verif
open Spec RealInnerProductSpace Topology

/-- If `a (n+1) - α a n → 0` and `|α| < 1` then `a n → 0`. -/
theorem tendsto_zero_of_geometric {α : ℝ} (h1 : -1 < α) (h2 : α < 1) (a : ℕ → ℝ)
    (h : Filter.Tendsto (fun n => a (n + 1) - α * a n) Filter.atTop (𝓝 0)) : Filter.Tendsto a Filter.atTop (𝓝 0) := by
  have hα : |α| < 1 := abs_lt.2 ⟨h1, h2⟩
  have hα0 := abs_nonneg α
  rw [Metric.tendsto_atTop]
  intro ε hε
  obtain ⟨N, hN⟩ := Metric.tendsto_atTop.1 h (ε / 2 * (1 - |α|)) (by apply mul_pos <;> linarith)
  have key : ∀ m, |a (N + m)| ≤ |α| ^ m * |a N| + ε / 2 := by
    intro m
    induction m with
    | zero => simp; linarith
    | succ m ih =>
      have h3 := hN (N + m) (by omega)
      rw [Real.dist_eq, sub_zero] at h3
      have h4 : |a (N + (m + 1))| ≤ |a (N + m + 1) - α * a (N + m)| + |α| * |a (N + m)| := by
        have := abs_add_le (a (N + m + 1) - α * a (N + m)) (α * a (N + m))
        rw [sub_add_cancel, abs_mul] at this
        exact this
      have h5 := mul_le_mul_of_nonneg_left ih hα0
      rw [pow_succ]
      nlinarith
  have h6 : Filter.Tendsto (fun m : ℕ => |α| ^ m * |a N|) Filter.atTop (𝓝 0) := by
    simpa using (tendsto_pow_atTop_nhds_zero_of_lt_one hα0 hα).mul_const |a N|
  obtain ⟨M, hM⟩ := Metric.tendsto_atTop.1 h6 (ε / 2) (by linarith)
  refine ⟨N + M, fun n hn => ?_⟩
  obtain ⟨m, rfl⟩ : ∃ m, n = N + m := ⟨n - N, by omega⟩
  have h7 := hM m (by omega)
  rw [Real.dist_eq, sub_zero] at h7 ⊢
  have h8 := le_abs_self (|α| ^ m * |a N|)
  have := key m
  linarith

/-- The three sequences of an inertial method: `f n` the excess of the objective, `D n` the squared length of a step,
`a n` the squared distance to a solution. -/
structure InertialBounds (α : ℝ) (f D a : ℕ → ℝ) : Prop where
  lower : -1 < α
  upper : α < 1
  f_nonneg : ∀ n, 0 ≤ f n
  D_nonneg : ∀ n, 0 ≤ D n
  a_nonneg : ∀ n, 0 ≤ a n
  energy : ∀ n, f (n + 1) + D (n + 1) ≤ f n + α ^ 2 * D n
  distance : ∀ n, f (n + 1) + a (n + 2) ≤ (1 + α) * a (n + 1) - α * a n + α * (1 + α) * D n

/-- The Lyapunov function. -/
noncomputable def inertialV (α : ℝ) (f D a : ℕ → ℝ) (n : ℕ) : ℝ :=
  a (n + 1) - α * a n + max α 0 * (1 + α) * D n + max α 0 / (1 - α) * (f n + α ^ 2 * D n)

namespace InertialBounds
variable {α : ℝ} {f D a : ℕ → ℝ}

theorem sq_lt (h : InertialBounds α f D a) : α ^ 2 < 1 := by
  have h1 := h.lower
  have h2 := h.upper
  nlinarith

theorem V_step (h : InertialBounds α f D a) (n : ℕ) :
    inertialV α f D a (n + 1) + f (n + 1) ≤ inertialV α f D a n := by
  have h1 := h.lower
  have h2 : 0 < 1 - α := by linarith [h.upper]
  set k := max α 0 with hk
  have hk0 : 0 ≤ k := le_max_right _ _
  have hka : α ≤ k := le_max_left _ _
  have e1 := mul_le_mul_of_nonneg_left (h.energy n) (div_nonneg hk0 h2.le)
  have e2 := h.distance n
  have e3 : α * (1 + α) * D n ≤ k * (1 + α) * D n :=
    mul_le_mul_of_nonneg_right (mul_le_mul_of_nonneg_right hka (by linarith)) (h.D_nonneg n)
  have e4 : k / (1 - α) * D (n + 1) = k * (1 + α) * D (n + 1) + k / (1 - α) * (α ^ 2 * D (n + 1)) := by
    field_simp
    ring
  simp only [inertialV, ← hk]
  rw [mul_add] at e1
  rw [mul_add (k / (1 - α)) (f (n + 1))]
  linarith

theorem V_sum (h : InertialBounds α f D a) (n : ℕ) :
    inertialV α f D a n + ∑ i ∈ Finset.range n, f (i + 1) ≤ inertialV α f D a 0 := by
  induction n with
  | zero => simp
  | succ n ih =>
    rw [Finset.sum_range_succ]
    linarith [h.V_step n]

theorem V_lower (h : InertialBounds α f D a) (n : ℕ) : a (n + 1) - α * a n ≤ inertialV α f D a n := by
  have h1 := h.lower
  have h2 : 0 < 1 - α := by linarith [h.upper]
  have hk0 : 0 ≤ max α 0 := le_max_right _ _
  have e1 := mul_nonneg (mul_nonneg hk0 (by linarith : 0 ≤ 1 + α)) (h.D_nonneg n)
  have e2 := mul_nonneg (div_nonneg hk0 h2.le)
    (add_nonneg (h.f_nonneg n) (mul_nonneg (sq_nonneg α) (h.D_nonneg n)))
  simp only [inertialV]
  linarith

theorem V_le (h : InertialBounds α f D a) (n : ℕ) : inertialV α f D a n ≤ inertialV α f D a 0 := by
  have h1 := h.V_sum n
  have h2 : 0 ≤ ∑ i ∈ Finset.range n, f (i + 1) := Finset.sum_nonneg fun i _ => h.f_nonneg _
  linarith

/-- The distances are bounded. -/
theorem a_le (h : InertialBounds α f D a) (n : ℕ) :
    a n ≤ max (a 0) (inertialV α f D a 0 / (1 - max α 0)) := by
  set B := max (a 0) (inertialV α f D a 0 / (1 - max α 0)) with hB
  have hk1 : 0 < 1 - max α 0 := by
    have := max_lt h.upper one_pos
    linarith
  have hV : inertialV α f D a 0 ≤ (1 - max α 0) * B := by
    have := le_max_right (a 0) (inertialV α f D a 0 / (1 - max α 0))
    rw [← hB, div_le_iff₀ hk1] at this
    linarith
  induction n with
  | zero => exact le_max_left _ _
  | succ n ih =>
    have h1 := h.V_lower n
    have h2 := h.V_le n
    have h3 : α * a n ≤ max α 0 * a n := mul_le_mul_of_nonneg_right (le_max_left _ _) (h.a_nonneg n)
    have h4 := mul_le_mul_of_nonneg_left ih (le_max_right α 0)
    linarith

theorem a_bounded (h : InertialBounds α f D a) : ∃ R, ∀ n, a n ≤ R := ⟨_, h.a_le⟩

theorem f_sum (h : InertialBounds α f D a) (n : ℕ) : ∑ i ∈ Finset.range n, f (i + 1) ≤
    inertialV α f D a 0 + max α 0 * max (a 0) (inertialV α f D a 0 / (1 - max α 0)) := by
  have h1 := h.V_sum n
  have h2 := h.V_lower n
  have h3 := mul_le_mul_of_nonneg_left (h.a_le n) (le_max_right α 0)
  have h4 : α * a n ≤ max α 0 * a n := mul_le_mul_of_nonneg_right (le_max_left _ _) (h.a_nonneg n)
  have h5 := h.a_nonneg (n + 1)
  linarith

theorem D_sum (h : InertialBounds α f D a) (n : ℕ) :
    f n + α ^ 2 * D n + (1 - α ^ 2) * ∑ i ∈ Finset.range n, D (i + 1) ≤ f 0 + α ^ 2 * D 0 := by
  induction n with
  | zero => simp
  | succ n ih =>
    rw [Finset.sum_range_succ, mul_add]
    linarith [h.energy n]

/-- The objective approaches its minimum like `1/n`. -/
theorem rate (h : InertialBounds α f D a) (n : ℕ) : n * f n ≤
    inertialV α f D a 0 + max α 0 * max (a 0) (inertialV α f D a 0 / (1 - max α 0))
      + α ^ 2 / (1 - α ^ 2) * (f 0 + α ^ 2 * D 0) := by
  have hα : 0 < 1 - α ^ 2 := by linarith [h.sq_lt]
  have hmono : Antitone fun n => f n + α ^ 2 * D n := antitone_nat_of_succ_le fun n => by
    have h1 := h.energy n
    have h2 := mul_le_mul_of_nonneg_right h.sq_lt.le (h.D_nonneg (n + 1))
    linarith
  have h1 : n * (f n + α ^ 2 * D n) ≤ ∑ i ∈ Finset.range n, (f (i + 1) + α ^ 2 * D (i + 1)) := by
    have h2 := Finset.card_nsmul_le_sum (Finset.range n) (fun i => f (i + 1) + α ^ 2 * D (i + 1))
      (f n + α ^ 2 * D n) fun i hi => hmono (by have := Finset.mem_range.1 hi; omega)
    rwa [Finset.card_range, nsmul_eq_mul] at h2
  rw [Finset.sum_add_distrib, ← Finset.mul_sum] at h1
  have h3 := h.f_sum n
  have h4 := h.D_sum n
  have h5 : ∑ i ∈ Finset.range n, D (i + 1) ≤ (f 0 + α ^ 2 * D 0) / (1 - α ^ 2) := by
    rw [le_div_iff₀ hα]
    have h6 := h.f_nonneg n
    have h7 := mul_nonneg (sq_nonneg α) (h.D_nonneg n)
    linarith
  have h8 := mul_le_mul_of_nonneg_left h5 (sq_nonneg α)
  have h9 : (n : ℝ) * f n ≤ n * (f n + α ^ 2 * D n) :=
    mul_le_mul_of_nonneg_left (by linarith [mul_nonneg (sq_nonneg α) (h.D_nonneg n)]) (Nat.cast_nonneg n)
  have e : α ^ 2 / (1 - α ^ 2) * (f 0 + α ^ 2 * D 0) = α ^ 2 * ((f 0 + α ^ 2 * D 0) / (1 - α ^ 2)) := by ring
  rw [e]
  linarith

theorem f_tendsto (h : InertialBounds α f D a) : Filter.Tendsto f Filter.atTop (𝓝 0) := by
  have h1 : Summable fun i => f (i + 1) := summable_of_sum_range_le (fun i => h.f_nonneg _) h.f_sum
  exact (Filter.tendsto_add_atTop_iff_nat 1).1 h1.tendsto_atTop_zero

theorem D_tendsto (h : InertialBounds α f D a) : Filter.Tendsto D Filter.atTop (𝓝 0) := by
  have hα : 0 < 1 - α ^ 2 := by linarith [h.sq_lt]
  have h1 : Summable fun i => D (i + 1) := by
    refine summable_of_sum_range_le (c := (f 0 + α ^ 2 * D 0) / (1 - α ^ 2)) (fun i => h.D_nonneg _) fun n => ?_
    rw [le_div_iff₀ hα]
    have h6 := h.f_nonneg n
    have h7 := mul_nonneg (sq_nonneg α) (h.D_nonneg n)
    have := h.D_sum n
    linarith
  exact (Filter.tendsto_add_atTop_iff_nat 1).1 h1.tendsto_atTop_zero

/-- If the distances vanish along a subsequence they vanish. -/
theorem a_tendsto (h : InertialBounds α f D a) (φ : ℕ → ℕ) (hφ : Filter.Tendsto φ Filter.atTop Filter.atTop)
    (h1 : Filter.Tendsto (fun n => a (φ n)) Filter.atTop (𝓝 0))
    (h2 : Filter.Tendsto (fun n => a (φ n + 1)) Filter.atTop (𝓝 0)) : Filter.Tendsto a Filter.atTop (𝓝 0) := by
  have hV : Antitone (inertialV α f D a) := antitone_nat_of_succ_le fun n => by
    linarith [h.V_step n, h.f_nonneg (n + 1)]
  have hR : Filter.Tendsto (fun n => max α 0 * (1 + α) * D n + max α 0 / (1 - α) * (f n + α ^ 2 * D n))
      Filter.atTop (𝓝 0) := by
    have := (h.D_tendsto.const_mul (max α 0 * (1 + α))).add
      ((h.f_tendsto.add (h.D_tendsto.const_mul (α ^ 2))).const_mul (max α 0 / (1 - α)))
    simpa using this
  have hsub : Filter.Tendsto (fun n => inertialV α f D a (φ n)) Filter.atTop (𝓝 0) := by
    have := (h2.sub (h1.const_mul α)).add (hR.comp hφ)
    simp only [mul_zero, sub_zero, add_zero] at this
    refine this.congr fun n => ?_
    simp only [inertialV, Function.comp_apply]
    ring
  have hlim : Filter.Tendsto (inertialV α f D a) Filter.atTop (𝓝 0) := by
    rcases tendsto_atTop_of_antitone hV with hb | ⟨l, hl⟩
    · exact absurd hsub (not_tendsto_nhds_of_tendsto_atBot (hb.comp hφ) 0)
    · rwa [tendsto_nhds_unique hsub (hl.comp hφ)]
  refine tendsto_zero_of_geometric h.lower h.upper a ?_
  have := hlim.sub hR
  rw [sub_zero] at this
  refine this.congr fun n => ?_
  simp only [inertialV]
  ring

end InertialBounds

section
variable {E : Type*} [NormedAddCommGroup E] [InnerProductSpace ℝ E]

/-- Distance of an extrapolated point. -/
theorem norm_extrapolate_sq (x y u : E) (α : ℝ) : ‖x + α • (x - y) - u‖ ^ 2 =
    (1 + α) * ‖x - u‖ ^ 2 - α * ‖y - u‖ ^ 2 + α * (1 + α) * ‖x - y‖ ^ 2 := by
  have e1 : x + α • (x - y) - u = (x - u) + α • (x - y) := by abel
  have e2 : y - u = (x - u) - (x - y) := by abel
  rw [e1, e2, norm_add_sq_real, norm_sub_sq_real (x - u) (x - y), norm_smul, mul_pow, Real.norm_eq_abs, sq_abs,
    real_inner_smul_right]
  ring

/-- Inertial proximal-gradient steps satisfy the bounds, with respect to every minimiser. -/
theorem inertial_bounds {C : Set E} {F g : E → ℝ} {G : E → E} {L β α : ℝ} (hg : ConvexOn ℝ C g)
    (hF : AboveTangents F G) (hS : Smooth F G L) (hβ : 0 < β) (hL : β * L ≤ 1) (h1 : -1 < α) (h2 : α < 1) (p : ℕ → E)
    (hp1 : p 1 ∈ C) (hp : ∀ n, IsProxOn C (fun u => β * g u)
      ((p (n + 1) + α • (p (n + 1) - p n)) - β • G (p (n + 1) + α • (p (n + 1) - p n))) (p (n + 2)))
    {u : E} (hu : Minimises C (fun u => F u + g u) u) :
    InertialBounds α (fun n => 2 * β * ((F (p (n + 1)) + g (p (n + 1))) - (F u + g u)))
      (fun n => ‖p (n + 1) - p n‖ ^ 2) (fun n => ‖p n - u‖ ^ 2) := by
  have hC : ∀ n, p (n + 1) ∈ C := by
    intro n
    cases n with
    | zero => exact hp1
    | succ n => exact (hp n).1
  refine ⟨h1, h2, fun n => ?_, fun n => sq_nonneg _, fun n => sq_nonneg _, fun n => ?_, fun n => ?_⟩
  · exact mul_nonneg (by linarith) (by linarith [hu.2 _ (hC n)])
  · have h3 := prox_grad_descent hg hF hS hβ hL (hp n) (hC n)
    have e : p (n + 1) + α • (p (n + 1) - p n) - p (n + 1) = α • (p (n + 1) - p n) := by abel
    rw [e, norm_smul, mul_pow, Real.norm_eq_abs, sq_abs] at h3
    linarith
  · have h3 := prox_grad_descent hg hF hS hβ hL (hp n) hu.1
    rw [norm_extrapolate_sq] at h3
    linarith

/-- Inertial proximal-gradient steps converge. -/
theorem inertial_converges [FiniteDimensional ℝ E] {C : Set E} {F g : E → ℝ} {G : E → E} {L β α : ℝ}
    (hg : ConvexOn ℝ C g) (hF : AboveTangents F G) (hS : Smooth F G L) (hβ : 0 < β) (hL : β * L ≤ 1) (h1 : -1 < α)
    (h2 : α < 1) (T : E → E) (hT : Continuous T) (hTp : ∀ z, IsProxOn C (fun u => β * g u) (z - β • G z) (T z))
    (hfix : ∀ q, T q = q → Minimises C (fun u => F u + g u) q) (hex : ∃ x, Minimises C (fun u => F u + g u) x)
    (p : ℕ → E) (hp1 : p 1 ∈ C) (hp : ∀ n, p (n + 2) = T (p (n + 1) + α • (p (n + 1) - p n))) :
    ∃ q, Minimises C (fun u => F u + g u) q ∧ Filter.Tendsto p Filter.atTop (𝓝 q) := by
  have : ProperSpace E := FiniteDimensional.proper_real E
  have hb : ∀ {u : E}, Minimises C (fun u => F u + g u) u → _ := fun {u} hu =>
    inertial_bounds hg hF hS hβ hL h1 h2 p hp1 (fun n => by rw [hp n]; exact hTp _) hu
  obtain ⟨x, hx⟩ := hex
  have B := hb hx
  -- the iterates are bounded and the steps vanish
  have hD : Filter.Tendsto (fun n => p (n + 1) - p n) Filter.atTop (𝓝 0) := by
    rw [tendsto_zero_iff_norm_tendsto_zero]
    have := (Real.continuous_sqrt.tendsto 0).comp B.D_tendsto
    rw [Real.sqrt_zero] at this
    refine this.congr fun n => ?_
    simp only [Function.comp_apply]
    exact Real.sqrt_sq (norm_nonneg _)
  obtain ⟨R, hR⟩ : ∃ R, ∀ n, p n ∈ Metric.closedBall x R := by
    obtain ⟨R, hR⟩ := B.a_bounded
    refine ⟨Real.sqrt R, fun n => ?_⟩
    rw [Metric.mem_closedBall, dist_eq_norm]
    exact Real.le_sqrt_of_sq_le (hR n)
  obtain ⟨q, -, φ, hφ, hq⟩ := (isCompact_closedBall x R).tendsto_subseq hR
  have hq0 : Filter.Tendsto (fun n => p (φ n)) Filter.atTop (𝓝 q) := hq
  have hφt := hφ.tendsto_atTop
  have hq1 : Filter.Tendsto (fun n => p (φ n + 1)) Filter.atTop (𝓝 q) := by
    have := hq0.add (hD.comp hφt)
    rw [add_zero] at this
    refine this.congr fun n => ?_
    simp only [Function.comp_apply]
    abel
  have hq2 : Filter.Tendsto (fun n => p (φ n + 2)) Filter.atTop (𝓝 q) := by
    have := hq1.add (hD.comp ((Filter.tendsto_add_atTop_nat 1).comp hφt))
    rw [add_zero] at this
    refine this.congr fun n => ?_
    simp only [Function.comp_apply]
    abel
  have hz : Filter.Tendsto (fun n => p (φ n + 1) + α • (p (φ n + 1) - p (φ n))) Filter.atTop (𝓝 q) := by
    have := hq1.add ((hD.comp hφt).const_smul α)
    rw [smul_zero, add_zero] at this
    exact this
  have hTq : T q = q := by
    refine tendsto_nhds_unique ((hT.tendsto q).comp hz) (hq2.congr fun n => ?_)
    rw [hp]; rfl
  have hqm := hfix q hTq
  have B' := hb hqm
  have ha := B'.a_tendsto φ hφt
    (by
      have := ((hq0.sub_const q).norm.pow 2)
      simpa using this)
    (by
      have := ((hq1.sub_const q).norm.pow 2)
      simpa using this)
  refine ⟨q, hqm, ?_⟩
  rw [tendsto_iff_norm_sub_tendsto_zero]
  have := (Real.continuous_sqrt.tendsto 0).comp ha
  rw [Real.sqrt_zero] at this
  refine this.congr fun n => ?_
  simp only [Function.comp_apply]
  exact Real.sqrt_sq (norm_nonneg _)

end

end Verif
