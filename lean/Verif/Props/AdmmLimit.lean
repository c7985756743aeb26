import Verif.Props.Admm
import Verif.Props.Predictions
import Mathlib.Analysis.Calculus.LocalExtr.Basic
import Mathlib.Analysis.InnerProductSpace.Calculus

/-!
# C51: the points at which `ADMM` can settle are not the solutions of its problem
-/

set_option linter.unusedSectionVars false

namespace Verif
open Spec
open Admm (Problem St step)
open scoped RealInnerProductSpace Topology

section
variable {H V : Type} [NormedAddCommGroup H] [InnerProductSpace ℝ H] [NormedAddCommGroup V] [InnerProductSpace ℝ V]

/-- What the documentation of `ADMM` (admm.py:88-93) asks of an optimizer: `opti(init, obs)` minimises
`f(w) + τ/2 ‖L w - obs‖²`. -/
def SolvesSubproblem {W : Type} (f : W → ℝ) (L : W → H) (tau : ℝ) (opt : W → H → W) : Prop :=
  ∀ init obs w, f (opt init obs) + tau / 2 * ‖L (opt init obs) - obs‖ ^ 2 ≤ f w + tau / 2 * ‖L w - obs‖ ^ 2

/-- `(u, v)` satisfies the constraint `A u + B v = b`, and `mu` is a multiplier: the conditions for a solution of
`min f(u) + g(v)` subject to the constraint, for differentiable `f`, `g` with gradients `Gf`, `Gg`, and `A'`, `B'` the adjoints. -/
def SolvesConstrained (P : Problem H V) (A' : H → H) (B' : H → V) (Gf : H) (Gg : V) (u : H) (v : V) (mu : H) : Prop :=
  P.A u + P.B v = P.b ∧ Gf = -A' mu ∧ Gg = -B' mu

/-- The optimality condition of a subproblem. -/
theorem subproblem_gradient {W : Type} [NormedAddCommGroup W] [InnerProductSpace ℝ W] (f : W → ℝ) (L : W → H) (L' : H → W)
    (hadd : ∀ a b, L (a + b) = L a + L b) (hadj : ∀ a b, ⟪L a, b⟫ = ⟪a, L' b⟫) (tau : ℝ) (G w : W) (obs : H)
    (hd : HasFDerivAt f (innerSL ℝ G) w)
    (hmin : ∀ z, f w + tau / 2 * ‖L w - obs‖ ^ 2 ≤ f z + tau / 2 * ‖L z - obs‖ ^ 2) (d : W) :
    ⟪G, d⟫ + tau * ⟪L w - obs, L d⟫ = 0 := by
  have hline : HasDerivAt (fun t : ℝ => f (w + t • d)) ⟪G, d⟫ 0 := by
    have h1 : HasDerivAt (fun t : ℝ => w + t • d) d 0 := by
      have := ((hasDerivAt_id (0 : ℝ)).smul_const d).const_add w
      simpa using this
    have hd' : HasFDerivAt f (innerSL ℝ G) (w + (0 : ℝ) • d) := by rwa [zero_smul, add_zero]
    have h3 := hd'.comp_hasDerivAt (0 : ℝ) h1
    rw [innerSL_apply_apply] at h3
    exact h3
  have hquad : HasDerivAt (fun t : ℝ => tau / 2 * ‖L (w + t • d) - obs‖ ^ 2) (tau * ⟪L w - obs, L d⟫) 0 := by
    have e : (fun t : ℝ => tau / 2 * ‖L (w + t • d) - obs‖ ^ 2) =
        fun t => tau / 2 * (‖L w - obs‖ ^ 2 + 2 * ⟪L w - obs, L d⟫ * t + ‖L d‖ ^ 2 * t ^ 2) := by
      funext t
      have e1 : L (w + t • d) - obs = (L w - obs) + t • L d := by
        rw [hadd, op_smul L L' hadj]
        abel
      rw [e1, norm_add_sq_real, inner_smul_right, norm_smul, mul_pow, Real.norm_eq_abs, sq_abs]
      ring
    rw [e]
    have h1 : HasDerivAt (fun t : ℝ => ‖L w - obs‖ ^ 2 + 2 * ⟪L w - obs, L d⟫ * t + ‖L d‖ ^ 2 * t ^ 2)
        (2 * ⟪L w - obs, L d⟫) 0 := by
      have a1 := ((hasDerivAt_id (0 : ℝ)).const_mul (2 * ⟪L w - obs, L d⟫)).const_add (‖L w - obs‖ ^ 2)
      have a2 := ((hasDerivAt_pow 2 (0 : ℝ))).const_mul (‖L d‖ ^ 2)
      have h3 := a1.add a2
      have e3 : 2 * ⟪L w - obs, L d⟫ * 1 + ‖L d‖ ^ 2 * (((2 : ℕ) : ℝ) * 0 ^ (2 - 1)) = 2 * ⟪L w - obs, L d⟫ := by norm_num
      rw [e3] at h3
      exact h3
    have := h1.const_mul (tau / 2)
    have e2 : tau / 2 * (2 * ⟪L w - obs, L d⟫) = tau * ⟪L w - obs, L d⟫ := by ring
    rwa [e2] at this
  have hloc : IsLocalMin (fun t : ℝ => f (w + t • d) + tau / 2 * ‖L (w + t • d) - obs‖ ^ 2) 0 := by
    refine Filter.Eventually.of_forall fun t => ?_
    simpa using hmin (w + t • d)
  exact hloc.hasDerivAt_eq_zero (hline.add hquad)

/-- C51: with exact optimizers for differentiable `f`, `g` and operators whose adjoints are injective, an update of `ADMM`
leaves a solution `(u, v)` with multiplier `mu` where it is only if the two parts of the constraint are equal,
`A u = B v = b/2`, and `mu = τ (b - u)`. -/
theorem C51_kept_solutions (P : Problem H V) (A' : H → H) (B' : H → V) (hA : ∀ a b, P.A (a + b) = P.A a + P.A b)
    (hB : ∀ a b, P.B (a + b) = P.B a + P.B b) (hA' : ∀ a b, ⟪P.A a, b⟫ = ⟪a, A' b⟫) (hB' : ∀ a b, ⟪P.B a, b⟫ = ⟪a, B' b⟫)
    (iA : Function.Injective A') (iB : Function.Injective B') (f : H → ℝ) (g : V → ℝ) (tau : ℝ) (htau : tau ≠ 0)
    (hf : SolvesSubproblem f P.A tau P.optH) (hg : SolvesSubproblem g P.B tau P.optG) (s : St H V) (mu Gf : H) (Gg : V)
    (hGf : HasFDerivAt f (innerSL ℝ Gf) s.u) (hGg : HasFDerivAt g (innerSL ℝ Gg) s.v)
    (hsol : SolvesConstrained P A' B' Gf Gg s.u s.v mu) (hu : (step P s).u = s.u) (hv : (step P s).v = s.v) :
    P.A s.u = (1 / 2 : ℝ) • P.b ∧ P.B s.v = (1 / 2 : ℝ) • P.b ∧ mu = tau • (P.b - s.u) := by
  obtain ⟨c1, c2, c3⟩ := hsol
  have hu' : P.optH s.u (P.B s.v + s.u - P.b) = s.u := hu
  have hv' : P.optG s.v (P.A s.u + s.u - P.b) = s.v := by
    have : P.optG s.v (P.A (P.optH s.u (P.B s.v + s.u - P.b)) + s.u - P.b) = s.v := hv
    rwa [hu'] at this
  have e1 := subproblem_gradient f P.A A' hA hA' tau Gf s.u (P.B s.v + s.u - P.b) hGf
    (fun z => by have := hf s.u (P.B s.v + s.u - P.b) z; rwa [hu'] at this)
  have e2 := subproblem_gradient g P.B B' hB hB' tau Gg s.v (P.A s.u + s.u - P.b) hGg
    (fun z => by have := hg s.v (P.A s.u + s.u - P.b) z; rwa [hv'] at this)
  have k1 : mu = tau • (P.A s.u - (P.B s.v + s.u - P.b)) := by
    apply iA
    apply ext_inner_right ℝ
    intro d
    have h1 := e1 d
    rw [c2, inner_neg_left] at h1
    have h2 : ⟪A' (tau • (P.A s.u - (P.B s.v + s.u - P.b))), d⟫ = tau * ⟪P.A s.u - (P.B s.v + s.u - P.b), P.A d⟫ := by
      rw [real_inner_comm, ← hA', real_inner_comm, real_inner_smul_left]
    rw [h2]
    linarith
  have k2 : mu = tau • (P.B s.v - (P.A s.u + s.u - P.b)) := by
    apply iB
    apply ext_inner_right ℝ
    intro d
    have h1 := e2 d
    rw [c3, inner_neg_left] at h1
    have h2 : ⟪B' (tau • (P.B s.v - (P.A s.u + s.u - P.b))), d⟫ = tau * ⟪P.B s.v - (P.A s.u + s.u - P.b), P.B d⟫ := by
      rw [real_inner_comm, ← hB', real_inner_comm, real_inner_smul_left]
    rw [h2]
    linarith
  have k3 := smul_right_injective H htau (k1.symm.trans k2)
  have hAu : P.A s.u = (1 / 2 : ℝ) • P.b := by
    have hB2 : P.B s.v = P.b - P.A s.u := eq_sub_of_add_eq' c1
    rw [hB2] at k3
    have k4 : (4 : ℝ) • P.A s.u = (2 : ℝ) • P.b := by
      have : P.A s.u - (P.b - P.A s.u + s.u - P.b) - (P.b - P.A s.u - (P.A s.u + s.u - P.b)) = 0 := sub_eq_zero.2 k3
      have e : P.A s.u - (P.b - P.A s.u + s.u - P.b) - (P.b - P.A s.u - (P.A s.u + s.u - P.b)) =
          (4 : ℝ) • P.A s.u - (2 : ℝ) • P.b := by module
      rw [e] at this
      exact sub_eq_zero.1 this
    have : P.A s.u = (1 / 4 : ℝ) • ((4 : ℝ) • P.A s.u) := by module
    rw [this, k4]
    module
  have hBv : P.B s.v = (1 / 2 : ℝ) • P.b := by
    rw [eq_sub_of_add_eq' c1, hAu]
    module
  refine ⟨hAu, hBv, ?_⟩
  rw [k1, hAu, hBv]
  congr 1
  module

/-- What an optimizer has to do for the observation passed to it to enter with the sign it has in the augmented Lagrangian:
`opti(init, obs)` minimises `f(w) + τ/2 ‖L w + obs‖²`. -/
def SolvesSubproblemPlus {W : Type} (f : W → ℝ) (L : W → H) (tau : ℝ) (opt : W → H → W) : Prop :=
  ∀ init obs w, f (opt init obs) + tau / 2 * ‖L (opt init obs) + obs‖ ^ 2 ≤ f w + tau / 2 * ‖L w + obs‖ ^ 2

/-- C51 for optimizers with the other sign: an update leaves a solution where it is only if its multiplier is `τ` times the
solution itself, which the code uses in place of the multiplier. -/
theorem C51_kept_solutions_plus (P : Problem H V) (A' : H → H) (B' : H → V) (hA : ∀ a b, P.A (a + b) = P.A a + P.A b)
    (hA' : ∀ a b, ⟪P.A a, b⟫ = ⟪a, A' b⟫) (iA : Function.Injective A') (f : H → ℝ) (tau : ℝ)
    (hf : SolvesSubproblemPlus f P.A tau P.optH) (s : St H V) (mu Gf : H) (Gg : V)
    (hGf : HasFDerivAt f (innerSL ℝ Gf) s.u) (hsol : SolvesConstrained P A' B' Gf Gg s.u s.v mu) (hu : (step P s).u = s.u) :
    mu = tau • s.u := by
  obtain ⟨c1, c2, -⟩ := hsol
  have hu' : P.optH s.u (P.B s.v + s.u - P.b) = s.u := hu
  have e1 := subproblem_gradient f P.A A' hA hA' tau Gf s.u (-(P.B s.v + s.u - P.b)) hGf
    (fun z => by
      have := hf s.u (P.B s.v + s.u - P.b) z
      rw [hu'] at this
      simpa only [sub_neg_eq_add] using this)
  have hc : P.A s.u - -(P.B s.v + s.u - P.b) = s.u := by
    rw [sub_neg_eq_add, ← c1]
    abel
  rw [hc] at e1
  apply iA
  apply ext_inner_right ℝ
  intro d
  have h1 := e1 d
  rw [c2, inner_neg_left] at h1
  have h2 : ⟪A' (tau • s.u), d⟫ = tau * ⟪s.u, P.A d⟫ := by
    rw [real_inner_comm, ← hA', real_inner_comm, real_inner_smul_left]
  rw [h2]
  linarith

/-- C51: the iterates of `ADMM` (with continuous exact optimizers and operators) do not converge to a solution unless that
solution splits the constraint evenly. -/
theorem C51_limits (P : Problem H V) (A' : H → H) (B' : H → V) (hA : ∀ a b, P.A (a + b) = P.A a + P.A b)
    (hB : ∀ a b, P.B (a + b) = P.B a + P.B b) (hA' : ∀ a b, ⟪P.A a, b⟫ = ⟪a, A' b⟫) (hB' : ∀ a b, ⟪P.B a, b⟫ = ⟪a, B' b⟫)
    (iA : Function.Injective A') (iB : Function.Injective B') (f : H → ℝ) (g : V → ℝ) (tau : ℝ) (htau : tau ≠ 0)
    (hf : SolvesSubproblem f P.A tau P.optH) (hg : SolvesSubproblem g P.B tau P.optG)
    (cH : Continuous fun p : H × H => P.optH p.1 p.2) (cG : Continuous fun p : V × H => P.optG p.1 p.2) (cA : Continuous P.A)
    (cB : Continuous P.B) (s₀ : St H V) (u : H) (v : V) (mu Gf : H) (Gg : V)
    (hGf : HasFDerivAt f (innerSL ℝ Gf) u) (hGg : HasFDerivAt g (innerSL ℝ Gg) v)
    (hsol : SolvesConstrained P A' B' Gf Gg u v mu) (hne : P.A u ≠ (1 / 2 : ℝ) • P.b) :
    ¬ (Filter.Tendsto (fun n => (Admm.after P s₀ n).u) Filter.atTop (𝓝 u) ∧
      Filter.Tendsto (fun n => (Admm.after P s₀ n).v) Filter.atTop (𝓝 v)) := by
  rintro ⟨hu, hv⟩
  have hu1 := hu.comp (Filter.tendsto_add_atTop_nat 1)
  have hv1 := hv.comp (Filter.tendsto_add_atTop_nat 1)
  have fu : P.optH u (P.B v + u - P.b) = u := by
    have h1 : Filter.Tendsto (fun n => P.optH (Admm.after P s₀ n).u (P.B (Admm.after P s₀ n).v + (Admm.after P s₀ n).u - P.b)) Filter.atTop
        (𝓝 (P.optH u (P.B v + u - P.b))) :=
      (cH.tendsto (u, P.B v + u - P.b)).comp
        (hu.prodMk_nhds ((((cB.tendsto v).comp hv).add hu).sub_const P.b))
    exact tendsto_nhds_unique h1 hu1
  have fv : P.optG v (P.A u + u - P.b) = v := by
    have h1 : Filter.Tendsto (fun n => P.optG (Admm.after P s₀ n).v (P.A (Admm.after P s₀ (n + 1)).u + (Admm.after P s₀ n).u - P.b))
        Filter.atTop (𝓝 (P.optG v (P.A u + u - P.b))) :=
      (cG.tendsto (v, P.A u + u - P.b)).comp
        (hv.prodMk_nhds ((((cA.tendsto u).comp hu1).add hu).sub_const P.b))
    exact tendsto_nhds_unique h1 hv1
  refine hne (C51_kept_solutions P A' B' hA hB hA' hB' iA iB f g tau htau hf hg ⟨u, v, 0⟩ mu Gf Gg hGf hGg hsol fu ?_).1
  show P.optG v (P.A (P.optH u (P.B v + u - P.b)) + u - P.b) = v
  rw [fu, fv]

/-- C51: the same for optimizers with the other sign: no convergence to a solution whose multiplier is not `τ` times the
solution. -/
theorem C51_limits_plus (P : Problem H V) (A' : H → H) (B' : H → V) (hA : ∀ a b, P.A (a + b) = P.A a + P.A b)
    (hA' : ∀ a b, ⟪P.A a, b⟫ = ⟪a, A' b⟫) (iA : Function.Injective A') (f : H → ℝ) (tau : ℝ)
    (hf : SolvesSubproblemPlus f P.A tau P.optH) (cH : Continuous fun p : H × H => P.optH p.1 p.2) (cB : Continuous P.B)
    (s₀ : St H V) (u : H) (v : V) (mu Gf : H) (Gg : V) (hGf : HasFDerivAt f (innerSL ℝ Gf) u)
    (hsol : SolvesConstrained P A' B' Gf Gg u v mu) (hne : mu ≠ tau • u) :
    ¬ (Filter.Tendsto (fun n => (Admm.after P s₀ n).u) Filter.atTop (𝓝 u) ∧
      Filter.Tendsto (fun n => (Admm.after P s₀ n).v) Filter.atTop (𝓝 v)) := by
  rintro ⟨hu, hv⟩
  have fu : P.optH u (P.B v + u - P.b) = u := by
    have h1 : Filter.Tendsto (fun n => P.optH (Admm.after P s₀ n).u (P.B (Admm.after P s₀ n).v + (Admm.after P s₀ n).u - P.b))
        Filter.atTop (𝓝 (P.optH u (P.B v + u - P.b))) :=
      (cH.tendsto (u, P.B v + u - P.b)).comp
        (hu.prodMk_nhds ((((cB.tendsto v).comp hv).add hu).sub_const P.b))
    exact tendsto_nhds_unique h1 (hu.comp (Filter.tendsto_add_atTop_nat 1))
  exact hne (C51_kept_solutions_plus P A' B' hA hA' iA f tau hf ⟨u, v, 0⟩ mu Gf Gg hGf hsol fu)

end

/-- The derivative of the quadratic terms used in the examples. -/
theorem quad_deriv (a c x : ℝ) : HasFDerivAt (fun u : ℝ => a / 2 * (u - c) ^ 2) (innerSL ℝ (a * (x - c))) x := by
  rw [hasFDerivAt_iff_isLittleO_nhds_zero]
  have e : (fun h : ℝ => a / 2 * (x + h - c) ^ 2 - a / 2 * (x - c) ^ 2 - innerSL ℝ (a * (x - c)) h) = fun h => (a / 2 * h) * h := by
    funext h
    simp only [innerSL_apply_apply, RCLike.inner_apply, conj_trivial]
    ring
  rw [e]
  have h1 : (fun h : ℝ => a / 2 * h) =o[𝓝 0] fun _ => (1 : ℝ) := by
    rw [Asymptotics.isLittleO_one_iff]
    have : Filter.Tendsto (fun h : ℝ => a / 2 * h) (𝓝 0) (𝓝 (a / 2 * 0)) := (continuous_const.mul continuous_id).tendsto 0
    rwa [mul_zero] at this
  simpa using h1.mul_isBigO (Asymptotics.isBigO_refl (fun h : ℝ => h) (𝓝 0))

/-- Minimise `½(u-4)² + (3/2)v²` subject to `u - v = 0`, with the exact optimizers of the documentation: from no starting
point do the iterates converge to the solution `u = v = 1`. -/
example (s₀ : St ℝ ℝ) :
    ¬ (Filter.Tendsto (fun n => (Admm.after (⟨fun _ obs => (4 + obs) / 2, fun _ obs => -obs / 4, id, fun v => -v, 0⟩ :
        Problem ℝ ℝ) s₀ n).u) Filter.atTop (𝓝 1) ∧
      Filter.Tendsto (fun n => (Admm.after (⟨fun _ obs => (4 + obs) / 2, fun _ obs => -obs / 4, id, fun v => -v, 0⟩ :
        Problem ℝ ℝ) s₀ n).v) Filter.atTop (𝓝 1)) := by
  refine C51_limits _ id (fun v => -v) (fun _ _ => rfl) (fun a b => neg_add a b) (fun _ _ => rfl) (fun a b => by simp)
    Function.injective_id neg_injective (fun u => 1 / 2 * (u - 4) ^ 2) (fun v => 3 / 2 * (v - 0) ^ 2) 1 one_ne_zero ?_ ?_
    (by fun_prop) (by fun_prop) continuous_id continuous_neg s₀ 1 1 3 _ _ (quad_deriv 1 4 1) (quad_deriv 3 0 1)
    ⟨by simp, by norm_num, by norm_num⟩ (by norm_num)
  · intro init obs w
    simp only [id, Real.norm_eq_abs, sq_abs]
    nlinarith [sq_nonneg (w - (4 + obs) / 2)]
  · intro init obs w
    simp only [Real.norm_eq_abs, sq_abs]
    nlinarith [sq_nonneg (w + obs / 4)]

/-- The same problem with the optimizers of the other sign. -/
example (s₀ : St ℝ ℝ) :
    ¬ (Filter.Tendsto (fun n => (Admm.after (⟨fun _ obs => (4 - obs) / 2, fun _ obs => obs / 4, id, fun v => -v, 0⟩ :
        Problem ℝ ℝ) s₀ n).u) Filter.atTop (𝓝 1) ∧
      Filter.Tendsto (fun n => (Admm.after (⟨fun _ obs => (4 - obs) / 2, fun _ obs => obs / 4, id, fun v => -v, 0⟩ :
        Problem ℝ ℝ) s₀ n).v) Filter.atTop (𝓝 1)) := by
  refine C51_limits_plus _ id (fun v => -v) (fun _ _ => rfl) (fun _ _ => rfl) Function.injective_id
    (fun u => 1 / 2 * (u - 4) ^ 2) 1 ?_ (by fun_prop) continuous_neg s₀ 1 1 3 _ (3 * (1 - 0)) (quad_deriv 1 4 1)
    ⟨by simp, by norm_num, by norm_num⟩ (by norm_num)
  intro init obs w
  simp only [id, Real.norm_eq_abs, sq_abs]
  nlinarith [sq_nonneg (w - (4 - obs) / 2)]

end Verif
