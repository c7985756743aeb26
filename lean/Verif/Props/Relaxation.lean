import Verif.Lemmas.Inertial
import Verif.Props.Convergence

/-!
# Constant relaxation of the forward-backward algorithm (C143)

`ForwardBackward` computes `z_new = x_old + λ (x_new - x_old)` from the last two proximal iterates, so a constant
`lambda_param = λ` is inertia `λ - 1`.
-/

namespace Verif
open Spec FB RealInnerProductSpace Topology
open Loop (updates)

section
variable {E : Type} [NormedAddCommGroup E] [InnerProductSpace ℝ E] {S : Type}

/-- The iterates with constant parameters. -/
theorem relaxed_steps (G : E → E) (prox : E → ℝ → E) (x0 : E) (β lam : ℝ) (r : S) (n : ℕ) :
    let s := afterSteps G prox (userRules none none) ⟨x0, x0, none, none, β, lam, r⟩
    (s (n + 1)).xOld = prox ((s n).zOld - β • G (s n).zOld) β ∧
    (s (n + 1)).zOld = (s n).xOld + lam • ((s (n + 1)).xOld - (s n).xOld) ∧
    xFinal (s (n + 1)) = .ok (s (n + 1)).zOld := by
  have inv : ∀ k, (afterSteps G prox (userRules none none) ⟨x0, x0, none, none, β, lam, r⟩ k).beta = β ∧
      (afterSteps G prox (userRules none none) ⟨x0, x0, none, none, β, lam, r⟩ k).lam = lam := by
    intro k
    induction k with
    | zero => exact ⟨rfl, rfl⟩
    | succ k ih =>
      refine ⟨?_, ?_⟩
      · simpa [afterSteps, FB.step, userRules, applyUpd] using ih.1
      · simpa [afterSteps, FB.step, userRules, applyUpd] using ih.2
  obtain ⟨h1, h2⟩ := inv n
  simp only [afterSteps]
  generalize afterSteps G prox (userRules none none) ⟨x0, x0, none, none, β, lam, r⟩ n = s at h1 h2
  subst h1 h2
  refine ⟨rfl, ?_, ?_⟩
  · simp [FB.step, userRules]
  · simp [FB.step, userRules, xFinal]

/-- The extrapolated point is an inertial point. -/
theorem extrapolate_eq (x y : E) (lam : ℝ) : y + lam • (x - y) = x + (lam - 1) • (x - y) := by module

/-- C143: in finite dimension, with any constant relaxation `0 < λ < 2`, no parameter updates and `0 < β ≤ 1/L`, the
iterates of `ForwardBackward` converge to a minimiser of `F + g` from every starting point, whenever a minimiser exists;
and every run that returns normally after enough updates, whatever its observers, metrics and cost object, returns an
`x_final` as close to it as wanted. -/
theorem C143_constant_relaxation_converges [FiniteDimensional ℝ E] {C : Set E} {F g : E → ℝ} {G : E → E}
    {prox : E → ℝ → E} {L : ℝ} (hg : ConvexOn ℝ C g) (hF : AboveTangents F G) (hS : Smooth F G L) (hL : 0 < L)
    (hp : ExactProx C g prox) (hex : ∃ x, Minimises C (fun u => F u + g u) x) (x0 : E) (β lam : ℝ) (r : S) (hb : 0 < β)
    (hbL : β * L ≤ 1) (hl0 : 0 < lam) (hl2 : lam < 2) :
    ∃ x, Minimises C (fun u => F u + g u) x ∧
      Filter.Tendsto (fun n => (afterSteps G prox (userRules none none) ⟨x0, x0, none, none, β, lam, r⟩ n).xOld)
        Filter.atTop (𝓝 x) ∧
      ∀ ε > 0, ∃ N, ∀ (M K : Type) (A : Surroundings S E M K) (m : ℕ) (o : Loop.Obj (FB.St S E) M K),
        (fbRun G prox (userRules none none) A m ⟨x0, x0, none, none, β, lam, r⟩).result = .ok o →
        N ≤ (updates (fbRun G prox (userRules none none) A m ⟨x0, x0, none, none, β, lam, r⟩).trace).length →
        ∃ xf, xFinal o.x = .ok xf ∧ ‖xf - x‖ < ε := by
  have hst := relaxed_steps G prox x0 β lam r
  set s := afterSteps G prox (userRules none none) (⟨x0, x0, none, none, β, lam, r⟩ : FB.St S E) with hs
  simp only at hst
  have hTc : Continuous fun z => prox (z - β • G z) β :=
    (exactProx_continuous hg hp hb).comp
      (continuous_id.sub ((smooth_grad_continuous hF hS hL).const_smul β))
  obtain ⟨q, hq, hlim⟩ := inertial_converges (α := lam - 1) hg hF hS hb hbL (by linarith) (by linarith)
    (fun z => prox (z - β • G z) β) hTc (fun z => hp _ _ hb) (fun q hq => fb_map_fixed hg hF hp hb q hq) hex
    (fun n => (s n).xOld) (by simp only [(hst 0).1]; exact (hp _ _ hb).1)
    (fun n => by
      rw [(hst (n + 1)).1, (hst n).2.1, extrapolate_eq])
  refine ⟨q, hq, hlim, fun ε hε => ?_⟩
  have hz : Filter.Tendsto (fun n => (s (n + 1)).zOld) Filter.atTop (𝓝 q) := by
    have h1 := hlim.comp (Filter.tendsto_add_atTop_nat 1)
    have h2 := hlim.add ((h1.sub hlim).const_smul lam)
    rw [sub_self, smul_zero, add_zero] at h2
    refine h2.congr fun n => ?_
    rw [(hst n).2.1]
    rfl
  obtain ⟨N, hN⟩ := Filter.eventually_atTop.1 (Metric.tendsto_nhds.1 hz ε hε)
  refine ⟨N + 1, fun M K A m o ho hn => ?_⟩
  obtain ⟨-, -, h3⟩ := fbRun_state ho
  set n := (updates (fbRun G prox (userRules none none) A m ⟨x0, x0, none, none, β, lam, r⟩).trace).length
  obtain ⟨k, hk⟩ : ∃ k, n = k + 1 := ⟨n - 1, by omega⟩
  have hdist := hN k (by omega)
  rw [dist_eq_norm] at hdist
  refine ⟨(s (k + 1)).zOld, ?_, hdist⟩
  rw [h3, hk]
  exact (hst k).2.2

/-- C143: and the objective at the proximal iterates exceeds the minimum by at most a constant over the number of
updates.  The constant is explicit; for `λ = 1` it is the classical `‖x₀ - u‖²/(2β)`. -/
theorem C143_constant_relaxation_rate {C : Set E} {F g : E → ℝ} {G : E → E}
    {prox : E → ℝ → E} {L : ℝ} (hg : ConvexOn ℝ C g) (hF : AboveTangents F G) (hS : Smooth F G L)
    (hp : ExactProx C g prox) (x0 : E) (hx0 : x0 ∈ C) (β lam : ℝ) (r : S) (hb : 0 < β)
    (hbL : β * L ≤ 1) (hl0 : 0 < lam) (hl2 : lam < 2) {u : E} (hu : Minimises C (fun u => F u + g u) u) (n : ℕ) :
    let x := (afterSteps G prox (userRules none none) ⟨x0, x0, none, none, β, lam, r⟩ n).xOld
    n * ((F x + g x) - (F u + g u)) ≤ max 1 (2 - lam) * ‖x0 - u‖ ^ 2 / (2 * β)
      + (max (lam - 1) 0 / (2 - lam) ^ 2 + (lam - 1) ^ 2 / (lam * (2 - lam))) * ((F x0 + g x0) - (F u + g u)) := by
  have hst := relaxed_steps G prox x0 β lam r
  set s := afterSteps G prox (userRules none none) (⟨x0, x0, none, none, β, lam, r⟩ : FB.St S E) with hs
  simp only at hst
  let p : ℕ → E := fun n => match n with | 0 => x0 | k + 1 => (s k).xOld
  have B := inertial_bounds (α := lam - 1) hg hF hS hb hbL (by linarith) (by linarith) p hx0
    (fun n => by
      have e : p (n + 1) + (lam - 1) • (p (n + 1) - p n) = (s n).zOld := by
        cases n with
        | zero =>
          show x0 + (lam - 1) • (x0 - x0) = x0
          simp
        | succ k =>
          rw [(hst k).2.1, extrapolate_eq]
      rw [e]
      have e2 : p (n + 2) = prox ((s n).zOld - β • G (s n).zOld) β := (hst n).1
      rw [e2]
      exact hp _ _ hb) hu
  have hr := B.rate n
  have h2 : 0 < 2 - lam := by linarith
  have e0 : p 0 = x0 := rfl
  have e1 : p (0 + 1) = x0 := rfl
  have en : p (n + 1) = (s n).xOld := rfl
  simp only [inertialV, e0, e1, en, sub_self, norm_zero] at hr
  set d := ‖x0 - u‖ ^ 2 with hd
  set f0 := (F x0 + g x0) - (F u + g u) with hf0
  have hd0 : 0 ≤ d := sq_nonneg _
  have hf00 : 0 ≤ f0 := by have := hu.2 x0 hx0; simp only [hf0]; linarith
  have ea : (1 : ℝ) - (lam - 1) = 2 - lam := by ring
  have eb : (1 : ℝ) - (lam - 1) ^ 2 = lam * (2 - lam) := by ring
  rw [ea, eb] at hr
  simp only
  have goal2 : 2 * β * (n * ((F (s n).xOld + g (s n).xOld) - (F u + g u))) ≤ 2 * β * (max 1 (2 - lam) * d / (2 * β)
      + (max (lam - 1) 0 / (2 - lam) ^ 2 + (lam - 1) ^ 2 / (lam * (2 - lam))) * f0) := by
    have e3 : 2 * β * (max 1 (2 - lam) * d / (2 * β)
      + (max (lam - 1) 0 / (2 - lam) ^ 2 + (lam - 1) ^ 2 / (lam * (2 - lam))) * f0)
      = max 1 (2 - lam) * d + (max (lam - 1) 0 / (2 - lam) ^ 2 * (2 * β * f0)
        + (lam - 1) ^ 2 / (lam * (2 - lam)) * (2 * β * f0)) := by
      field_simp
    rw [e3]
    have e4 : 2 * β * (n * ((F (s n).xOld + g (s n).xOld) - (F u + g u)))
        = n * (2 * β * ((F (s n).xOld + g (s n).xOld) - (F u + g u))) := by ring
    rw [e4]
    refine hr.trans ?_
    have e5 : (2 * β * f0 + (lam - 1) ^ 2 * 0 ^ 2 : ℝ) = 2 * β * f0 := by ring
    rw [e5]
    have key : d - (lam - 1) * d + max (lam - 1) 0 * (1 + (lam - 1)) * 0 ^ 2
        + max (lam - 1) 0 / (2 - lam) * (2 * β * f0)
        + max (lam - 1) 0 * max d ((d - (lam - 1) * d + max (lam - 1) 0 * (1 + (lam - 1)) * 0 ^ 2
          + max (lam - 1) 0 / (2 - lam) * (2 * β * f0)) / (1 - max (lam - 1) 0))
        ≤ max 1 (2 - lam) * d + max (lam - 1) 0 / (2 - lam) ^ 2 * (2 * β * f0) := by
      set w := 2 * β * f0 with hw
      have hw0 : 0 ≤ w := by positivity
      rcases le_total 1 lam with h | h
      · have m1 : max (lam - 1) 0 = lam - 1 := max_eq_left (by linarith)
        have m2 : max 1 (2 - lam) = 1 := max_eq_left (by linarith)
        rw [m1, m2, ea]
        have e6 : (d - (lam - 1) * d + (lam - 1) * (1 + (lam - 1)) * 0 ^ 2 + (lam - 1) / (2 - lam) * w) / (2 - lam)
            = d + (lam - 1) / (2 - lam) ^ 2 * w := by
          field_simp
          ring
        have e7 : 0 ≤ (lam - 1) / (2 - lam) ^ 2 * w := by
          apply mul_nonneg (div_nonneg (by linarith) (sq_nonneg _)) hw0
        rw [e6, max_eq_right (by linarith)]
        apply le_of_eq
        field_simp
        ring
      · have m1 : max (lam - 1) 0 = 0 := max_eq_right (by linarith)
        have m2 : max 1 (2 - lam) = 2 - lam := max_eq_right (by linarith)
        rw [m1, m2]
        apply le_of_eq
        ring
    linarith
  exact le_of_mul_le_mul_left goal2 (by positivity)

end

/-- C143: the bound `λ < 2` cannot be weakened: for every `λ > 2` there is a convex quadratic on `ℝ` with `L = 1`, minimised
by `0`, on which the iterates with `β = 1` from `x₀ = 1` are unbounded. -/
theorem C143_bound_is_sharp (lam : ℝ) (hl : 2 < lam) : ∃ h : ℝ, 0 < h ∧ h < 1 ∧
    AboveTangents (fun x : ℝ => h / 2 * x ^ 2) (fun x => h * x) ∧
    Smooth (fun x : ℝ => h / 2 * x ^ 2) (fun x => h * x) 1 ∧
    ExactProx Set.univ (fun _ : ℝ => 0) (fun y _ => y) ∧
    Minimises Set.univ (fun x : ℝ => h / 2 * x ^ 2 + 0) 0 ∧
    ∀ R, ∃ n, R < |(afterSteps (fun x : ℝ => h * x) (fun y _ => y) (userRules none none)
      (⟨1, 1, none, none, 1, lam, ()⟩ : FB.St Unit ℝ) n).xOld| := by
  have hl0 : 0 < lam := by linarith
  refine ⟨(lam - 2) ^ 2 / lam ^ 2, by apply div_pos <;> [nlinarith; positivity], ?_, ?_, ?_, ?_, ?_, ?_⟩
  · rw [div_lt_one (by positivity)]; nlinarith
  · intro x u
    simp only [RCLike.inner_apply, conj_trivial]
    have : 0 ≤ (lam - 2) ^ 2 / lam ^ 2 * (u - x) ^ 2 := by positivity
    nlinarith
  · intro x u
    simp only [RCLike.inner_apply, conj_trivial, Real.norm_eq_abs, sq_abs]
    have h1 : (lam - 2) ^ 2 / lam ^ 2 ≤ 1 := by rw [div_le_one (by positivity)]; nlinarith
    nlinarith [mul_le_mul_of_nonneg_right h1 (sq_nonneg (u - x))]
  · intro y b _
    refine ⟨Set.mem_univ _, fun u _ => ?_⟩
    have := sq_nonneg (y - u)
    simpa using this
  · refine ⟨Set.mem_univ _, fun u _ => ?_⟩
    have : 0 ≤ (lam - 2) ^ 2 / lam ^ 2 / 2 * u ^ 2 := by positivity
    simpa using this
  · set h := (lam - 2) ^ 2 / lam ^ 2 with hh
    have hst := relaxed_steps (fun x : ℝ => h * x) (fun y _ => y) 1 1 lam ()
    set s := afterSteps (fun x : ℝ => h * x) (fun y _ => y) (userRules none none)
      (⟨1, 1, none, none, 1, lam, ()⟩ : FB.St Unit ℝ) with hs
    simp only [smul_eq_mul, one_mul] at hst
    set ρ := 2 * (lam - 1) / lam with hρ
    have hρ1 : 1 < ρ := by rw [hρ, lt_div_iff₀ hl0]; linarith
    have e1 : (1 - h) * lam = 2 * ρ := by rw [hh, hρ]; field_simp; ring
    have e2 : (1 - h) * (lam - 1) = ρ ^ 2 := by rw [hh, hρ]; field_simp; ring
    have hh0 : 0 < h := by rw [hh]; apply div_pos <;> [nlinarith; positivity]
    have key : ∀ n, (s (n + 1)).xOld - ρ * (s n).xOld = ρ ^ n * (1 - h - ρ) := by
      intro n
      induction n with
      | zero =>
        rw [(hst 0).1]
        show (1 : ℝ) - h * 1 - ρ * 1 = _
        ring
      | succ n ih =>
        have h3 : (s (n + 1 + 1)).xOld = 2 * ρ * (s (n + 1)).xOld - ρ ^ 2 * (s n).xOld := by
          rw [(hst (n + 1)).1, (hst n).2.1, ← e1, ← e2]
          ring
        rw [h3, show ρ ^ (n + 1) * (1 - h - ρ) = ρ * (ρ ^ n * (1 - h - ρ)) by ring, ← ih]
        ring
    intro R
    by_contra hcon
    push Not at hcon
    obtain ⟨n, hn⟩ := pow_unbounded_of_one_lt ((1 + ρ) * R / (ρ - (1 - h))) hρ1
    rw [div_lt_iff₀ (by linarith)] at hn
    have a1 := abs_le.1 (hcon (n + 1))
    have a2 := abs_le.1 (hcon n)
    have a3 := key n
    nlinarith

/-- `½(x-3)² + |x|` with over-relaxation `λ = 3/2`: the iterates converge to 2. -/
example := C143_constant_relaxation_converges abs_convex sq_above sq_smooth one_pos softR_exact
  ⟨2, two_minimises⟩ 7 1 (3 / 2) () one_pos (by norm_num) (by norm_num) (by norm_num)

example := C143_constant_relaxation_rate abs_convex sq_above sq_smooth softR_exact 7 (Set.mem_univ _) 1 (3 / 2) ()
  one_pos (by norm_num) (by norm_num) (by norm_num) two_minimises 10

end Verif
