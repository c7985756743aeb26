import Verif.Props.Proximity
import Verif.Props.FloatOps
import Verif.Props.Convergence
import Verif.Props.Pipeline

/-!
# C158: more regularisation never gives a larger penalty
-/

set_option linter.unusedSectionVars false

namespace Verif
open Spec FB Noise
open Loop hiding Obj
open Prox (sparseOp sparseCost ridgeOp elasticOp groupOp normAxis0 eps32)
open scoped RealInnerProductSpace Topology

/-- Rounding to decimals keeps the order of moduli. -/
theorem around_abs_le (d : ℕ) {a b : ℝ} (h : |a| ≤ |b|) : |around d a| ≤ |around d b| := by
  have h10 : (0 : ℝ) < 10 ^ d := by positivity
  have mono : ∀ {p q : ℝ}, p ≤ q → around d p ≤ around d q := by
    intro p q hpq
    refine div_le_div_of_nonneg_right ?_ h10.le
    exact_mod_cast rint_mono (mul_le_mul_of_nonneg_right hpq h10.le)
  have habs : ∀ p : ℝ, |around d p| = around d |p| := by
    intro p
    rcases le_total 0 p with h | h
    · have := mono h
      rw [around_zero] at this
      rw [abs_of_nonneg h, abs_of_nonneg this]
    · have := mono h
      rw [around_zero] at this
      rw [abs_of_nonpos h, abs_of_nonpos this, around_neg]
  rw [habs, habs]
  exact mono h

section
variable {ι 𝕜 : Type} [RCLike 𝕜]

/-- The same for complex numbers, component by component. -/
theorem norm_aroundK_le (d : ℕ) {z z' : 𝕜} (h1 : |RCLike.re z| ≤ |RCLike.re z'|) (h2 : |RCLike.im z| ≤ |RCLike.im z'|) :
    ‖aroundK d z‖ ≤ ‖aroundK d z'‖ := by
  have hre : ∀ u : 𝕜, RCLike.re (aroundK d u) = around d (RCLike.re u) := by
    intro u
    simp [aroundK]
  have him : ∀ u : 𝕜, RCLike.im (aroundK d u) = around d (RCLike.im u) * RCLike.im (RCLike.I : 𝕜) := by
    intro u
    simp [aroundK]
  refine (pow_le_pow_iff_left₀ (norm_nonneg _) (norm_nonneg _) two_ne_zero).1 ?_
  rw [← RCLike.normSq_eq_def', ← RCLike.normSq_eq_def', RCLike.normSq_apply, RCLike.normSq_apply, hre, hre, him, him]
  have a1 := mul_self_le_mul_self (abs_nonneg _) (around_abs_le d h1)
  have a2 := mul_self_le_mul_self (abs_nonneg _) (around_abs_le d h2)
  rw [abs_mul_abs_self, abs_mul_abs_self] at a1 a2
  have a3 := mul_le_mul_of_nonneg_right a2 (mul_self_nonneg (RCLike.im (RCLike.I : 𝕜)))
  nlinarith

theorem softFactor_anti {t t' : ℝ} (h : t ≤ t') (r : ℝ) : softFactor t' r ≤ softFactor t r := by
  have h0 : 0 < max eps64 r := lt_max_of_lt_left eps64_pos
  exact max_le_max (sub_le_sub_left (div_le_div_of_nonneg_right h h0.le) 1) le_rfl

/-- C158 for `thresh`, soft and hard, guard and rounding included: a larger threshold never gives an entry of larger
modulus, and never revives an entry that was set to zero.  Thresholds of either sign. -/
theorem C158_threshold (x : ι → 𝕜) (t t' : ι → ℝ) (h : ∀ i, t i ≤ t' i) (kind : String) (out out' : ι → 𝕜)
    (ho : thresh x t kind = .ok out) (ho' : thresh x t' kind = .ok out') (i : ι) :
    ‖out' i‖ ≤ ‖out i‖ ∧ (out i = 0 → out' i = 0) := by
  have key : ‖out' i‖ ≤ ‖out i‖ := by
    unfold thresh at ho ho'
    split_ifs at ho ho' with h1 h2
    · have e := Except.ok.inj ho
      have e' := Except.ok.inj ho'
      subst e e'
      have hf := softFactor_anti (h i) ‖x i‖
      have h0 : 0 ≤ softFactor (t' i) ‖x i‖ := le_max_right _ _
      refine norm_aroundK_le 15 ?_ ?_
      · simp only [softRaw, RCLike.re_ofReal_mul, abs_mul]
        rw [abs_of_nonneg h0, abs_of_nonneg (h0.trans hf)]
        exact mul_le_mul_of_nonneg_right hf (abs_nonneg _)
      · simp only [softRaw, RCLike.im_ofReal_mul, abs_mul]
        rw [abs_of_nonneg h0, abs_of_nonneg (h0.trans hf)]
        exact mul_le_mul_of_nonneg_right hf (abs_nonneg _)
    · have e := Except.ok.inj ho
      have e' := Except.ok.inj ho'
      subst e e'
      unfold hardThresh
      by_cases hc : ‖x i‖ ≥ t' i
      · rw [if_pos hc, if_pos (le_trans (h i) hc)]
      · rw [if_neg hc]
        simp
  exact ⟨key, fun hz => by rw [hz, norm_zero] at key; exact norm_le_zero_iff.1 key⟩

/-- C158 for the operators: larger weights never give an entry of larger modulus, for `SparseThreshold` (soft and hard),
`Ridge`, `ElasticNet` and `GroupLASSO`, called with a non-negative factor. -/
theorem C158_operators {κ γ : Type} [Fintype γ] (c : ℝ) (hc : 0 ≤ c) :
    (∀ (x : ι → 𝕜) (w w' : ι → ℝ) (_ : ∀ i, w i ≤ w' i) (kind : String) (out out' : ι → 𝕜),
      sparseOp w kind x c = .ok out → sparseOp w' kind x c = .ok out' → ∀ i, ‖out' i‖ ≤ ‖out i‖ ∧ (out i = 0 → out' i = 0)) ∧
    (∀ (linear : (ι → 𝕜) → κ → 𝕜) (x : ι → 𝕜) (w w' : κ → ℝ) (_ : ∀ i, 0 ≤ w i) (_ : ∀ i, w i ≤ w' i) (i : κ),
      ‖ridgeOp linear w' x c i‖ ≤ ‖ridgeOp linear w x c i‖) ∧
    (∀ (x : ι → 𝕜) (a a' b b' : ι → ℝ) (_ : ∀ i, 0 ≤ a i) (_ : ∀ i, a i ≤ a' i) (_ : ∀ i, b i ≤ b' i) (out out' : ι → 𝕜),
      elasticOp a b x c = .ok out → elasticOp a' b' x c = .ok out' → ∀ i, ‖out' i‖ ≤ ‖out i‖ ∧ (out i = 0 → out' i = 0)) ∧
    ∀ (x : γ × κ → 𝕜) (w w' : κ → ℝ) (_ : ∀ i, w i ≤ w' i) (i : γ × κ), ‖groupOp w' x c i‖ ≤ ‖groupOp w x c i‖ := by
  refine ⟨?_, ?_, ?_, ?_⟩
  · intro x w w' hw kind out out' h h'
    exact C158_threshold x _ _ (fun i => mul_le_mul_of_nonneg_right (hw i) hc) kind out out' h h'
  · intro linear x w w' h0 hw i
    unfold ridgeOp
    rw [norm_div, norm_div, RCLike.norm_ofReal, RCLike.norm_ofReal]
    have a1 : 0 ≤ w i * c := mul_nonneg (h0 i) hc
    have a2 : w i * c ≤ w' i * c := mul_le_mul_of_nonneg_right (hw i) hc
    rw [abs_of_pos (by linarith), abs_of_pos (by linarith)]
    exact div_le_div_of_nonneg_left (norm_nonneg _) (by linarith) (by linarith)
  · intro x a a' b b' h0 ha hb out out' h h' i
    have key : ‖out' i‖ ≤ ‖out i‖ := by
      unfold elasticOp at h h'
      cases h1 : thresh x (fun i => b i * c) "soft" with
      | error e => rw [h1] at h; cases h
      | ok y =>
        cases h2 : thresh x (fun i => b' i * c) "soft" with
        | error e => rw [h2] at h'; cases h'
        | ok y' =>
          rw [h1] at h
          rw [h2] at h'
          have e := Except.ok.inj h
          have e' := Except.ok.inj h'
          subst e e'
          have hy := (C158_threshold x _ _ (fun i => mul_le_mul_of_nonneg_right (hb i) hc) "soft" y y' h1 h2 i).1
          simp only [norm_div, RCLike.norm_ofReal]
          have a1 : 0 ≤ a i * 2 * c := mul_nonneg (mul_nonneg (h0 i) zero_le_two) hc
          have a2 : a i * 2 * c ≤ a' i * 2 * c :=
            mul_le_mul_of_nonneg_right (mul_le_mul_of_nonneg_right (ha i) zero_le_two) hc
          rw [abs_of_pos (by linarith), abs_of_pos (by linarith)]
          exact div_le_div₀ (norm_nonneg _) hy (by linarith) (by linarith)
    exact ⟨key, fun hz => by rw [hz, norm_zero] at key; exact norm_le_zero_iff.1 key⟩
  · intro x w w' hw i
    unfold groupOp
    have h0 : 0 < max (normAxis0 x i.2) eps32 := lt_max_of_lt_right (by unfold eps32; positivity)
    have a1 : max 0 (1 - w' i.2 * c / max (normAxis0 x i.2) eps32) ≤ max 0 (1 - w i.2 * c / max (normAxis0 x i.2) eps32) :=
      max_le_max le_rfl (sub_le_sub_left (div_le_div_of_nonneg_right (mul_le_mul_of_nonneg_right (hw _) hc) h0.le) 1)
    rw [norm_mul, norm_mul, RCLike.norm_ofReal, RCLike.norm_ofReal, abs_of_nonneg (le_max_left _ _),
      abs_of_nonneg (le_max_left _ _)]
    exact mul_le_mul_of_nonneg_left a1 (norm_nonneg _)

end

section
variable {E S M K S' M' K' : Type} [NormedAddCommGroup E] [InnerProductSpace ℝ E]

/-- C158 for solutions: `x` solves the problem with penalty `a g`, `x'` the one with `b g`, `a < b`.  The penalty at `x'` is not
larger, and with `a ≥ 0` the data term at `x'` is not smaller.  No convexity is needed. -/
theorem C158_solutions {C : Set E} {F g : E → ℝ} {a b : ℝ} (hab : a < b) (x x' : E)
    (hx : Minimises C (fun u => F u + a * g u) x) (hx' : Minimises C (fun u => F u + b * g u) x') :
    g x' ≤ g x ∧ (0 ≤ a → F x ≤ F x') := by
  have h1 := hx.2 x' hx'.1
  have h2 := hx'.2 x hx.1
  simp only at h1 h2
  have h3 : g x' ≤ g x := by
    by_contra hc
    push Not at hc
    nlinarith
  exact ⟨h3, fun ha => by nlinarith [mul_le_mul_of_nonneg_left h3 ha]⟩

/-- C158 for runs: two runs of `ForwardBackward` without acceleration, with penalties `a g` and `b g`, `a < b`, that return
normally after `n` and `n'` updates, with any observers.  The penalty of the second result exceeds that of the first by at most
`(‖x₀ - x'‖²/(2βn) + ‖x₀' - x‖²/(2β'n'))/(b - a)`; no solution needs to exist. -/
theorem C158_runs {C : Set E} {F g : E → ℝ} {G : E → E} {prox prox' : E → ℝ → E} {L a b : ℝ} (hab : a < b) (ha : 0 ≤ a)
    (hg : ConvexOn ℝ C g) (hF : AboveTangents F G) (hS : Smooth F G L) (hp : ExactProx C (fun u => a * g u) prox)
    (hp' : ExactProx C (fun u => b * g u) prox') (A : Surroundings S E M K) (A' : Surroundings S' E M' K') (m m' : ℕ)
    (hm : 0 < m) (hm' : 0 < m') (x0 x0' : E) (β β' : ℝ) (r : S) (r' : S') (hb : 0 < β) (hb' : 0 < β') (hL : β * L ≤ 1)
    (hL' : β' * L ≤ 1) (o : Loop.Obj (St S E) M K) (o' : Loop.Obj (St S' E) M' K')
    (h : (fbRun G prox (userRules none none) A m ⟨x0, x0, none, none, β, 1, r⟩).result = .ok o)
    (h' : (fbRun G prox' (userRules none none) A' m' ⟨x0', x0', none, none, β', 1, r'⟩).result = .ok o') :
    ∃ (n n' : ℕ) (x x' : E), 1 ≤ n ∧ 1 ≤ n' ∧
      n = (updates (fbRun G prox (userRules none none) A m ⟨x0, x0, none, none, β, 1, r⟩).trace).length ∧
      n' = (updates (fbRun G prox' (userRules none none) A' m' ⟨x0', x0', none, none, β', 1, r'⟩).trace).length ∧
      xFinal o.x = .ok x ∧ xFinal o'.x = .ok x' ∧
      (b - a) * (g x' - g x) ≤ ‖x0 - x'‖ ^ 2 / (2 * β * n) + ‖x0' - x‖ ^ 2 / (2 * β' * n') := by
  have c1 : ConvexOn ℝ C fun u => a * g u := by simpa only [smul_eq_mul] using hg.smul ha
  have c2 : ConvexOn ℝ C fun u => b * g u := by simpa only [smul_eq_mul] using hg.smul (ha.trans hab.le)
  obtain ⟨n, x, h1, -, h3, h4, h5, h6⟩ := C42_rate c1 hF hS hp A m hm x0 β r hb hL o h
  obtain ⟨n', x', k1, -, k3, k4, k5, k6⟩ := C42_rate c2 hF hS hp' A' m' hm' x0' β' r' hb' hL' o' h'
  refine ⟨n, n', x, x', h1, k1, h3, k3, h4, k4, ?_⟩
  have e1 := h6 x' k5
  have e2 := k6 x h5
  linarith

/-- C158 for limits: in finite dimension the two runs converge, the penalty at the limit with the larger factor is not larger,
and the data term there is not smaller. -/
theorem C158_limits [FiniteDimensional ℝ E] {C : Set E} {F g : E → ℝ} {G : E → E} {prox prox' : E → ℝ → E} {L a b : ℝ}
    (hab : a < b) (ha : 0 ≤ a) (hg : ConvexOn ℝ C g) (hF : AboveTangents F G) (hS : Smooth F G L) (hL0 : 0 < L)
    (hp : ExactProx C (fun u => a * g u) prox) (hp' : ExactProx C (fun u => b * g u) prox')
    (hex : ∃ x, Minimises C (fun u => F u + a * g u) x) (hex' : ∃ x, Minimises C (fun u => F u + b * g u) x) (x0 x0' : E)
    (β β' : ℝ) (r : S) (r' : S') (hb : 0 < β) (hb' : 0 < β') (hL : β * L < 2) (hL' : β' * L < 2) :
    ∃ x x', Filter.Tendsto (fun n => (afterSteps G prox (userRules none none) ⟨x0, x0, none, none, β, 1, r⟩ n).xOld)
        Filter.atTop (𝓝 x) ∧
      Filter.Tendsto (fun n => (afterSteps G prox' (userRules none none) ⟨x0', x0', none, none, β', 1, r'⟩ n).xOld)
        Filter.atTop (𝓝 x') ∧ g x' ≤ g x ∧ F x ≤ F x' := by
  have c1 : ConvexOn ℝ C fun u => a * g u := by simpa only [smul_eq_mul] using hg.smul ha
  have c2 : ConvexOn ℝ C fun u => b * g u := by simpa only [smul_eq_mul] using hg.smul (ha.trans hab.le)
  obtain ⟨x, h1, h2, -⟩ := C117_forwardbackward_converges c1 hF hS hL0 hp hex x0 β r hb hL
  obtain ⟨x', k1, k2, -⟩ := C117_forwardbackward_converges c2 hF hS hL0 hp' hex' x0' β' r' hb' hL'
  obtain ⟨e1, e2⟩ := C158_solutions hab x x' h1 k1
  exact ⟨x, x', h2, k2, e1, e2 ha⟩

end

/-- The hypotheses can be met, with non-trivial results: soft thresholding of a complex array. -/
example (out out' : Fin 2 → ℂ) (ho : thresh ![3 + 4 * Complex.I, 1] (fun _ => 1) "soft" = .ok out)
    (ho' : thresh ![3 + 4 * Complex.I, 1] (fun _ => 2) "soft" = .ok out') : ‖out' 0‖ ≤ ‖out 0‖ :=
  (C158_threshold _ _ _ (fun _ => by norm_num) "soft" out out' ho ho' 0).1

theorem square_prox (a : ℝ) (ha : 0 ≤ a) :
    ExactProx Set.univ (fun u : ℝ => a * (1 / 2 * u ^ 2)) fun v c => v / (1 + c * a) := by
  intro v c hc
  refine ⟨Set.mem_univ _, fun u _ => ?_⟩
  have hp : 0 < 1 + c * a := by positivity
  obtain ⟨q, hq⟩ : ∃ q, q = v / (1 + c * a) := ⟨_, rfl⟩
  have hv : v = q * (1 + c * a) := by rw [hq]; field_simp
  simp only [Real.norm_eq_abs, sq_abs]
  rw [← hq, hv]
  nlinarith [mul_nonneg (mul_nonneg hc.le ha) (sq_nonneg (u - q)), sq_nonneg (u - q)]

theorem square_solution (a : ℝ) (ha : 0 ≤ a) :
    Minimises Set.univ (fun u : ℝ => 1 / 2 * (u - 3) ^ 2 + a * (1 / 2 * u ^ 2)) (3 / (1 + a)) := by
  refine ⟨Set.mem_univ _, fun u _ => ?_⟩
  have hp : 0 < 1 + a := by linarith
  set q := 3 / (1 + a) with hq
  have hv : q + q * a = 3 := by rw [hq]; field_simp
  have h3 : (3 : ℝ) = q + q * a := hv.symm
  simp only [h3]
  nlinarith [mul_nonneg ha (sq_nonneg (u - q)), sq_nonneg (u - q)]

/-- A quadratic data term and penalty, factors one and two. -/
example (x0 x0' : ℝ) := C158_limits (S := Unit) (S' := Unit) (one_lt_two : (1 : ℝ) < 2) zero_le_one
  (g := fun u : ℝ => 1 / 2 * u ^ 2) (C := Set.univ)
  (by
    refine ⟨convex_univ, fun p _ q _ s t hs ht hst => ?_⟩
    obtain rfl : s = 1 - t := by linarith
    simp only [smul_eq_mul]
    nlinarith [mul_nonneg (mul_nonneg hs ht) (sq_nonneg (p - q))])
  sq_above sq_smooth one_pos (square_prox 1 zero_le_one) (square_prox 2 zero_le_two) ⟨_, square_solution 1 zero_le_one⟩
  ⟨_, square_solution 2 zero_le_two⟩ x0 x0' 1 (1 / 2) () () one_pos (by norm_num) (by norm_num) (by norm_num)

end Verif
