import Verif.Props.Pipeline
import Verif.Props.Convergence

/-!
# C157: the fitted values of a least squares problem are determined by the data
-/

set_option linter.unusedSectionVars false

namespace Verif
open Spec FB
open Loop hiding Obj
open Linear (gradBasic gradCost)
open Prox (sparseOp sparseCost)
open scoped RealInnerProductSpace Topology

section
variable {E Y : Type} [NormedAddCommGroup E] [InnerProductSpace ℝ E] [NormedAddCommGroup Y] [InnerProductSpace ℝ Y]
  {S M K U : Type}

/-- An additive operator with an adjoint commutes with real factors. -/
theorem op_smul (op : E → Y) (adj : Y → E) (hadj : ∀ a b, ⟪op a, b⟫ = ⟪a, adj b⟫) (t : ℝ) (v : E) :
    op (t • v) = t • op v := by
  apply ext_inner_right ℝ
  intro b
  rw [hadj, real_inner_smul_left, real_inner_smul_left, hadj]

/-- The objective exceeds its minimum by half the squared distance of the fitted values. -/
theorem fit_gap (op : E → Y) (adj : Y → E) (y : Y) (hadd : ∀ a b, op (a + b) = op a + op b)
    (hadj : ∀ a b, ⟪op a, b⟫ = ⟪a, adj b⟫) {C : Set E} {g : E → ℝ} (hg : ConvexOn ℝ C g) {x : E}
    (hx : Minimises C (fun u => gradCost op y u + g u) x) {u : E} (hu : u ∈ C) :
    ‖op u - op x‖ ^ 2 ≤ 2 * ((gradCost op y u + g u) - (gradCost op y x + g x)) := by
  have hop : op u - op x = op (u - x) := by
    rw [sub_eq_iff_eq_add, ← hadd, sub_add_cancel]
  rw [hop]
  have key : ∀ t : ℝ, 0 < t → t < 1 →
      (1 - t) * ‖op (u - x)‖ ^ 2 ≤ 2 * ((gradCost op y u + g u) - (gradCost op y x + g x)) := by
    intro t h0 h1
    have hpt : x + t • (u - x) = (1 - t) • x + t • u := by module
    have hm : x + t • (u - x) ∈ C := by
      rw [hpt]
      exact hg.1 hx.1 hu (by linarith) h0.le (by ring)
    have e1 := hx.2 _ hm
    have e2 := hg.2 hx.1 hu (by linarith : (0 : ℝ) ≤ 1 - t) h0.le (by ring)
    rw [← hpt] at e2
    have e3 := C23_cost_expansion op adj y hadd hadj x (t • (u - x))
    have e4 := C23_cost_expansion op adj y hadd hadj x (u - x)
    rw [add_sub_cancel] at e4
    rw [op_smul op adj hadj, norm_smul, inner_smul_right, Real.norm_of_nonneg h0.le, mul_pow] at e3
    simp only [smul_eq_mul] at e1 e2
    have h5 : t * ((1 - t) * ‖op (u - x)‖ ^ 2) ≤
        t * (2 * ((gradCost op y u + g u) - (gradCost op y x + g x))) := by nlinarith
    exact le_of_mul_le_mul_left h5 h0
  by_contra hcon
  push Not at hcon
  set a := ‖op (u - x)‖ ^ 2 with ha
  set b := 2 * ((gradCost op y u + g u) - (gradCost op y x + g x)) with hb
  have hb0 : 0 ≤ b := by
    have := hx.2 u hu
    simp only at this
    rw [hb]
    linarith
  have ha0 : 0 < a := by linarith
  have := key ((a - b) / (2 * a)) (by apply div_pos <;> linarith) (by rw [div_lt_one (by linarith)]; linarith)
  have e : (1 - (a - b) / (2 * a)) * a = (a + b) / 2 := by field_simp; ring
  rw [e] at this
  linarith

/-- C157: for `GradBasic` with an operator and its adjoint and any convex penalty `g` on a convex set `C`.  Solutions `x` for
data `y` and `x'` for data `y'` have fitted values that differ by no more than the data, and so do the residuals; the same
data give the same fitted values, the same data term and the same penalty, although the solutions may differ. -/
theorem C157_fitted_values (op : E → Y) (adj : Y → E) (hadd : ∀ a b, op (a + b) = op a + op b)
    (hadj : ∀ a b, ⟪op a, b⟫ = ⟪a, adj b⟫) {C : Set E} {g : E → ℝ} (hg : ConvexOn ℝ C g) (y y' : Y) (x x' : E)
    (hx : Minimises C (fun u => gradCost op y u + g u) x) (hx' : Minimises C (fun u => gradCost op y' u + g u) x') :
    ‖op x - op x'‖ ^ 2 + ‖(y - op x) - (y' - op x')‖ ^ 2 ≤ ‖y - y'‖ ^ 2 ∧ ‖op x - op x'‖ ≤ ‖y - y'‖ ∧
      ‖(y - op x) - (y' - op x')‖ ≤ ‖y - y'‖ ∧
      (y = y' → op x = op x' ∧ gradCost op y x = gradCost op y x' ∧ g x = g x') := by
  have h1 := fit_gap op adj y hadd hadj hg hx hx'.1
  have h2 := fit_gap op adj y' hadd hadj hg hx' hx.1
  have e : (gradCost op y x' - gradCost op y x) + (gradCost op y' x - gradCost op y' x') = ⟪op x - op x', y - y'⟫ := by
    unfold gradCost
    rw [norm_sub_sq_real, norm_sub_sq_real, norm_sub_sq_real, norm_sub_sq_real, inner_sub_left, inner_sub_right,
      inner_sub_right, real_inner_comm y (op x), real_inner_comm y (op x'), real_inner_comm y' (op x),
      real_inner_comm y' (op x')]
    norm_num
    ring
  have h3 : ‖op x - op x'‖ ^ 2 ≤ ⟪op x - op x', y - y'⟫ := by
    have : ‖op x' - op x‖ = ‖op x - op x'‖ := norm_sub_rev _ _
    rw [this] at h1
    linarith
  have h4 : (y - op x) - (y' - op x') = (y - y') - (op x - op x') := by abel
  have h5 : ‖op x - op x'‖ ^ 2 + ‖(y - op x) - (y' - op x')‖ ^ 2 ≤ ‖y - y'‖ ^ 2 := by
    rw [h4, norm_sub_sq_real (y - y'), real_inner_comm]
    linarith
  refine ⟨h5, ?_, ?_, ?_⟩
  · refine (pow_le_pow_iff_left₀ (norm_nonneg _) (norm_nonneg _) two_ne_zero).1 ?_
    nlinarith [sq_nonneg ‖(y - op x) - (y' - op x')‖]
  · refine (pow_le_pow_iff_left₀ (norm_nonneg _) (norm_nonneg _) two_ne_zero).1 ?_
    nlinarith [sq_nonneg ‖op x - op x'‖]
  · intro hy
    subst hy
    rw [sub_self, inner_zero_right] at h3
    have h0 : op x = op x' := by
      have : ‖op x - op x'‖ = 0 := by nlinarith [norm_nonneg (op x - op x')]
      exact sub_eq_zero.1 (norm_eq_zero.1 this)
    have hc : gradCost op y x = gradCost op y x' := by unfold gradCost; rw [h0]
    have a1 := hx.2 _ hx'.1
    have a2 := hx'.2 _ hx.1
    simp only [hc] at a1 a2
    exact ⟨h0, hc, le_antisymm (by linarith) (by linarith)⟩

/-- C157, speed: the fitted values of `ForwardBackward` without acceleration approach those of the solutions as `1/√n`, in
spaces of any dimension and even if the solution is not unique: a run that returns normally after `n` updates satisfies
`‖op(x_final) - op(x)‖² ≤ ‖x₀ - x‖²/(β n)` for every solution `x`. -/
theorem C157_plain_rate (op : E → Y) (adj : Y → E) (y : Y) (hadd : ∀ a b, op (a + b) = op a + op b)
    (hadj : ∀ a b, ⟪op a, b⟫ = ⟪a, adj b⟫) (N : ℝ) (hN : ∀ v, ‖op v‖ ≤ N * ‖v‖) {C : Set E} {g : E → ℝ}
    (hg : ConvexOn ℝ C g) (prox : E → ℝ → E) (hp : ExactProx C g prox) (A : Surroundings S E M K) (m : ℕ) (hm : 0 < m)
    (x0 : E) (β : ℝ) (r : S) (hb : 0 < β) (hbN : β * N ^ 2 ≤ 1) (o : Loop.Obj (St S E) M K)
    (h : (fbRun (gradBasic op adj y) prox (userRules none none) A m ⟨x0, x0, none, none, β, 1, r⟩).result = .ok o) :
    ∃ n xf, 1 ≤ n ∧ n ≤ m ∧ n = (updates (fbRun (gradBasic op adj y) prox (userRules none none) A m
        ⟨x0, x0, none, none, β, 1, r⟩).trace).length ∧ xFinal o.x = .ok xf ∧
      ∀ x, Minimises C (fun u => gradCost op y u + g u) x → ‖op xf - op x‖ ^ 2 ≤ ‖x0 - x‖ ^ 2 / (β * n) := by
  obtain ⟨hF, hS⟩ := gradBasic_models op adj y hadd hadj N hN
  obtain ⟨n, xf, h1, h2, h3, h4, h5, h6⟩ := C42_rate hg hF hS hp A m hm x0 β r hb hbN o h
  refine ⟨n, xf, h1, h2, h3, h4, fun x hx => ?_⟩
  have a1 := fit_gap op adj y hadd hadj hg hx h5
  have a2 := h6 x hx.1
  have hn : (0 : ℝ) < n := by exact_mod_cast h1
  have e : ‖x0 - x‖ ^ 2 / (β * n) = 2 * (‖x0 - x‖ ^ 2 / (2 * β * n)) := by field_simp
  rw [e]
  linarith

/-- C157, speed with the default FISTA parameters: `‖op(x_final) - op(x)‖ ≤ 2‖x₀ - x‖/(√β n)` after `n ≥ 2` updates. -/
theorem C157_fista_rate (op : E → Y) (adj : Y → E) (y : Y) (hadd : ∀ a b, op (a + b) = op a + op b)
    (hadj : ∀ a b, ⟪op a, b⟫ = ⟪a, adj b⟫) (N : ℝ) (hN : ∀ v, ‖op v‖ ≤ N * ‖v‖) {C : Set E} {g : E → ℝ}
    (hg : ConvexOn ℝ C g) (prox : E → ℝ → E) (hp : ExactProx C g prox) (A : Surroundings (Fista.Obj × U) E M K) (m : ℕ)
    (x0 : E) (β : ℝ) (v : U) (hb : 0 < β) (hbN : β * N ^ 2 ≤ 1) (o : Loop.Obj (St (Fista.Obj × U) E) M K)
    (h : (fbRun (gradBasic op adj y) prox fistaRules A m
      ⟨x0, x0, none, none, β, 1, (regularObj (1/2) 1 4, v)⟩).result = .ok o) (n : ℕ) (hn : 2 ≤ n)
    (hk : (updates (fbRun (gradBasic op adj y) prox fistaRules A m
      ⟨x0, x0, none, none, β, 1, (regularObj (1/2) 1 4, v)⟩).trace).length = n) (x : E)
    (hx : Minimises C (fun u => gradCost op y u + g u) x) :
    ∃ xf, o.x.xNew = some xf ∧ ‖op xf - op x‖ ≤ 2 * ‖x0 - x‖ / (Real.sqrt β * n) := by
  obtain ⟨hF, hS⟩ := gradBasic_models op adj y hadd hadj N hN
  obtain ⟨xf, h1, h2, h3⟩ := C43_rate_classical hg hF hS hp A m x0 β v hb hbN o h n hn hk x hx
  refine ⟨xf, h1, ?_⟩
  have a1 := fit_gap op adj y hadd hadj hg hx h2
  have hn0 : (0 : ℝ) < n := by exact_mod_cast (by omega : 0 < n)
  have hsb := Real.sqrt_pos.2 hb
  refine (pow_le_pow_iff_left₀ (norm_nonneg _) (by positivity) two_ne_zero).1 ?_
  have e : (2 * ‖x0 - x‖ / (Real.sqrt β * n)) ^ 2 = 2 * (2 * ‖x0 - x‖ ^ 2 / (β * (n : ℝ) ^ 2)) := by
    rw [div_pow, mul_pow, mul_pow, Real.sq_sqrt hb.le]
    ring
  rw [e]
  linarith

/-- C157 for limits, in finite dimension: `ForwardBackward` without acceleration on data `y` and with Chambolle-Dossal
acceleration on data `y'`, from any starting points and with any admissible step sizes, converge to points whose fitted values
differ by at most `‖y - y'‖`; for the same data the fitted values in the limit are equal. -/
theorem C157_limits [FiniteDimensional ℝ E] (op : E → Y) (adj : Y → E) (y y' : Y) (hadd : ∀ a b, op (a + b) = op a + op b)
    (hadj : ∀ a b, ⟪op a, b⟫ = ⟪a, adj b⟫) (N : ℝ) (hN0 : 0 < N) (hN : ∀ v, ‖op v‖ ≤ N * ‖v‖) {C : Set E} {g : E → ℝ}
    (hg : ConvexOn ℝ C g) (prox : E → ℝ → E) (hp : ExactProx C g prox)
    (hex : ∃ x, Minimises C (fun u => gradCost op y u + g u) x)
    (hex' : ∃ x, Minimises C (fun u => gradCost op y' u + g u) x) (x0 x0' : E) (β β' lam a : ℝ) (r : S) (v : U)
    (hb : 0 < β) (hbN : β * N ^ 2 < 2) (hb' : 0 < β') (hbN' : β' * N ^ 2 ≤ 1) (ha : 2 < a) :
    ∃ x x', Filter.Tendsto (fun n => (afterSteps (gradBasic op adj y) prox (userRules none none)
        ⟨x0, x0, none, none, β, 1, r⟩ n).xOld) Filter.atTop (𝓝 x) ∧
      Filter.Tendsto (fun n => (afterSteps (gradBasic op adj y') prox fistaRules
        ⟨x0', x0', none, none, β', lam, (cdObj a, v)⟩ n).xOld) Filter.atTop (𝓝 x') ∧
      ‖op x - op x'‖ ≤ ‖y - y'‖ ∧ (y = y' → op x = op x' ∧ g x = g x') := by
  obtain ⟨hF, hS⟩ := gradBasic_models op adj y hadd hadj N hN
  obtain ⟨hF', hS'⟩ := gradBasic_models op adj y' hadd hadj N hN
  obtain ⟨x, h1, h2, -⟩ := C117_forwardbackward_converges hg hF hS (by positivity) hp hex x0 β r hb hbN
  obtain ⟨x', k1, k2, -⟩ := C119_chambolle_dossal_converges hg hF' hS' (by positivity) hp hex' a ha x0' β' lam v hb' hbN'
  obtain ⟨-, c1, -, c2⟩ := C157_fitted_values op adj hadd hadj hg y y' x x' h1 k1
  exact ⟨x, x', h2, k2, c1, fun hy => ⟨(c2 hy).1, (c2 hy).2.2⟩⟩

end

/-- C157 with the package's `SparseThreshold` (soft), guard and rounding included: the delivered solution is within
`n √d (2⁻⁵² + 10⁻¹⁵)` of a point whose fitted values satisfy the bound, so its own fitted values are off by at most the norm of
the operator times that. -/
theorem C157_sparse {E ι 𝕜 Y S M K : Type} [NormedAddCommGroup E] [InnerProductSpace ℝ E] [Fintype ι] [RCLike 𝕜]
    [NormedAddCommGroup Y] [InnerProductSpace ℝ Y] (V : ArraySpace E ι 𝕜) (op : E → Y) (adj : Y → E) (y : Y)
    (hadd : ∀ a b, op (a + b) = op a + op b) (hadj : ∀ a b, ⟪op a, b⟫ = ⟪a, adj b⟫) (N : ℝ) (hN0 : 0 ≤ N)
    (hN : ∀ v, ‖op v‖ ≤ N * ‖v‖) (w : ι → ℝ) (hw : ∀ i, 0 ≤ w i) (prox : E → ℝ → E)
    (hprox : ∀ v c, sparseOp w "soft" (V.arr v) c = .ok (V.arr (prox v c))) (x0 : E) (β : ℝ) (r : S)
    (hb : 0 < β) (hbN : β * N ^ 2 ≤ 1) (A : Surroundings S E M K) (m : ℕ) (hm : 0 < m) (o : Loop.Obj (St S E) M K)
    (h : (fbRun (gradBasic op adj y) prox (userRules none none) A m ⟨x0, x0, none, none, β, 1, r⟩).result = .ok o) (x : E)
    (hx : Minimises Set.univ (fun u => gradCost op y u + sparseCost (fun v => v) w (V.arr u)) x) :
    ∃ n xf, 1 ≤ n ∧ n ≤ m ∧ n = (updates (fbRun (gradBasic op adj y) prox (userRules none none) A m
        ⟨x0, x0, none, none, β, 1, r⟩).trace).length ∧ xFinal o.x = .ok xf ∧
      ‖op xf - op x‖ ≤ ‖x0 - x‖ / Real.sqrt (β * n) + N * (n * (Real.sqrt (Fintype.card ι) * (2⁻¹ ^ 52 + 1 / 10 ^ 15))) := by
  obtain ⟨n, xf, p, h1, h2, h3, h4, h5, h6⟩ := C129_sparse V op adj y hadd hadj N hN w hw prox hprox x0 β r hb hbN A m hm o h
  refine ⟨n, xf, h1, h2, h3, h4, ?_⟩
  have hconv : ConvexOn ℝ Set.univ fun u => sparseCost (fun v => v) w (V.arr u) := by
    have hc := convex_moduli V (fun _ : ι => 0) w (fun _ => le_rfl) hw
    have e : (fun u => sparseCost (fun v => v) w (V.arr u)) = fun u => ∑ i, w i * ‖V.arr u i‖ := by
      funext u
      refine Finset.sum_congr rfl fun i _ => ?_
      rw [norm_mul, RCLike.norm_ofReal, abs_of_nonneg (hw i)]
    rw [e]
    simpa only [zero_mul, zero_add] using hc
  have a1 := fit_gap op adj y hadd hadj hconv hx (Set.mem_univ p)
  have a2 := h6 x
  have hn : (0 : ℝ) < n := by exact_mod_cast h1
  have hs : 0 < β * n := mul_pos hb hn
  have a3 : ‖op p - op x‖ ≤ ‖x0 - x‖ / Real.sqrt (β * n) := by
    refine (pow_le_pow_iff_left₀ (norm_nonneg _) (by positivity) two_ne_zero).1 ?_
    rw [div_pow, Real.sq_sqrt hs.le]
    have e : ‖x0 - x‖ ^ 2 / (β * n) = 2 * (‖x0 - x‖ ^ 2 / (2 * β * n)) := by field_simp
    rw [e]
    linarith
  have a4 : op xf - op p = op (xf - p) := by rw [sub_eq_iff_eq_add, ← hadd, sub_add_cancel]
  have a5 : ‖op xf - op p‖ ≤ N * (n * (Real.sqrt (Fintype.card ι) * (2⁻¹ ^ 52 + 1 / 10 ^ 15))) := by
    rw [a4]
    exact (hN _).trans (mul_le_mul_of_nonneg_left h5 hN0)
  have a6 : op xf - op x = (op xf - op p) + (op p - op x) := by abel
  rw [a6]
  exact (norm_add_le _ _).trans (by linarith)

/-- The operator that adds two entries. -/
theorem pair_minimises (u : EuclideanSpace ℝ (Fin 2)) (h0 : 0 ≤ u 0) (h1 : 0 ≤ u 1) (hu : u 0 + u 1 = 1) :
    Minimises Set.univ (fun u : EuclideanSpace ℝ (Fin 2) => gradCost (fun v : EuclideanSpace ℝ (Fin 2) => v 0 + v 1) 2 u +
      sparseCost (fun v => v) (fun _ => (1 : ℝ)) ((euclid (Fin 2) ℝ).arr u)) u := by
  refine ⟨Set.mem_univ _, fun v _ => ?_⟩
  have e : ∀ v : EuclideanSpace ℝ (Fin 2), sparseCost (fun v => v) (fun _ => (1 : ℝ)) ((euclid (Fin 2) ℝ).arr v) = |v 0| + |v 1| := by
    intro v
    simp [sparseCost, euclid]
  simp only [e, gradCost, hu, abs_of_nonneg h0, abs_of_nonneg h1, Real.norm_eq_abs, sq_abs]
  have a := le_abs_self (v 0)
  have b := le_abs_self (v 1)
  nlinarith [sq_nonneg (v 0 + v 1 - 1)]

/-- C157: the solutions themselves need not be determined by the data: with the operator that adds two entries and unit
weights, different points solve the same problem (the hypotheses of the theorems above are met by this problem). -/
theorem C157_solutions_not_determined : ∃ x x' : EuclideanSpace ℝ (Fin 2), x ≠ x' ∧
    Minimises Set.univ (fun u : EuclideanSpace ℝ (Fin 2) => gradCost (fun v : EuclideanSpace ℝ (Fin 2) => v 0 + v 1) 2 u +
      sparseCost (fun v => v) (fun _ => (1 : ℝ)) ((euclid (Fin 2) ℝ).arr u)) x ∧
    Minimises Set.univ (fun u : EuclideanSpace ℝ (Fin 2) => gradCost (fun v : EuclideanSpace ℝ (Fin 2) => v 0 + v 1) 2 u +
      sparseCost (fun v => v) (fun _ => (1 : ℝ)) ((euclid (Fin 2) ℝ).arr u)) x' := by
  refine ⟨!₂[1, 0], !₂[0, 1], fun h => ?_, pair_minimises _ ?_ ?_ ?_, pair_minimises _ ?_ ?_ ?_⟩
  · have := congrArg (fun v : EuclideanSpace ℝ (Fin 2) => v 0) h
    simp at this
  all_goals simp

/-- That operator is additive and has an adjoint, and the fitted values at the two solutions are equal. -/
example : (∀ a b : EuclideanSpace ℝ (Fin 2), (a + b) 0 + (a + b) 1 = (a 0 + a 1) + (b 0 + b 1)) ∧
    (∀ (a : EuclideanSpace ℝ (Fin 2)) (b : ℝ), ⟪a 0 + a 1, b⟫ = ⟪a, !₂[b, b]⟫) := by
  constructor
  · intro a b
    simp only [PiLp.add_apply]
    ring
  · intro a b
    simp only [PiLp.inner_apply, Fin.sum_univ_two]
    simp
    ring

end Verif
