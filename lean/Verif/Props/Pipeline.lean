import Verif.Props.Stability
import Verif.Props.Proximity
import Verif.Props.Positivity
import Verif.Props.Linear
import Verif.Spec.Arrays
import Verif.Props.Stopping
import Mathlib.Topology.Instances.RealVectorSpace

/-!
# C129: the operators of the package and the algorithm together

`ForwardBackward` with `GradBasic` and the proximity operators of the package, as they compute (the guard and the
rounding of `thresh` included), on real or complex arrays.
-/

set_option linter.unusedSectionVars false

namespace Verif
open Spec FB Noise
open Loop hiding Obj
open Positivity (positivityOp)
open Linear (gradBasic gradCost)
open Prox (sparseOp sparseCost elasticOp elasticCost ridgeOp ridgeCost groupOp groupCost normAxis0 eps32)
open scoped RealInnerProductSpace

/-! ## A run with an approximate proximity operator -/

section
variable {E : Type} [NormedAddCommGroup E] [InnerProductSpace ℝ E] {S M K : Type}

/-- The rate of the exact iterates. -/
theorem ista_rate {C : Set E} {F g : E → ℝ} {G : E → E} {prox : E → ℝ → E} {L : ℝ} (hg : ConvexOn ℝ C g)
    (hF : AboveTangents F G) (hS : Smooth F G L) (hp : ExactProx C g prox) (x0 : E) (β : ℝ) (r : S) (hb : 0 < β)
    (hL : β * L ≤ 1) {X : ℕ → E}
    (hX : X = fun k => (afterSteps G prox (userRules none none) ⟨x0, x0, none, none, β, 1, r⟩ k).xOld) (n : ℕ)
    (hn : 1 ≤ n) : X n ∈ C ∧ ∀ u ∈ C, (F (X n) + g (X n)) - (F u + g u) ≤ ‖x0 - u‖ ^ 2 / (2 * β * n) := by
  obtain ⟨h1, h2, h3⟩ := ista_descent hg hF hS hp x0 β r hb hL hX
  obtain ⟨k, rfl⟩ : ∃ k, n = k + 1 := ⟨n - 1, by omega⟩
  refine ⟨h2 k, fun u hu => ?_⟩
  have hX0 : X 0 = x0 := by rw [hX]; rfl
  have hsum : ∀ j : ℕ, 2 * β * (j + 1) * ((F (X (j + 1)) + g (X (j + 1))) - (F u + g u)) + ‖X (j + 1) - u‖ ^ 2 ≤
      ‖x0 - u‖ ^ 2 := by
    intro j
    induction j with
    | zero =>
      have := h1 0 u hu
      rw [hX0] at this
      push_cast
      linarith
    | succ j ih =>
      have h4 := h1 (j + 1) u hu
      have h5 := mul_le_mul_of_nonneg_left (h3 (j + 1) (j + 2) (by omega) (by omega))
        (by positivity : 0 ≤ 2 * β * ((j : ℝ) + 1))
      push_cast
      have e : j + 1 + 1 = j + 2 := rfl
      rw [e] at *
      nlinarith
  have := hsum k
  push_cast
  rw [le_div_iff₀ (by positivity)]
  nlinarith [sq_nonneg ‖X (k + 1) - u‖]

/-- What `x_final` is after a run without acceleration. -/
theorem plain_final (G : E → E) (prox : E → ℝ → E) (A : Surroundings S E M K) (m : ℕ) (hm : 0 < m) (x0 : E) (β : ℝ)
    (r : S) (o : Loop.Obj (St S E) M K)
    (h : (fbRun G prox (userRules none none) A m ⟨x0, x0, none, none, β, 1, r⟩).result = .ok o) :
    ∃ n, 1 ≤ n ∧ n ≤ m ∧
      n = (updates (fbRun G prox (userRules none none) A m ⟨x0, x0, none, none, β, 1, r⟩).trace).length ∧
      xFinal o.x = .ok (afterSteps G prox (userRules none none) ⟨x0, x0, none, none, β, 1, r⟩ n).xOld := by
  obtain ⟨h1, h2, h3⟩ := fbRun_state h
  refine ⟨_, h2 hm, h1, rfl, ?_⟩
  set n := (updates (fbRun G prox (userRules none none) A m ⟨x0, x0, none, none, β, 1, r⟩).trace).length
  have hn : 0 < n := h2 hm
  obtain ⟨k, hk⟩ : ∃ k, n = k + 1 := ⟨n - 1, by omega⟩
  have inv : ∀ k, (afterSteps G prox (userRules none none) ⟨x0, x0, none, none, β, 1, r⟩ k).xOld
        = (afterSteps G prox (userRules none none) ⟨x0, x0, none, none, β, 1, r⟩ k).zOld ∧
      (afterSteps G prox (userRules none none) ⟨x0, x0, none, none, β, 1, r⟩ k).lam = 1 := by
    intro k
    induction k with
    | zero => exact ⟨rfl, rfl⟩
    | succ k ih =>
      obtain ⟨i1, i3⟩ := ih
      simp only [afterSteps]
      generalize afterSteps G prox (userRules none none) ⟨x0, x0, none, none, β, 1, r⟩ k = s at *
      refine ⟨?_, ?_⟩
      · simp [FB.step, userRules, i3]
      · simp [FB.step, userRules, applyUpd, i3]
  have i1 := (inv n).1
  rw [h3]
  simp only [hk] at i1 ⊢
  simp only [afterSteps, xFinal] at i1 ⊢
  rw [(step_xNew _ _ _ _).2]
  simp only
  rw [i1]

/-- A run with a proximity operator that errs by at most `δ`: the result of `n` updates is within `nδ` of a point
whose objective is within `‖x₀ - u‖²/(2βn)` of every `u`. -/
theorem fb_run_near {C : Set E} {F g : E → ℝ} {G : E → E} {prox prox' : E → ℝ → E} {L : ℝ} (hg : ConvexOn ℝ C g)
    (hF : AboveTangents F G) (hS : Smooth F G L) (hL : 0 ≤ L) (hp : ExactProx C g prox) (x0 : E) (β : ℝ) (r : S)
    (hb : 0 < β) (hbL : β * L ≤ 1) (δ : ℝ) (hδ : ∀ v, ‖prox' v β - prox v β‖ ≤ δ) (A : Surroundings S E M K) (m : ℕ)
    (hm : 0 < m) (o : Loop.Obj (St S E) M K)
    (h : (fbRun G prox' (userRules none none) A m ⟨x0, x0, none, none, β, 1, r⟩).result = .ok o) :
    ∃ n x' x, 1 ≤ n ∧ n ≤ m ∧
      n = (updates (fbRun G prox' (userRules none none) A m ⟨x0, x0, none, none, β, 1, r⟩).trace).length ∧
      xFinal o.x = .ok x' ∧ x ∈ C ∧ ‖x' - x‖ ≤ n * δ ∧
      ∀ u ∈ C, (F x + g x) - (F u + g u) ≤ ‖x0 - u‖ ^ 2 / (2 * β * n) := by
  obtain ⟨n, h1, h2, h3, h4⟩ := plain_final G prox' A m hm x0 β r o h
  obtain ⟨h5, h6⟩ := ista_rate hg hF hS hp x0 β r hb hbL rfl n h1
  refine ⟨n, _, _, h1, h2, h3, h4, h5, ?_, h6⟩
  have := C127_approximate_operators_partial (G' := G) (prox' := prox') hg hF hS hL hp x0 x0 β r hb (by linarith) 0 δ n
    (fun k _ x _ => ⟨by simp, hδ _⟩)
  simpa using this

end

/-! ## Arrays -/

section
variable {E ι 𝕜 : Type} [NormedAddCommGroup E] [InnerProductSpace ℝ E] [Fintype ι] [RCLike 𝕜]

/-- The specification of a proximity operator on arrays and the one in an inner product space agree. -/
theorem isProxOn_of_isProx (V : ArraySpace E ι 𝕜) {g : (ι → 𝕜) → ℝ} {x p : E} (h : IsProx g (V.arr x) (V.arr p)) :
    IsProxOn Set.univ (fun u => g (V.arr u)) x p := by
  refine ⟨Set.mem_univ _, fun u _ => ?_⟩
  have := h (V.arr u)
  simp only [halfSqDist] at this
  rw [V.norm_sq, V.norm_sq]
  simpa only [map_sub, Pi.sub_apply] using this

theorem arr_norm_le (V : ArraySpace E ι 𝕜) (u : E) (i : ι) : ‖V.arr u i‖ ≤ ‖u‖ := by
  have h := V.norm_sq u
  have h2 := Finset.single_le_sum (f := fun i => ‖V.arr u i‖ ^ 2) (fun i _ => sq_nonneg _) (Finset.mem_univ i)
  rw [← h] at h2
  exact (sq_le_sq₀ (norm_nonneg _) (norm_nonneg _)).1 h2

theorem arr_real_smul (V : ArraySpace E ι 𝕜) (c : ℝ) (u : E) (i : ι) : V.arr (c • u) i = c • V.arr u i := by
  let f : E →+ 𝕜 := (Pi.evalAddMonoidHom (fun _ : ι => 𝕜) i).comp V.arr.toAddMonoidHom
  have hf : Continuous f := AddMonoidHomClass.continuous_of_bound f 1 fun x => by
    rw [one_mul]; exact arr_norm_le V x i
  exact map_real_smul f hf c u

/-- Sums of weighted moduli and squared moduli are convex. -/
theorem convex_moduli (V : ArraySpace E ι 𝕜) (a b : ι → ℝ) (ha : ∀ i, 0 ≤ a i) (hb : ∀ i, 0 ≤ b i) :
    ConvexOn ℝ Set.univ fun u => ∑ i, (a i * ‖V.arr u i‖ ^ 2 + b i * ‖V.arr u i‖) := by
  refine ⟨convex_univ, fun x _ y _ s t hs ht hst => ?_⟩
  simp only [smul_eq_mul]
  rw [Finset.mul_sum, Finset.mul_sum, ← Finset.sum_add_distrib]
  refine Finset.sum_le_sum fun i _ => ?_
  have h1 : ‖V.arr (s • x + t • y) i‖ ≤ s * ‖V.arr x i‖ + t * ‖V.arr y i‖ := by
    rw [map_add, Pi.add_apply, arr_real_smul, arr_real_smul]
    refine (norm_add_le _ _).trans ?_
    rw [norm_smul, norm_smul, Real.norm_of_nonneg hs, Real.norm_of_nonneg ht]
  have h2 : ‖V.arr (s • x + t • y) i‖ ^ 2 ≤ s * ‖V.arr x i‖ ^ 2 + t * ‖V.arr y i‖ ^ 2 := by
    refine (pow_le_pow_left₀ (norm_nonneg _) h1 2).trans ?_
    have ht' : t = 1 - s := by linarith
    subst ht'
    nlinarith [mul_nonneg (mul_nonneg hs ht) (sq_nonneg (‖V.arr x i‖ - ‖V.arr y i‖))]
  have h3 := mul_le_mul_of_nonneg_left h1 (hb i)
  have h4 := mul_le_mul_of_nonneg_left h2 (ha i)
  linarith

theorem norm_le_of_entries (V : ArraySpace E ι 𝕜) (v : E) (e : ℝ) (he : 0 ≤ e) (h : ∀ i, ‖V.arr v i‖ ≤ e) :
    ‖v‖ ≤ Real.sqrt (Fintype.card ι) * e := by
  rw [← Real.sqrt_sq (norm_nonneg v), V.norm_sq, ← Real.sqrt_sq he, ← Real.sqrt_mul (by positivity)]
  apply Real.sqrt_le_sqrt
  calc ∑ i, ‖V.arr v i‖ ^ 2 ≤ ∑ _i : ι, e ^ 2 :=
        Finset.sum_le_sum fun i _ => pow_le_pow_left₀ (norm_nonneg _) (h i) 2
    _ = _ := by rw [Finset.sum_const, Finset.card_univ, nsmul_eq_mul]

variable {Y : Type} [NormedAddCommGroup Y] [InnerProductSpace ℝ Y] {S M K : Type}

/-- `GradBasic` meets the hypotheses of the convergence theorems. -/
theorem gradBasic_models (op : E → Y) (adj : Y → E) (y : Y)
    (hadd : ∀ a b, op (a + b) = op a + op b) (hadj : ∀ a b, ⟪op a, b⟫ = ⟪a, adj b⟫) (N : ℝ)
    (hN : ∀ v, ‖op v‖ ≤ N * ‖v‖) :
    AboveTangents (gradCost op y) (gradBasic op adj y) ∧ Smooth (gradCost op y) (gradBasic op adj y) (N ^ 2) := by
  refine ⟨fun x u => C23_cost_above_tangents op adj y hadd hadj x u, fun x u => ?_⟩
  have := C23_cost_expansion op adj y hadd hadj x (u - x)
  rw [add_sub_cancel] at this
  have h2 := pow_le_pow_left₀ (norm_nonneg _) (hN (u - x)) 2
  rw [mul_pow] at h2
  linarith

/-- The common part of the theorems below: a proximity operator that is entrywise within `e` of the exact one. -/
theorem pipeline (V : ArraySpace E ι 𝕜) (op : E → Y) (adj : Y → E) (y : Y)
    (hadd : ∀ a b, op (a + b) = op a + op b) (hadj : ∀ a b, ⟪op a, b⟫ = ⟪a, adj b⟫) (N : ℝ)
    (hN : ∀ v, ‖op v‖ ≤ N * ‖v‖) (g : (ι → 𝕜) → ℝ) (hg : ConvexOn ℝ Set.univ fun u => g (V.arr u))
    (prox : E → ℝ → E) (e : ℝ) (he : 0 ≤ e)
    (hprox : ∀ v c, 0 < c → ∃ p : ι → 𝕜, IsProx (fun u => c * g u) (V.arr v) p ∧ ∀ i, ‖V.arr (prox v c) i - p i‖ ≤ e)
    (x0 : E) (β : ℝ) (r : S) (hb : 0 < β) (hbN : β * N ^ 2 ≤ 1) (A : Surroundings S E M K) (m : ℕ) (hm : 0 < m)
    (o : Loop.Obj (St S E) M K)
    (h : (fbRun (gradBasic op adj y) prox (userRules none none) A m ⟨x0, x0, none, none, β, 1, r⟩).result = .ok o) :
    ∃ n x' x, 1 ≤ n ∧ n ≤ m ∧
      n = (updates (fbRun (gradBasic op adj y) prox (userRules none none) A m
        ⟨x0, x0, none, none, β, 1, r⟩).trace).length ∧ xFinal o.x = .ok x' ∧
      ‖x' - x‖ ≤ n * (Real.sqrt (Fintype.card ι) * e) ∧
      ∀ u, (gradCost op y x + g (V.arr x)) - (gradCost op y u + g (V.arr u)) ≤ ‖x0 - u‖ ^ 2 / (2 * β * n) := by
  obtain ⟨hF, hS⟩ := gradBasic_models op adj y hadd hadj N hN
  have hex : ∀ (v : E) (c : ℝ), ∃ p : ι → 𝕜, 0 < c →
      IsProx (fun u => c * g u) (V.arr v) p ∧ ∀ i, ‖V.arr (prox v c) i - p i‖ ≤ e := by
    intro v c
    by_cases hc : 0 < c
    · obtain ⟨p, hp⟩ := hprox v c hc
      exact ⟨p, fun _ => hp⟩
    · exact ⟨0, fun h => absurd h hc⟩
  choose p hp using hex
  have hP : ExactProx Set.univ (fun u => g (V.arr u)) fun v c => V.arr.symm (p v c) := by
    intro v c hc
    have h1 : IsProx (fun u => c * g u) (V.arr v) (V.arr (V.arr.symm (p v c))) := by
      rw [AddEquiv.apply_symm_apply]; exact (hp v c hc).1
    exact isProxOn_of_isProx V h1
  have hd : ∀ v, ‖prox v β - V.arr.symm (p v β)‖ ≤ Real.sqrt (Fintype.card ι) * e := by
    intro v
    refine norm_le_of_entries V _ _ he fun i => ?_
    rw [map_sub, AddEquiv.apply_symm_apply]
    exact (hp v β hb).2 i
  obtain ⟨n, x', x, h1, h2, h3, h4, -, h5, h6⟩ := fb_run_near (prox' := prox) hg hF hS (sq_nonneg N) hP x0 β r hb hbN _
    hd A m hm o h
  exact ⟨n, x', x, h1, h2, h3, h4, h5, fun u => h6 u (Set.mem_univ _)⟩

/-- C129, least squares with an l1 penalty: `ForwardBackward` with `GradBasic` for an operator and its adjoint and
`SparseThreshold` (soft) with non-negative weights, any step `0 < β ≤ 1/‖op‖²`.  A run that returns normally has done
`n ≥ 1` updates and delivers a solution within `n √d (2⁻⁵² + 10⁻¹⁵)` of a point whose objective, computed by the
package's own cost functions, exceeds that of any other point `u` by at most `‖x₀ - u‖²/(2βn)`.  Real and complex
arrays of every shape. -/
theorem C129_sparse (V : ArraySpace E ι 𝕜) (op : E → Y) (adj : Y → E) (y : Y)
    (hadd : ∀ a b, op (a + b) = op a + op b) (hadj : ∀ a b, ⟪op a, b⟫ = ⟪a, adj b⟫) (N : ℝ)
    (hN : ∀ v, ‖op v‖ ≤ N * ‖v‖) (w : ι → ℝ) (hw : ∀ i, 0 ≤ w i) (prox : E → ℝ → E)
    (hprox : ∀ v c, sparseOp w "soft" (V.arr v) c = .ok (V.arr (prox v c))) (x0 : E) (β : ℝ) (r : S)
    (hb : 0 < β) (hbN : β * N ^ 2 ≤ 1) (A : Surroundings S E M K) (m : ℕ) (hm : 0 < m) (o : Loop.Obj (St S E) M K)
    (h : (fbRun (gradBasic op adj y) prox (userRules none none) A m ⟨x0, x0, none, none, β, 1, r⟩).result = .ok o) :
    ∃ n x' x, 1 ≤ n ∧ n ≤ m ∧
      n = (updates (fbRun (gradBasic op adj y) prox (userRules none none) A m
        ⟨x0, x0, none, none, β, 1, r⟩).trace).length ∧ xFinal o.x = .ok x' ∧
      ‖x' - x‖ ≤ n * (Real.sqrt (Fintype.card ι) * (2⁻¹ ^ 52 + 1 / 10 ^ 15)) ∧
      ∀ u, (gradCost op y x + sparseCost (fun v => v) w (V.arr x)) -
        (gradCost op y u + sparseCost (fun v => v) w (V.arr u)) ≤ ‖x0 - u‖ ^ 2 / (2 * β * n) := by
  have hcost : ∀ u : ι → 𝕜, sparseCost (fun v => v) w u = ∑ i, w i * ‖u i‖ := by
    intro u
    refine Finset.sum_congr rfl fun i _ => ?_
    rw [norm_mul, RCLike.norm_ofReal, abs_of_nonneg (hw i)]
  have hconv := convex_moduli V (fun _ : ι => 0) w (fun _ => le_rfl) hw
  refine pipeline V op adj y hadd hadj N hN (fun u => sparseCost (fun v => v) w u) ?_ prox _ (by positivity) ?_ x0 β r
    hb hbN A m hm o h
  · simp only [hcost]
    simpa only [zero_mul, zero_add] using hconv
  · intro v c hc
    obtain ⟨out, p, h1, h2, h3⟩ := C27_returned_value_close_to_prox (V.arr v) (fun i => w i * c)
      (fun i => mul_nonneg (hw i) hc.le)
    have h4 := hprox v c
    simp only [sparseOp] at h4
    rw [h4] at h1
    have h5 := Except.ok.inj h1
    refine ⟨p, ?_, fun i => by rw [h5]; exact h3 i⟩
    have e : (fun u : ι → 𝕜 => c * sparseCost (fun v => v) w u) = fun u => ∑ i, w i * c * ‖u i‖ := by
      funext u
      rw [hcost, Finset.mul_sum]
      exact Finset.sum_congr rfl fun i _ => by ring
    rw [e]
    exact h2.1

/-- C129 for `ElasticNet` with non-negative parameters. -/
theorem C129_elastic_net (V : ArraySpace E ι 𝕜) (op : E → Y) (adj : Y → E) (y : Y)
    (hadd : ∀ a b, op (a + b) = op a + op b) (hadj : ∀ a b, ⟪op a, b⟫ = ⟪a, adj b⟫) (N : ℝ)
    (hN : ∀ v, ‖op v‖ ≤ N * ‖v‖) (alpha beta : ι → ℝ) (ha : ∀ i, 0 ≤ alpha i) (hbe : ∀ i, 0 ≤ beta i)
    (prox : E → ℝ → E) (hprox : ∀ v c, elasticOp alpha beta (V.arr v) c = .ok (V.arr (prox v c))) (x0 : E) (β : ℝ) (r : S)
    (hb : 0 < β) (hbN : β * N ^ 2 ≤ 1) (A : Surroundings S E M K) (m : ℕ) (hm : 0 < m) (o : Loop.Obj (St S E) M K)
    (h : (fbRun (gradBasic op adj y) prox (userRules none none) A m ⟨x0, x0, none, none, β, 1, r⟩).result = .ok o) :
    ∃ n x' x, 1 ≤ n ∧ n ≤ m ∧
      n = (updates (fbRun (gradBasic op adj y) prox (userRules none none) A m
        ⟨x0, x0, none, none, β, 1, r⟩).trace).length ∧ xFinal o.x = .ok x' ∧
      ‖x' - x‖ ≤ n * (Real.sqrt (Fintype.card ι) * (2⁻¹ ^ 52 + 1 / 10 ^ 15)) ∧
      ∀ u, (gradCost op y x + elasticCost (fun v => v) alpha beta (V.arr x)) -
        (gradCost op y u + elasticCost (fun v => v) alpha beta (V.arr u)) ≤ ‖x0 - u‖ ^ 2 / (2 * β * n) := by
  refine pipeline V op adj y hadd hadj N hN (fun u => elasticCost (fun v => v) alpha beta u) ?_ prox _ (by positivity)
    ?_ x0 β r hb hbN A m hm o h
  · simp only [(C30_elastic_net_is_prox (𝕜 := 𝕜) alpha beta 1 0 ha hbe zero_le_one).2]
    exact convex_moduli V alpha beta ha hbe
  · intro v c hc
    obtain ⟨⟨out, p, h1, h2, h3⟩, -⟩ := C30_elastic_net_is_prox alpha beta c (V.arr v) ha hbe hc.le
    rw [hprox v c] at h1
    have h5 := Except.ok.inj h1
    exact ⟨p, h2.1, fun i => by rw [h5]; exact h3 i⟩

/-- C129 for `Ridge` without a linear operator and with non-negative weights; the solution itself meets the bound. -/
theorem C129_ridge (V : ArraySpace E ι 𝕜) (op : E → Y) (adj : Y → E) (y : Y)
    (hadd : ∀ a b, op (a + b) = op a + op b) (hadj : ∀ a b, ⟪op a, b⟫ = ⟪a, adj b⟫) (N : ℝ)
    (hN : ∀ v, ‖op v‖ ≤ N * ‖v‖) (w : ι → ℝ) (hw : ∀ i, 0 ≤ w i)
    (prox : E → ℝ → E) (hprox : ∀ v c, ridgeOp (fun v => v) w (V.arr v) c = V.arr (prox v c)) (x0 : E) (β : ℝ) (r : S)
    (hb : 0 < β) (hbN : β * N ^ 2 ≤ 1) (A : Surroundings S E M K) (m : ℕ) (hm : 0 < m) (o : Loop.Obj (St S E) M K)
    (h : (fbRun (gradBasic op adj y) prox (userRules none none) A m ⟨x0, x0, none, none, β, 1, r⟩).result = .ok o) :
    ∃ n x, 1 ≤ n ∧ n ≤ m ∧
      n = (updates (fbRun (gradBasic op adj y) prox (userRules none none) A m
        ⟨x0, x0, none, none, β, 1, r⟩).trace).length ∧ xFinal o.x = .ok x ∧
      ∀ u, (gradCost op y x + ridgeCost (fun v => v) w (V.arr x)) -
        (gradCost op y u + ridgeCost (fun v => v) w (V.arr u)) ≤ ‖x0 - u‖ ^ 2 / (2 * β * n) := by
  obtain ⟨n, x', x, h1, h2, h3, h4, h5, h6⟩ := pipeline V op adj y hadd hadj N hN
    (fun u => ridgeCost (fun v => v) w u) (by
      simp only [(C29_ridge_is_prox (𝕜 := 𝕜) w 1 0 hw zero_le_one).2]
      simpa only [zero_mul, add_zero] using convex_moduli V w (fun _ : ι => 0) hw (fun _ => le_rfl)) prox 0 le_rfl
    (fun v c hc => ⟨_, (C29_ridge_is_prox w c (V.arr v) hw hc.le).1.1, fun i => by rw [hprox]; simp⟩) x0 β r hb hbN A m
    hm o h
  rw [mul_zero, mul_zero, norm_le_zero_iff, sub_eq_zero] at h5
  subst h5
  exact ⟨n, x', h1, h2, h3, h4, h6⟩

/-- Sums of weighted group norms are convex. -/
theorem convex_groups {γ κ : Type} [Fintype γ] [Fintype κ] (V : ArraySpace E (γ × κ) 𝕜) (w : κ → ℝ)
    (hw : ∀ k, 0 ≤ w k) : ConvexOn ℝ Set.univ fun u => groupCost w (V.arr u) := by
  refine ⟨convex_univ, fun x _ y _ s t hs ht hst => ?_⟩
  simp only [smul_eq_mul, groupCost]
  rw [Finset.mul_sum, Finset.mul_sum, ← Finset.sum_add_distrib]
  refine Finset.sum_le_sum fun k _ => ?_
  have h1 : normAxis0 (V.arr (s • x + t • y)) k ≤ s * normAxis0 (V.arr x) k + t * normAxis0 (V.arr y) k := by
    rw [← norm_groupVec, ← norm_groupVec, ← norm_groupVec]
    have h2 : groupVec (V.arr (s • x + t • y)) k = s • groupVec (V.arr x) k + t • groupVec (V.arr y) k := by
      ext g
      simp only [groupVec, map_add, Pi.add_apply, arr_real_smul, PiLp.add_apply, PiLp.smul_apply]
    rw [h2]
    refine (norm_add_le _ _).trans ?_
    rw [norm_smul, norm_smul, Real.norm_of_nonneg hs, Real.norm_of_nonneg ht]
  have := mul_le_mul_of_nonneg_left h1 (hw k)
  linarith

/-- C129 for `GroupLASSO` with non-negative weights: the guard of the operator costs at most `2⁻²³` per group and
iteration. -/
theorem C129_group_lasso {γ κ : Type} [Fintype γ] [Fintype κ] (V : ArraySpace E (γ × κ) 𝕜) (op : E → Y) (adj : Y → E)
    (y : Y) (hadd : ∀ a b, op (a + b) = op a + op b) (hadj : ∀ a b, ⟪op a, b⟫ = ⟪a, adj b⟫) (N : ℝ)
    (hN : ∀ v, ‖op v‖ ≤ N * ‖v‖) (w : κ → ℝ) (hw : ∀ k, 0 ≤ w k)
    (prox : E → ℝ → E) (hprox : ∀ v c, groupOp w (V.arr v) c = V.arr (prox v c)) (x0 : E) (β : ℝ) (r : S)
    (hb : 0 < β) (hbN : β * N ^ 2 ≤ 1) (A : Surroundings S E M K) (m : ℕ) (hm : 0 < m) (o : Loop.Obj (St S E) M K)
    (h : (fbRun (gradBasic op adj y) prox (userRules none none) A m ⟨x0, x0, none, none, β, 1, r⟩).result = .ok o) :
    ∃ n x' x, 1 ≤ n ∧ n ≤ m ∧
      n = (updates (fbRun (gradBasic op adj y) prox (userRules none none) A m
        ⟨x0, x0, none, none, β, 1, r⟩).trace).length ∧ xFinal o.x = .ok x' ∧
      ‖x' - x‖ ≤ n * (Real.sqrt (Fintype.card κ) * 2⁻¹ ^ 23) ∧
      ∀ u, (gradCost op y x + groupCost w (V.arr x)) - (gradCost op y u + groupCost w (V.arr u))
        ≤ ‖x0 - u‖ ^ 2 / (2 * β * n) := by
  obtain ⟨hF, hS⟩ := gradBasic_models op adj y hadd hadj N hN
  have hex : ∀ (v : E) (c : ℝ), ∃ p : γ × κ → 𝕜, 0 < c → IsProx (fun u => c * groupCost w u) (V.arr v) p ∧
      ∀ k, Real.sqrt (∑ g, ‖groupOp w (V.arr v) c (g, k) - p (g, k)‖ ^ 2) ≤ eps32 := by
    intro v c
    by_cases hc : 0 < c
    · obtain ⟨p, hp, hq⟩ := C31_group_lasso_near_prox w c (V.arr v) hw hc.le
      exact ⟨p, fun _ => ⟨hp.1, hq⟩⟩
    · exact ⟨0, fun h => absurd h hc⟩
  choose p hp using hex
  have hP : ExactProx Set.univ (fun u => groupCost w (V.arr u)) fun v c => V.arr.symm (p v c) := by
    intro v c hc
    have h1 : IsProx (fun u => c * groupCost w u) (V.arr v) (V.arr (V.arr.symm (p v c))) := by
      rw [AddEquiv.apply_symm_apply]; exact (hp v c hc).1
    exact isProxOn_of_isProx V h1
  have he : (0 : ℝ) < eps32 := by unfold eps32; positivity
  have hd : ∀ v, ‖prox v β - V.arr.symm (p v β)‖ ≤ Real.sqrt (Fintype.card κ) * eps32 := by
    intro v
    rw [← Real.sqrt_sq (norm_nonneg _), V.norm_sq, ← Real.sqrt_sq he.le, ← Real.sqrt_mul (by positivity)]
    apply Real.sqrt_le_sqrt
    rw [Fintype.sum_prod_type_right]
    calc _ ≤ ∑ _k : κ, eps32 ^ 2 := Finset.sum_le_sum fun k _ => by
          have h1 := (hp v β hb).2 k
          rw [hprox v β, Real.sqrt_le_left he.le] at h1
          simpa only [map_sub, Pi.sub_apply, AddEquiv.apply_symm_apply] using h1
      _ = _ := by rw [Finset.sum_const, Finset.card_univ, nsmul_eq_mul]
  obtain ⟨n, x', x, h1, h2, h3, h4, -, h5, h6⟩ := fb_run_near (prox' := prox) (convex_groups V w hw) hF hS (sq_nonneg N)
    hP x0 β r hb hbN _ hd A m hm o h
  have e : (eps32 : ℝ) = 2⁻¹ ^ 23 := by unfold eps32; norm_num
  rw [e] at h5
  exact ⟨n, x', x, h1, h2, h3, h4, h5, fun u => h6 u (Set.mem_univ _)⟩

end

/-- `Positivity` is the exact projection on the non-negative arrays. -/
theorem positivity_models {E ι : Type} [NormedAddCommGroup E] [InnerProductSpace ℝ E] [Fintype ι] (V : ArraySpace E ι ℝ)
    (prox : E → ℝ → E) (hprox : ∀ v c, V.arr (prox v c) = positivityOp (V.arr v)) :
    Convex ℝ {u : E | ∀ i, 0 ≤ V.arr u i} ∧ ExactProx {u : E | ∀ i, 0 ≤ V.arr u i} (fun _ => 0) prox := by
  constructor
  · intro x hx z hz s t hs ht _ i
    rw [map_add, Pi.add_apply, arr_real_smul, arr_real_smul, smul_eq_mul, smul_eq_mul]
    exact add_nonneg (mul_nonneg hs (hx i)) (mul_nonneg ht (hz i))
  · intro v c _
    obtain ⟨h1, h2⟩ := C25_positivity_is_projection (V.arr v)
    rw [← hprox v c] at h1 h2
    refine ⟨h1, fun u hu => ?_⟩
    have := (h2 (V.arr u) hu).1
    simp only [halfSqDist] at this
    rw [V.norm_sq, V.norm_sq]
    simpa only [map_sub, Pi.sub_apply, mul_zero, add_zero] using this

/-- C129 for `Positivity` on real arrays: the solution is non-negative and meets the bound against every non-negative
array. -/
theorem C129_positivity {E ι : Type} [NormedAddCommGroup E] [InnerProductSpace ℝ E] [Fintype ι]
    {Y : Type} [NormedAddCommGroup Y] [InnerProductSpace ℝ Y] {S M K : Type} (V : ArraySpace E ι ℝ) (op : E → Y)
    (adj : Y → E) (y : Y) (hadd : ∀ a b, op (a + b) = op a + op b) (hadj : ∀ a b, ⟪op a, b⟫ = ⟪a, adj b⟫) (N : ℝ)
    (hN : ∀ v, ‖op v‖ ≤ N * ‖v‖) (prox : E → ℝ → E) (hprox : ∀ v c, V.arr (prox v c) = positivityOp (V.arr v))
    (x0 : E) (β : ℝ) (r : S) (hb : 0 < β) (hbN : β * N ^ 2 ≤ 1) (A : Surroundings S E M K) (m : ℕ) (hm : 0 < m)
    (o : Loop.Obj (St S E) M K)
    (h : (fbRun (gradBasic op adj y) prox (userRules none none) A m ⟨x0, x0, none, none, β, 1, r⟩).result = .ok o) :
    ∃ n x, 1 ≤ n ∧ n ≤ m ∧
      n = (updates (fbRun (gradBasic op adj y) prox (userRules none none) A m
        ⟨x0, x0, none, none, β, 1, r⟩).trace).length ∧ xFinal o.x = .ok x ∧ (∀ i, 0 ≤ V.arr x i) ∧
      ∀ u, (∀ i, 0 ≤ V.arr u i) → gradCost op y x - gradCost op y u ≤ ‖x0 - u‖ ^ 2 / (2 * β * n) := by
  obtain ⟨hF, hS⟩ := gradBasic_models op adj y hadd hadj N hN
  obtain ⟨hC, hp⟩ := positivity_models V prox hprox
  obtain ⟨n, x, h1, h2, h3, h4, h5, h6⟩ := C42_rate (convexOn_const 0 hC) hF hS hp A m hm x0 β r hb hbN o h
  refine ⟨n, x, h1, h2, h3, h4, h5, fun u hu => ?_⟩
  simpa only [add_zero] using h6 u hu

/-- C129 for `Positivity` with the original FISTA sequence, the default of `ForwardBackward`: against the best
non-negative array the bound falls with the square of the number of updates. -/
theorem C129_positivity_fista {E ι : Type} [NormedAddCommGroup E] [InnerProductSpace ℝ E] [Fintype ι]
    {Y : Type} [NormedAddCommGroup Y] [InnerProductSpace ℝ Y] {S M K : Type} (V : ArraySpace E ι ℝ) (op : E → Y)
    (adj : Y → E) (y : Y) (hadd : ∀ a b, op (a + b) = op a + op b) (hadj : ∀ a b, ⟪op a, b⟫ = ⟪a, adj b⟫) (N : ℝ)
    (hN : ∀ v, ‖op v‖ ≤ N * ‖v‖) (prox : E → ℝ → E) (hprox : ∀ v c, V.arr (prox v c) = positivityOp (V.arr v))
    (x0 : E) (β : ℝ) (v : S) (hb : 0 < β) (hbN : β * N ^ 2 ≤ 1) (A : Surroundings (Fista.Obj × S) E M K) (m : ℕ)
    (o : Loop.Obj (St (Fista.Obj × S) E) M K)
    (h : (fbRun (gradBasic op adj y) prox fistaRules A m
      ⟨x0, x0, none, none, β, 1, (regularObj (1/2) 1 4, v)⟩).result = .ok o) (n : ℕ) (hn : 2 ≤ n)
    (hk : (updates (fbRun (gradBasic op adj y) prox fistaRules A m
      ⟨x0, x0, none, none, β, 1, (regularObj (1/2) 1 4, v)⟩).trace).length = n)
    (u : E) (hu : ∀ i, 0 ≤ V.arr u i) (hmin : ∀ z, (∀ i, 0 ≤ V.arr z i) → gradCost op y u ≤ gradCost op y z) :
    ∃ x, o.x.xNew = some x ∧ (∀ i, 0 ≤ V.arr x i) ∧
      gradCost op y x - gradCost op y u ≤ 2 * ‖x0 - u‖ ^ 2 / (β * (n : ℝ) ^ 2) := by
  obtain ⟨hF, hS⟩ := gradBasic_models op adj y hadd hadj N hN
  obtain ⟨hC, hp⟩ := positivity_models V prox hprox
  obtain ⟨x, h1, h2, h3⟩ := C43_rate_classical (convexOn_const 0 hC) hF hS hp A m x0 β v hb hbN o h n hn hk u
    ⟨hu, fun z hz => by simpa only [add_zero] using hmin z hz⟩
  exact ⟨x, h1, h2, by simpa only [add_zero] using h3⟩

/-! ## The hypotheses are met -/

section
variable {𝕜 : Type} [RCLike 𝕜] {ι : Type} [Fintype ι]

/-- The operators as functions on the space. -/
theorem exists_prox (w : ι → ℝ) : ∃ prox : EuclideanSpace 𝕜 ι → ℝ → EuclideanSpace 𝕜 ι, ∀ v c,
    sparseOp w "soft" ((euclid ι 𝕜).arr v) c = .ok ((euclid ι 𝕜).arr (prox v c)) := by
  refine ⟨fun v c => (euclid ι 𝕜).arr.symm fun i => aroundK 15 (softRaw ((euclid ι 𝕜).arr v) (fun i => w i * c) i),
    fun v c => ?_⟩
  rw [AddEquiv.apply_symm_apply]
  simp [sparseOp, thresh]

theorem exists_prox_elastic (a b : ι → ℝ) : ∃ prox : EuclideanSpace 𝕜 ι → ℝ → EuclideanSpace 𝕜 ι, ∀ v c,
    elasticOp a b ((euclid ι 𝕜).arr v) c = .ok ((euclid ι 𝕜).arr (prox v c)) := by
  have : ∀ (v : EuclideanSpace 𝕜 ι) (c : ℝ), ∃ z, elasticOp a b ((euclid ι 𝕜).arr v) c = .ok ((euclid ι 𝕜).arr z) := by
    intro v c
    have h : ∃ z, elasticOp a b ((euclid ι 𝕜).arr v) c = .ok z := by
      simp [elasticOp, thresh, Bind.bind, Except.bind]
    obtain ⟨z, hz⟩ := h
    exact ⟨(euclid ι 𝕜).arr.symm z, by rw [AddEquiv.apply_symm_apply]; exact hz⟩
  choose prox hp using this
  exact ⟨prox, hp⟩

end

/-- Denoising of three real numbers. -/
example (y : EuclideanSpace ℝ (Fin 3)) (m : ℕ) (hm : 0 < m) : ∃ x' x : EuclideanSpace ℝ (Fin 3),
    ‖x' - x‖ ≤ m * (Real.sqrt (Fintype.card (Fin 3)) * (2⁻¹ ^ 52 + 1 / 10 ^ 15)) ∧
    ∀ u, (gradCost (fun v => v) y x + sparseCost (fun v => v) (fun _ => 1) ((euclid (Fin 3) ℝ).arr x)) -
        (gradCost (fun v => v) y u + sparseCost (fun v => v) (fun _ => 1) ((euclid (Fin 3) ℝ).arr u)) ≤
      ‖0 - u‖ ^ 2 / (2 * 1 * m) := by
  obtain ⟨prox, hp⟩ := exists_prox (𝕜 := ℝ) (fun _ : Fin 3 => 1)
  obtain ⟨o, ho, hl⟩ := free_run (gradBasic (fun v => v) (fun v => v) y) prox (userRules (U := Unit) none none) m
    ⟨0, 0, none, none, 1, 1, ()⟩
  obtain ⟨n, x', x, -, -, h3, -, h5, h6⟩ := C129_sparse (euclid (Fin 3) ℝ) (fun v => v) (fun v => v) y (fun _ _ => rfl)
    (fun _ _ => rfl) 1 (fun v => by simp) (fun _ => 1) (fun _ => zero_le_one) prox hp 0 1 () one_pos (by norm_num)
    _ m hm o ho
  rw [h3, hl] at h5 h6
  exact ⟨x', x, h5, h6⟩

/-- The hypotheses about the operators also hold for complex arrays. -/
example (y : EuclideanSpace ℂ (Fin 3)) (m : ℕ) (hm : 0 < m) : ∃ x' x : EuclideanSpace ℂ (Fin 3),
    ‖x' - x‖ ≤ m * (Real.sqrt (Fintype.card (Fin 3)) * (2⁻¹ ^ 52 + 1 / 10 ^ 15)) ∧
    ∀ u, (gradCost (fun v => v) y x + sparseCost (fun v => v) (fun _ => 1) ((euclid (Fin 3) ℂ).arr x)) -
        (gradCost (fun v => v) y u + sparseCost (fun v => v) (fun _ => 1) ((euclid (Fin 3) ℂ).arr u)) ≤
      ‖0 - u‖ ^ 2 / (2 * 1 * m) := by
  obtain ⟨prox, hp⟩ := exists_prox (𝕜 := ℂ) (fun _ : Fin 3 => 1)
  obtain ⟨o, ho, hl⟩ := free_run (gradBasic (fun v => v) (fun v => v) y) prox (userRules (U := Unit) none none) m
    ⟨0, 0, none, none, 1, 1, ()⟩
  obtain ⟨n, x', x, -, -, h3, -, h5, h6⟩ := C129_sparse (euclid (Fin 3) ℂ) (fun v => v) (fun v => v) y (fun _ _ => rfl)
    (fun _ _ => rfl) 1 (fun v => by simp) (fun _ => 1) (fun _ => zero_le_one) prox hp 0 1 () one_pos (by norm_num)
    _ m hm o ho
  rw [h3, hl] at h5 h6
  exact ⟨x', x, h5, h6⟩

/-- Elastic net, ridge regression, grouped coefficients and non-negative least squares: the same setting. -/
example (y : EuclideanSpace ℂ (Fin 3)) (m : ℕ) (hm : 0 < m) : ∃ prox : EuclideanSpace ℂ (Fin 3) → ℝ → EuclideanSpace ℂ (Fin 3),
    (∃ n, 1 ≤ n ∧ n ≤ m) ∧ ∀ v c, elasticOp (fun _ => 1) (fun _ => 2) ((euclid (Fin 3) ℂ).arr v) c
      = .ok ((euclid (Fin 3) ℂ).arr (prox v c)) := by
  obtain ⟨prox, hp⟩ := exists_prox_elastic (𝕜 := ℂ) (fun _ : Fin 3 => 1) (fun _ => 2)
  obtain ⟨o, ho, hl⟩ := free_run (gradBasic (fun v => v) (fun v => v) y) prox (userRules (U := Unit) none none) m
    ⟨0, 0, none, none, 1, 1, ()⟩
  obtain ⟨n, x', x, h1, h2, -⟩ := C129_elastic_net (euclid (Fin 3) ℂ) (fun v => v) (fun v => v) y (fun _ _ => rfl)
    (fun _ _ => rfl) 1 (fun v => by simp) (fun _ => 1) (fun _ => 2) (fun _ => zero_le_one) (fun _ => zero_le_two) prox hp 0
    1 () one_pos (by norm_num) _ m hm o ho
  exact ⟨prox, ⟨n, h1, h2⟩, hp⟩

example (y : EuclideanSpace ℂ (Fin 3)) (m : ℕ) (hm : 0 < m) (o) (ho) :=
  C129_ridge (S := Unit) (euclid (Fin 3) ℂ) (fun v => v) (fun v => v) y (fun _ _ => rfl)
    (fun _ _ => rfl) 1 (fun v => by simp) (fun _ => 2) (fun _ => zero_le_two)
    (fun v c => (euclid (Fin 3) ℂ).arr.symm (ridgeOp (fun v => v) (fun _ => 2) ((euclid (Fin 3) ℂ).arr v) c))
    (fun v c => by rw [AddEquiv.apply_symm_apply]) 0 1 () one_pos (by norm_num) freeSurroundings m hm o ho

example (y : EuclideanSpace ℂ (Fin 3 × Fin 2)) (m : ℕ) (hm : 0 < m) (o) (ho) :=
  C129_group_lasso (S := Unit) (euclid (Fin 3 × Fin 2) ℂ) (fun v => v) (fun v => v) y (fun _ _ => rfl)
    (fun _ _ => rfl) 1 (fun v => by simp) (fun _ => 2) (fun _ => zero_le_two)
    (fun v c => (euclid (Fin 3 × Fin 2) ℂ).arr.symm (groupOp (fun _ => 2) ((euclid (Fin 3 × Fin 2) ℂ).arr v) c))
    (fun v c => by rw [AddEquiv.apply_symm_apply]) 0 1 () one_pos (by norm_num) freeSurroundings m hm o ho

example (y : EuclideanSpace ℝ (Fin 3)) (m : ℕ) (hm : 0 < m) (o) (ho) :=
  C129_positivity (S := Unit) (euclid (Fin 3) ℝ) (fun v => v) (fun v => v) y (fun _ _ => rfl)
    (fun _ _ => rfl) 1 (fun v => by simp)
    (fun v _ => (euclid (Fin 3) ℝ).arr.symm (positivityOp ((euclid (Fin 3) ℝ).arr v)))
    (fun v c => by rw [AddEquiv.apply_symm_apply]) 0 1 () one_pos (by norm_num) freeSurroundings m hm o ho

end Verif
