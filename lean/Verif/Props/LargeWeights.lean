import Verif.Props.Support
import Verif.Props.FloatOps

/-!
# C156: when the weights exceed the correlations with the data, the answer is exactly zero
-/

set_option linter.unusedSectionVars false

namespace Verif
open Spec FB Noise
open Loop hiding Obj
open Linear (gradBasic gradCost)
open Prox (sparseOp sparseCost)
open scoped RealInnerProductSpace

section
variable {E ι 𝕜 : Type} [NormedAddCommGroup E] [InnerProductSpace ℝ E] [Fintype ι] [RCLike 𝕜]
  {Y : Type} [NormedAddCommGroup Y] [InnerProductSpace ℝ Y] {S M K : Type}

/-- The gradient at zero is minus the correlation with the data. -/
theorem gradBasic_zero (op : E → Y) (adj : Y → E) (y : Y) (hadd : ∀ a b, op (a + b) = op a + op b)
    (hadj : ∀ a b, ⟪op a, b⟫ = ⟪a, adj b⟫) : gradBasic op adj y 0 = -adj y := by
  have h0 : op 0 = 0 := by
    have := hadd 0 0
    rw [add_zero] at this
    exact left_eq_add.1 this
  unfold gradBasic
  rw [h0, zero_sub]
  apply ext_inner_left ℝ
  intro v
  rw [← hadj, inner_neg_right, inner_neg_right, hadj]

/-- One proximity step from zero. -/
theorem sparse_from_zero (V : ArraySpace E ι 𝕜) (op : E → Y) (adj : Y → E) (y : Y)
    (hadd : ∀ a b, op (a + b) = op a + op b) (hadj : ∀ a b, ⟪op a, b⟫ = ⟪a, adj b⟫) (w : ι → ℝ) (hw : ∀ i, 0 ≤ w i)
    (prox : E → ℝ → E) (hprox : ∀ v c, sparseOp w "soft" (V.arr v) c = .ok (V.arr (prox v c)))
    (hcorr : ∀ i, ‖V.arr (adj y) i‖ ≤ w i) (β : ℝ) (hb : 0 ≤ β) :
    prox (0 - β • gradBasic op adj y 0) β = 0 := by
  apply V.arr.injective
  rw [map_zero]
  funext i
  have hout : V.arr (prox (0 - β • gradBasic op adj y 0) β) i =
      aroundK 15 (softRaw (V.arr (0 - β • gradBasic op adj y 0)) (fun i => w i * β) i) := by
    have h4 := hprox (0 - β • gradBasic op adj y 0) β
    simp only [sparseOp, thresh] at h4
    simp at h4
    rw [zero_sub, ← h4, map_neg]
  rw [hout]
  refine thresh_zero _ _ i (mul_nonneg (hw i) hb) ((softExact_eq_zero_iff _ (mul_nonneg (hw i) hb) _).2 ?_)
  rw [gradBasic_zero op adj y hadd hadj, smul_neg, sub_neg_eq_add, zero_add, arr_real_smul, norm_smul,
    Real.norm_of_nonneg hb, mul_comm]
  exact mul_le_mul_of_nonneg_right (hcorr i) hb

/-- C156: `ForwardBackward` with `GradBasic` and `SparseThreshold` (soft), started at zero, with any acceleration, restart and
parameter rules that keep the step size non-negative.  If no weight is below the modulus of the correlation of the data with
that entry, `|adj(y)ᵢ| ≤ wᵢ`, zero is a minimiser, every run that returns normally returns exactly zero, and so is every
iterate on the way.  The guard and the rounding of `thresh` are included. -/
theorem C156_zero_is_kept (V : ArraySpace E ι 𝕜) (op : E → Y) (adj : Y → E) (y : Y)
    (hadd : ∀ a b, op (a + b) = op a + op b) (hadj : ∀ a b, ⟪op a, b⟫ = ⟪a, adj b⟫) (w : ι → ℝ) (hw : ∀ i, 0 ≤ w i)
    (prox : E → ℝ → E) (hprox : ∀ v c, sparseOp w "soft" (V.arr v) c = .ok (V.arr (prox v c)))
    (hcorr : ∀ i, ‖V.arr (adj y) i‖ ≤ w i) (R : Rules S E) (β lam : ℝ) (r : S)
    (hβ : ∀ k, 0 ≤ (afterSteps (gradBasic op adj y) prox R ⟨0, 0, none, none, β, lam, r⟩ k).beta) :
    Minimises Set.univ (fun u => gradCost op y u + sparseCost (fun v => v) w (V.arr u)) 0 ∧
    (∀ n, (afterSteps (gradBasic op adj y) prox R ⟨0, 0, none, none, β, lam, r⟩ n).xOld = 0 ∧
      (afterSteps (gradBasic op adj y) prox R ⟨0, 0, none, none, β, lam, r⟩ n).zOld = 0) ∧
    ∀ (A : Surroundings S E M K) (m : ℕ) (o : Loop.Obj (St S E) M K), 0 < m →
      (fbRun (gradBasic op adj y) prox R A m ⟨0, 0, none, none, β, lam, r⟩).result = .ok o → xFinal o.x = .ok 0 := by
  have hit : ∀ n, (afterSteps (gradBasic op adj y) prox R ⟨0, 0, none, none, β, lam, r⟩ n).xOld = 0 ∧
      (afterSteps (gradBasic op adj y) prox R ⟨0, 0, none, none, β, lam, r⟩ n).zOld = 0 := by
    intro n
    induction n with
    | zero => exact ⟨rfl, rfl⟩
    | succ n ih =>
      have hbn := hβ n
      simp only [afterSteps]
      generalize afterSteps (gradBasic op adj y) prox R ⟨0, 0, none, none, β, lam, r⟩ n = s at ih hbn
      obtain ⟨x, z, xn, zn, b, l, q⟩ := s
      obtain ⟨h1, h2⟩ := ih
      simp only at h1 h2 hbn
      subst h1 h2
      have h := sparse_from_zero V op adj y hadd hadj w hw prox hprox hcorr b hbn
      simp only [FB.step, h]
      simp
  refine ⟨?_, hit, ?_⟩
  · have hF : AboveTangents (gradCost op y) (gradBasic op adj y) := fun x u => C23_cost_above_tangents op adj y hadd hadj x u
    refine ⟨Set.mem_univ _, fun u _ => ?_⟩
    have ht := hF 0 u
    rw [gradBasic_zero op adj y hadd hadj] at ht
    simp only [norm_weight_eq w hw]
    have h0 : ∑ i, w i * ‖V.arr (0 : E) i‖ = 0 := by simp
    rw [h0]
    -- zero is the proximity point of `c adj y` for every factor `c`
    have hc : ∀ c : ℝ, 0 < c → ⟪adj y, u⟫ ≤ ∑ i, w i * ‖V.arr u i‖ + ‖u‖ ^ 2 / (2 * c) := by
      intro c hc
      have hp := softOn_exact V w hw (c • adj y) c hc
      have hz : softOn V w (c • adj y) c = 0 := by
        apply V.arr.injective
        unfold softOn
        rw [AddEquiv.apply_symm_apply, map_zero]
        funext i
        refine (softExact_eq_zero_iff _ (mul_nonneg (hw i) hc.le) _).2 ?_
        rw [arr_real_smul, norm_smul, Real.norm_of_nonneg hc.le, mul_comm]
        exact mul_le_mul_of_nonneg_right (hcorr i) hc.le
      rw [hz] at hp
      have h2 := hp.2 u (Set.mem_univ _)
      simp only [h0, mul_zero, add_zero, sub_zero] at h2
      rw [norm_sub_sq_real, inner_smul_left] at h2
      simp only [conj_trivial] at h2
      have h3 : c * ⟪adj y, u⟫ ≤ c * (∑ i, w i * ‖V.arr u i‖ + ‖u‖ ^ 2 / (2 * c)) := by
        have e : c * (‖u‖ ^ 2 / (2 * c)) = ‖u‖ ^ 2 / 2 := by field_simp
        rw [mul_add, e]
        linarith
      exact le_of_mul_le_mul_left h3 hc
    have hlim : ⟪adj y, u⟫ ≤ ∑ i, w i * ‖V.arr u i‖ := by
      refine le_of_forall_pos_le_add fun ε hε => ?_
      have h1 := hc ((‖u‖ ^ 2 + 1) / (2 * ε)) (by positivity)
      refine h1.trans (add_le_add_right ?_ _)
      rw [div_le_iff₀ (by positivity)]
      have e : ε * (2 * ((‖u‖ ^ 2 + 1) / (2 * ε))) = ‖u‖ ^ 2 + 1 := by field_simp
      rw [e]
      linarith
    rw [sub_zero, inner_neg_left] at ht
    linarith
  · intro A m o hm h
    obtain ⟨-, h2, h3⟩ := fbRun_state h
    obtain ⟨k, hk⟩ : ∃ k, (updates (fbRun (gradBasic op adj y) prox R A m
        ⟨0, 0, none, none, β, lam, r⟩).trace).length = k + 1 := Nat.exists_eq_succ_of_ne_zero (h2 hm).ne'
    rw [hk] at h3
    have hz := (hit (k + 1)).2
    rw [h3]
    simp only [afterSteps, xFinal] at hz ⊢
    rw [(step_xNew _ _ _ _).2]
    simp only
    rw [hz]

/-- With the FISTA rules the step size stays non-negative, and the restart strategy is never replaced. -/
theorem fista_step_nonneg {U : Type} (grad : E → E) (prox : E → ℝ → E) (s₀ : St (Fista.Obj × U) E) (hb : 0 ≤ s₀.beta)
    (hm : ∀ mb sg xi, s₀.rules.1.restart = .greedy mb sg xi → 0 ≤ mb) (n : ℕ) :
    0 ≤ (afterSteps grad prox fistaRules s₀ n).beta ∧
      (afterSteps grad prox fistaRules s₀ n).rules.1.restart = s₀.rules.1.restart := by
  induction n with
  | zero => exact ⟨hb, rfl⟩
  | succ n ih =>
    simp only [afterSteps]
    generalize afterSteps grad prox fistaRules s₀ n = s at ih
    obtain ⟨ih1, ih2⟩ := ih
    set xn := prox (s.zOld - s.beta • grad s.zOld) s.beta with hxn
    have h1 : (Fista.isRestart s.rules.1 s.zOld xn s.xOld).2.restart = s.rules.1.restart :=
      callStep_restart (s.rules.1, s.beta) (.isRestart s.zOld xn s.xOld)
    have h2 : ∀ f : Fista.Obj, (Fista.updateLambda f).2.restart = f.restart := fun f =>
      callStep_restart (E := E) (f, s.beta) .updateLambda
    constructor
    · show 0 ≤ Fista.updateBeta (Fista.isRestart s.rules.1 s.zOld xn s.xOld).2 s.beta
      unfold Fista.updateBeta
      split_ifs
      · split
        · next mb sg xi he => exact le_max_of_le_right (hm mb sg xi (by rw [← ih2, ← h1, he]))
        · exact ih1
      · exact ih1
    · show (Fista.updateLambda (Fista.isRestart s.rules.1 s.zOld xn s.xOld).2).2.restart = _
      rw [h2, h1, ih2]

/-- C156 for `lambda_update="fista"`: every acceleration mode and restart strategy, with a non-negative `min_beta` when the
strategy is greedy.  The accelerated run started at zero stays at zero and returns it. -/
theorem C156_accelerated {U : Type} (V : ArraySpace E ι 𝕜) (op : E → Y) (adj : Y → E) (y : Y)
    (hadd : ∀ a b, op (a + b) = op a + op b) (hadj : ∀ a b, ⟪op a, b⟫ = ⟪a, adj b⟫) (w : ι → ℝ) (hw : ∀ i, 0 ≤ w i)
    (prox : E → ℝ → E) (hprox : ∀ v c, sparseOp w "soft" (V.arr v) c = .ok (V.arr (prox v c)))
    (hcorr : ∀ i, ‖V.arr (adj y) i‖ ≤ w i) (β lam : ℝ) (hb : 0 ≤ β) (f : Fista.Obj) (u : U)
    (hm : ∀ mb sg xi, f.restart = .greedy mb sg xi → 0 ≤ mb) :
    (∀ n, (afterSteps (gradBasic op adj y) prox fistaRules ⟨0, 0, none, none, β, lam, (f, u)⟩ n).xOld = 0) ∧
    ∀ (A : Surroundings (Fista.Obj × U) E M K) (m : ℕ) (o : Loop.Obj (St (Fista.Obj × U) E) M K), 0 < m →
      (fbRun (gradBasic op adj y) prox fistaRules A m ⟨0, 0, none, none, β, lam, (f, u)⟩).result = .ok o →
      xFinal o.x = .ok 0 := by
  obtain ⟨-, h1, h2⟩ := C156_zero_is_kept (M := M) (K := K) V op adj y hadd hadj w hw prox hprox hcorr fistaRules β lam (f, u)
    (fun k => (fista_step_nonneg _ _ _ hb hm k).1)
  exact ⟨fun n => (h1 n).1, h2⟩

/-- C156, the converse: an entry whose correlation exceeds its weight by more than the rounding is not zero after the first
update. -/
theorem C156_correlated_entries_enter (V : ArraySpace E ι 𝕜) (op : E → Y) (adj : Y → E) (y : Y)
    (hadd : ∀ a b, op (a + b) = op a + op b) (hadj : ∀ a b, ⟪op a, b⟫ = ⟪a, adj b⟫) (w : ι → ℝ) (hw : ∀ i, 0 ≤ w i)
    (prox : E → ℝ → E) (hprox : ∀ v c, sparseOp w "soft" (V.arr v) c = .ok (V.arr (prox v c))) (R : Rules S E)
    (β lam : ℝ) (r : S) (hb : 0 < β) (i : ι) (hi : 2⁻¹ ^ 52 + 1 / 10 ^ 15 < β * (‖V.arr (adj y) i‖ - w i)) :
    V.arr (afterSteps (gradBasic op adj y) prox R ⟨0, 0, none, none, β, lam, r⟩ 1).xOld i ≠ 0 := by
  have hx : (afterSteps (gradBasic op adj y) prox R ⟨0, 0, none, none, β, lam, r⟩ 1).xOld =
      prox (0 - β • gradBasic op adj y 0) β := by simp only [afterSteps, FB.step]
  rw [hx, gradBasic_zero op adj y hadd hadj, smul_neg, sub_neg_eq_add, zero_add]
  have ht : ∀ i, 0 ≤ w i * β := fun i => mul_nonneg (hw i) hb.le
  obtain ⟨out, p, a1, a2, a3⟩ := C27_returned_value_close_to_prox (V.arr (β • adj y)) (fun i => w i * β) ht
  have hp : p = fun i => softExact (w i * β) (V.arr (β • adj y) i) :=
    (a2.2 _ (softExact_unique_prox _ ht (V.arr (β • adj y))).1).symm
  have h4 := hprox (β • adj y) β
  simp only [sparseOp] at h4
  rw [h4] at a1
  have h5 := Except.ok.inj a1
  have h6 := a3 i
  rw [hp, ← h5] at h6
  intro h0
  rw [h0, zero_sub, norm_neg, norm_softExact _ (ht i), arr_real_smul, norm_smul, Real.norm_of_nonneg hb.le] at h6
  have := (le_max_left _ _).trans h6
  linarith

end

/-- C156 in floating-point arithmetic: whatever the rounding and whatever gradient is computed, if no computed entry of the
gradient at zero exceeds its weight, a run of `ForwardBackward` with soft thresholding from zero stays exactly zero, for all
non-negative step sizes and all relaxation parameters. -/
theorem C156_float {ι : Type} (R : Rounding) (grad : (ι → ℝ) → ι → ℝ) (w : ι → ℝ) (hw : ∀ i, 0 ≤ w i)
    (hcorr : ∀ i, |grad (fun _ => 0) i| ≤ w i) (beta lam : ℕ → ℝ) (hβ : ∀ n, 0 ≤ beta n) (n : ℕ) :
    FloatOps.fbRun R grad (fun v c i => FloatOps.soft R (R.fl (w i * c)) (v i)) beta lam (fun _ => 0, fun _ => 0) n =
      (fun _ => 0, fun _ => 0) := by
  induction n with
  | zero => rfl
  | succ n ih =>
    have hs : ∀ i, FloatOps.soft R (R.fl (w i * beta n)) (R.fl (0 - R.fl (beta n * grad (fun _ => 0) i))) = 0 := by
      intro i
      have h0 : 0 ≤ R.fl (w i * beta n) := by
        have := R.mono (mul_nonneg (hw i) (hβ n))
        rwa [R.zero] at this
      refine (C131_soft R _ _ h0 (R.idem _)).1 ?_
      rw [zero_sub, R.neg, R.idem, abs_neg, R.abs, abs_mul, abs_of_nonneg (hβ n), mul_comm]
      exact R.mono (mul_le_mul_of_nonneg_right (hcorr i) (hβ n))
    rw [FloatOps.fbRun, ih, FloatOps.fbStep]
    simp only [hs, sub_zero, R.zero, mul_zero, add_zero]

/-- The hypotheses can be met: three data below one in modulus, weights one. -/
example (y : EuclideanSpace ℂ (Fin 3)) (hy : ∀ i, ‖(euclid (Fin 3) ℂ).arr y i‖ ≤ 1) :
    Minimises Set.univ (fun u => gradCost (fun v => v) y u + sparseCost (fun v => v) (fun _ => 1) ((euclid (Fin 3) ℂ).arr u)) 0 := by
  obtain ⟨prox, hp⟩ := exists_prox (𝕜 := ℂ) (fun _ : Fin 3 => 1)
  refine (C156_zero_is_kept (M := Unit) (K := Unit) (euclid (Fin 3) ℂ) (fun v => v) (fun v => v) y (fun _ _ => rfl)
    (fun _ _ => rfl) (fun _ => 1) (fun _ => zero_le_one) prox hp hy (userRules none none) 1 1 () (fun k => ?_)).1
  have : (afterSteps (gradBasic (fun v => v) (fun v => v) y) prox (userRules none none) ⟨0, 0, none, none, 1, 1, ()⟩ k).beta
      = 1 := by
    induction k with
    | zero => rfl
    | succ k ih => simpa [afterSteps, FB.step, userRules, applyUpd] using ih
  rw [this]
  exact zero_le_one

example : FloatOps.fbRun binary64 (fun x (i : Fin 2) => x i - ![1 / 2, -1] i)
    (fun v c i => FloatOps.soft binary64 (binary64.fl (1 * c)) (v i)) (fun _ => 1 / 3) (fun _ => 3 / 2)
    (fun _ => 0, fun _ => 0) 100 = (fun _ => 0, fun _ => 0) :=
  C156_float binary64 _ (fun _ => 1) (fun _ => zero_le_one) (fun i => by fin_cases i <;> norm_num) _ _
    (fun _ => by norm_num) 100

end Verif
