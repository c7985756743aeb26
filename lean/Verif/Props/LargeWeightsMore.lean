import Verif.Props.LargeWeights
import Verif.Props.ActiveSet

/-!
# C156 for constraints and groups
-/

set_option linter.unusedSectionVars false

namespace Verif
open Spec FB
open Loop hiding Obj
open Linear (gradBasic gradCost)
open Positivity (positivityOp)
open Prox (groupOp groupCost normAxis0 eps32)
open scoped RealInnerProductSpace

/-- A run started at zero stays there if every proximity step from zero leads to zero. -/
theorem zero_kept {E S M K : Type} [NormedAddCommGroup E] [InnerProductSpace ℝ E] (G : E → E) (prox : E → ℝ → E) (R : Rules S E)
    (β lam : ℝ) (r : S)
    (hk : ∀ k, prox (0 - (afterSteps G prox R ⟨0, 0, none, none, β, lam, r⟩ k).beta • G 0)
      (afterSteps G prox R ⟨0, 0, none, none, β, lam, r⟩ k).beta = 0) :
    (∀ n, (afterSteps G prox R ⟨0, 0, none, none, β, lam, r⟩ n).xOld = 0 ∧
      (afterSteps G prox R ⟨0, 0, none, none, β, lam, r⟩ n).zOld = 0) ∧
    ∀ (A : Surroundings S E M K) (m : ℕ) (o : Loop.Obj (St S E) M K), 0 < m →
      (fbRun G prox R A m ⟨0, 0, none, none, β, lam, r⟩).result = .ok o → xFinal o.x = .ok 0 := by
  have hit : ∀ n, (afterSteps G prox R ⟨0, 0, none, none, β, lam, r⟩ n).xOld = 0 ∧
      (afterSteps G prox R ⟨0, 0, none, none, β, lam, r⟩ n).zOld = 0 := by
    intro n
    induction n with
    | zero => exact ⟨rfl, rfl⟩
    | succ n ih =>
      have h := hk n
      simp only [afterSteps]
      generalize afterSteps G prox R ⟨0, 0, none, none, β, lam, r⟩ n = s at ih h
      obtain ⟨x, z, xn, zn, b, l, q⟩ := s
      obtain ⟨h1, h2⟩ := ih
      simp only at h1 h2 h
      subst h1 h2
      simp only [FB.step, h]
      simp
  refine ⟨hit, fun A m o hm h => ?_⟩
  obtain ⟨-, h2, h3⟩ := fbRun_state h
  obtain ⟨k, hk⟩ : ∃ k, (updates (fbRun G prox R A m ⟨0, 0, none, none, β, lam, r⟩).trace).length = k + 1 :=
    Nat.exists_eq_succ_of_ne_zero (h2 hm).ne'
  rw [hk] at h3
  have hz := (hit (k + 1)).2
  rw [h3]
  simp only [afterSteps, xFinal] at hz ⊢
  rw [(step_xNew _ _ _ _).2]
  simp only
  rw [hz]

/-- C156 for non-negative least squares (`Positivity`): if no correlation with the data is positive, zero is the solution with
the smallest cost, and every run started at zero stays there, for all rules that keep the step size non-negative; if a
correlation is positive, the first update with a positive step makes that entry positive. -/
theorem C156_positivity {E ι : Type} [NormedAddCommGroup E] [InnerProductSpace ℝ E] [Fintype ι]
    {Y : Type} [NormedAddCommGroup Y] [InnerProductSpace ℝ Y] {S M K : Type} (V : ArraySpace E ι ℝ) (op : E → Y)
    (adj : Y → E) (y : Y) (hadd : ∀ a b, op (a + b) = op a + op b) (hadj : ∀ a b, ⟪op a, b⟫ = ⟪a, adj b⟫)
    (prox : E → ℝ → E) (hprox : ∀ v c, V.arr (prox v c) = positivityOp (V.arr v)) (R : Rules S E) (β lam : ℝ) (r : S) :
    ((∀ i, V.arr (adj y) i ≤ 0) →
      (∀ k, 0 ≤ (afterSteps (gradBasic op adj y) prox R ⟨0, 0, none, none, β, lam, r⟩ k).beta) →
      Minimises {u | ∀ i, 0 ≤ V.arr u i} (gradCost op y) 0 ∧
      (∀ n, (afterSteps (gradBasic op adj y) prox R ⟨0, 0, none, none, β, lam, r⟩ n).xOld = 0) ∧
      ∀ (A : Surroundings S E M K) (m : ℕ) (o : Loop.Obj (St S E) M K), 0 < m →
        (fbRun (gradBasic op adj y) prox R A m ⟨0, 0, none, none, β, lam, r⟩).result = .ok o → xFinal o.x = .ok 0) ∧
    ∀ i, 0 < β → 0 < V.arr (adj y) i →
      0 < V.arr (afterSteps (gradBasic op adj y) prox R ⟨0, 0, none, none, β, lam, r⟩ 1).xOld i := by
  have hpos : ∀ (x : ι → ℝ) i, positivityOp x i = max (x i) 0 := by
    intro x i
    exact positivityOp_eq x i
  have hstep : ∀ b : ℝ, 0 - b • gradBasic op adj y 0 = b • adj y := by
    intro b
    rw [gradBasic_zero op adj y hadd hadj, smul_neg, sub_neg_eq_add, zero_add]
  have harr : ∀ (b : ℝ) i, V.arr (b • adj y) i = b * V.arr (adj y) i := by
    intro b i
    rw [arr_real_smul, smul_eq_mul]
  refine ⟨fun hc hβ => ?_, fun i hb hi => ?_⟩
  · have hz : ∀ b : ℝ, 0 ≤ b → ∀ c, prox (b • adj y) c = 0 := by
      intro b hb c
      apply V.arr.injective
      rw [map_zero, hprox]
      funext i
      rw [hpos, harr]
      exact max_eq_right (mul_nonpos_of_nonneg_of_nonpos hb (hc i))
    obtain ⟨h1, h2⟩ := zero_kept (M := M) (K := K) (gradBasic op adj y) prox R β lam r
      (fun k => by rw [hstep]; exact hz _ (hβ k) _)
    refine ⟨⟨fun i => by simp, fun u hu => ?_⟩, fun n => (h1 n).1, h2⟩
    obtain ⟨-, hp⟩ := positivity_models V prox hprox
    have hc : ∀ c : ℝ, 0 < c → c * ⟪adj y, u⟫ ≤ 1 / 2 * ‖u‖ ^ 2 := by
      intro c hc
      have h3 := (hp (c • adj y) 1 one_pos).2 u hu
      rw [hz c hc.le 1, sub_zero, norm_sub_sq_real, real_inner_smul_left] at h3
      linarith
    have h0 : ⟪adj y, u⟫ ≤ 0 := by
      by_contra hcon
      push Not at hcon
      have := hc ((‖u‖ ^ 2 + 1) / ⟪adj y, u⟫) (by positivity)
      rw [div_mul_cancel₀ _ hcon.ne'] at this
      nlinarith [sq_nonneg ‖u‖]
    have ht := C23_cost_above_tangents op adj y hadd hadj 0 u
    rw [gradBasic_zero op adj y hadd hadj, sub_zero, inner_neg_left] at ht
    linarith
  · have hx : (afterSteps (gradBasic op adj y) prox R ⟨0, 0, none, none, β, lam, r⟩ 1).xOld =
        prox (0 - β • gradBasic op adj y 0) β := by simp only [afterSteps, FB.step]
    rw [hx, hstep, hprox, hpos, harr]
    exact lt_max_of_lt_left (mul_pos hb hi)

/-- C156 for `GroupLASSO`: if the norm of the correlations of every group is at most its weight, and no product of weight and
step size is positive but below the guard `2⁻²³`, zero is kept and returned.  (Below the guard it is not: see
`C156_group_guard`.) -/
theorem C156_group_lasso {E γ κ 𝕜 : Type} [NormedAddCommGroup E] [InnerProductSpace ℝ E] [Fintype γ] [Fintype κ] [RCLike 𝕜]
    {Y : Type} [NormedAddCommGroup Y] [InnerProductSpace ℝ Y] {S M K : Type} (V : ArraySpace E (γ × κ) 𝕜) (op : E → Y)
    (adj : Y → E) (y : Y) (hadd : ∀ a b, op (a + b) = op a + op b) (hadj : ∀ a b, ⟪op a, b⟫ = ⟪a, adj b⟫) (w : κ → ℝ)
    (prox : E → ℝ → E) (hprox : ∀ v c, groupOp w (V.arr v) c = V.arr (prox v c)) (R : Rules S E) (β lam : ℝ) (r : S)
    (hcorr : ∀ k, Real.sqrt (∑ g, ‖V.arr (adj y) (g, k)‖ ^ 2) ≤ w k)
    (hβ : ∀ n, 0 ≤ (afterSteps (gradBasic op adj y) prox R ⟨0, 0, none, none, β, lam, r⟩ n).beta ∧
      ∀ k, 2⁻¹ ^ 23 ≤ w k * (afterSteps (gradBasic op adj y) prox R ⟨0, 0, none, none, β, lam, r⟩ n).beta ∨
        w k * (afterSteps (gradBasic op adj y) prox R ⟨0, 0, none, none, β, lam, r⟩ n).beta = 0) :
    (∀ n, (afterSteps (gradBasic op adj y) prox R ⟨0, 0, none, none, β, lam, r⟩ n).xOld = 0) ∧
    ∀ (A : Surroundings S E M K) (m : ℕ) (o : Loop.Obj (St S E) M K), 0 < m →
      (fbRun (gradBasic op adj y) prox R A m ⟨0, 0, none, none, β, lam, r⟩).result = .ok o → xFinal o.x = .ok 0 := by
  have e32 : (eps32 : ℝ) = 2⁻¹ ^ 23 := rfl
  have hz : ∀ b : ℝ, 0 ≤ b → (∀ k, 2⁻¹ ^ 23 ≤ w k * b ∨ w k * b = 0) → prox (0 - b • gradBasic op adj y 0) b = 0 := by
    intro b hb hg
    rw [gradBasic_zero op adj y hadd hadj, smul_neg, sub_neg_eq_add, zero_add]
    apply V.arr.injective
    rw [map_zero, ← hprox]
    funext i
    have hn : normAxis0 (V.arr (b • adj y)) i.2 = b * normAxis0 (V.arr (adj y)) i.2 := by
      unfold normAxis0
      have : ∀ g, ‖V.arr (b • adj y) (g, i.2)‖ ^ 2 = b ^ 2 * ‖V.arr (adj y) (g, i.2)‖ ^ 2 := by
        intro g
        rw [arr_real_smul, norm_smul, Real.norm_of_nonneg hb, mul_pow]
      simp only [this]
      rw [← Finset.mul_sum, Real.sqrt_mul (sq_nonneg b), Real.sqrt_sq hb]
    have hle : normAxis0 (V.arr (b • adj y)) i.2 ≤ w i.2 * b := by
      rw [hn, mul_comm]
      exact mul_le_mul_of_nonneg_right (hcorr i.2) hb
    unfold groupOp
    rcases hg i.2 with h | h
    · have h0 : 0 < max (normAxis0 (V.arr (b • adj y)) i.2) eps32 := lt_max_of_lt_right (by rw [e32]; positivity)
      have h1 : (1 : ℝ) ≤ w i.2 * b / max (normAxis0 (V.arr (b • adj y)) i.2) eps32 := by
        rw [le_div_iff₀ h0, one_mul]
        exact max_le hle (by rw [e32]; exact h)
      rw [max_eq_left (by linarith)]
      simp
    · have h1 : V.arr (b • adj y) i = 0 := by
        have h2 : normAxis0 (V.arr (b • adj y)) i.2 = 0 := le_antisymm (h ▸ hle) (Real.sqrt_nonneg _)
        unfold normAxis0 at h2
        rw [Real.sqrt_eq_zero (Finset.sum_nonneg fun g _ => sq_nonneg _),
          Finset.sum_eq_zero_iff_of_nonneg fun g _ => sq_nonneg _] at h2
        have := h2 i.1 (Finset.mem_univ _)
        exact norm_eq_zero.1 (pow_eq_zero_iff two_ne_zero |>.1 this)
      rw [h1, zero_mul]
      rfl
  obtain ⟨h1, h2⟩ := zero_kept (M := M) (K := K) (gradBasic op adj y) prox R β lam r (fun k => hz _ (hβ k).1 (hβ k).2)
  exact ⟨fun n => (h1 n).1, h2⟩

/-- C156 for `GroupLASSO`, the solution: if the norm of the correlations of every group is at most its weight, zero has the
smallest cost (at every step size, and whatever the guard does). -/
theorem C156_group_minimiser {E γ κ 𝕜 : Type} [NormedAddCommGroup E] [InnerProductSpace ℝ E] [Fintype γ] [Fintype κ] [RCLike 𝕜]
    {Y : Type} [NormedAddCommGroup Y] [InnerProductSpace ℝ Y] (V : ArraySpace E (γ × κ) 𝕜) (op : E → Y) (adj : Y → E) (y : Y)
    (hadd : ∀ a b, op (a + b) = op a + op b) (hadj : ∀ a b, ⟪op a, b⟫ = ⟪a, adj b⟫) (w : κ → ℝ)
    (hcorr : ∀ k, Real.sqrt (∑ g, ‖V.arr (adj y) (g, k)‖ ^ 2) ≤ w k) :
    Minimises Set.univ (fun u => gradCost op y u + groupCost w (V.arr u)) 0 := by
  refine ⟨Set.mem_univ _, fun u _ => ?_⟩
  have h0 : groupCost w (V.arr 0) = 0 := by simp [groupCost, normAxis0]
  have hin : ⟪adj y, u⟫ ≤ groupCost w (V.arr u) := by
    have h1 : ‖adj y - u‖ ^ 2 = ‖adj y‖ ^ 2 - 2 * ⟪adj y, u⟫ + ‖u‖ ^ 2 := norm_sub_sq_real _ _
    have h2 : ∀ k, ‖groupVec (V.arr (adj y)) k‖ ^ 2 + ‖groupVec (V.arr u) k‖ ^ 2 - 2 * (w k * ‖groupVec (V.arr u) k‖)
        ≤ ‖groupVec (V.arr (adj y - u)) k‖ ^ 2 := by
      intro k
      rw [groupVec_sub]
      have h3 := abs_norm_sub_norm_le (groupVec (V.arr (adj y)) k) (groupVec (V.arr u) k)
      have h4 := pow_le_pow_left₀ (abs_nonneg _) h3 2
      rw [sq_abs] at h4
      have h5 : ‖groupVec (V.arr (adj y)) k‖ ≤ w k := by rw [norm_groupVec]; exact hcorr k
      nlinarith [mul_le_mul_of_nonneg_right h5 (norm_nonneg (groupVec (V.arr u) k))]
    have h6 := Finset.sum_le_sum fun k (_ : k ∈ Finset.univ) => h2 k
    rw [Finset.sum_sub_distrib, Finset.sum_add_distrib, ← group_norm_sq, ← group_norm_sq, ← group_norm_sq, ← Finset.mul_sum,
      h1] at h6
    have h7 : groupCost w (V.arr u) = ∑ k, w k * ‖groupVec (V.arr u) k‖ := by
      simp only [groupCost, norm_groupVec]
    rw [h7]
    linarith
  have ht := C23_cost_above_tangents op adj y hadd hadj 0 u
  rw [gradBasic_zero op adj y hadd hadj, sub_zero, inner_neg_left] at ht
  show gradCost op y 0 + groupCost w (V.arr 0) ≤ _
  rw [h0]
  linarith

/-- C156, the guard of `GroupLASSO`: if the product of weight and step size is below `2⁻²³`, the first update from zero makes
every entry of the group with a non-zero correlation non-zero, however large the weight is compared with the correlations. -/
theorem C156_group_guard {E γ κ 𝕜 : Type} [NormedAddCommGroup E] [InnerProductSpace ℝ E] [Fintype γ] [Fintype κ] [RCLike 𝕜]
    {Y : Type} [NormedAddCommGroup Y] [InnerProductSpace ℝ Y] {S : Type} (V : ArraySpace E (γ × κ) 𝕜) (op : E → Y)
    (adj : Y → E) (y : Y) (hadd : ∀ a b, op (a + b) = op a + op b) (hadj : ∀ a b, ⟪op a, b⟫ = ⟪a, adj b⟫) (w : κ → ℝ)
    (prox : E → ℝ → E) (hprox : ∀ v c, groupOp w (V.arr v) c = V.arr (prox v c)) (R : Rules S E) (β lam : ℝ) (r : S)
    (hb : 0 < β) (i : γ × κ) (hw : w i.2 * β < 2⁻¹ ^ 23) (hi : V.arr (adj y) i ≠ 0) :
    V.arr (afterSteps (gradBasic op adj y) prox R ⟨0, 0, none, none, β, lam, r⟩ 1).xOld i ≠ 0 := by
  have e32 : (eps32 : ℝ) = 2⁻¹ ^ 23 := rfl
  have hx : (afterSteps (gradBasic op adj y) prox R ⟨0, 0, none, none, β, lam, r⟩ 1).xOld =
      prox (0 - β • gradBasic op adj y 0) β := by simp only [afterSteps, FB.step]
  rw [hx, gradBasic_zero op adj y hadd hadj, smul_neg, sub_neg_eq_add, zero_add, ← hprox]
  unfold groupOp
  have h0 : 0 < max (normAxis0 (V.arr (β • adj y)) i.2) eps32 := lt_max_of_lt_right (by rw [e32]; positivity)
  have h1 : w i.2 * β / max (normAxis0 (V.arr (β • adj y)) i.2) eps32 < 1 := by
    rw [div_lt_one h0]
    exact lt_max_of_lt_right (by rw [e32]; exact hw)
  have h2 : (0 : ℝ) < max 0 (1 - w i.2 * β / max (normAxis0 (V.arr (β • adj y)) i.2) eps32) :=
    lt_max_of_lt_right (by linarith)
  refine mul_ne_zero ?_ (RCLike.ofReal_ne_zero.2 h2.ne')
  rw [arr_real_smul]
  exact smul_ne_zero hb.ne' hi

/-- C156 for `GroupLASSO`, the converse: if the norm of the correlations of a group is above its weight, the first update from
zero makes every entry of the group with a non-zero correlation non-zero, at every positive step size. -/
theorem C156_group_converse {E γ κ 𝕜 : Type} [NormedAddCommGroup E] [InnerProductSpace ℝ E] [Fintype γ] [Fintype κ] [RCLike 𝕜]
    {Y : Type} [NormedAddCommGroup Y] [InnerProductSpace ℝ Y] {S : Type} (V : ArraySpace E (γ × κ) 𝕜) (op : E → Y)
    (adj : Y → E) (y : Y) (hadd : ∀ a b, op (a + b) = op a + op b) (hadj : ∀ a b, ⟪op a, b⟫ = ⟪a, adj b⟫) (w : κ → ℝ)
    (prox : E → ℝ → E) (hprox : ∀ v c, groupOp w (V.arr v) c = V.arr (prox v c)) (R : Rules S E) (β lam : ℝ) (r : S)
    (hb : 0 < β) (i : γ × κ) (hw : w i.2 < Real.sqrt (∑ g, ‖V.arr (adj y) (g, i.2)‖ ^ 2)) (hi : V.arr (adj y) i ≠ 0) :
    V.arr (afterSteps (gradBasic op adj y) prox R ⟨0, 0, none, none, β, lam, r⟩ 1).xOld i ≠ 0 := by
  have e32 : (eps32 : ℝ) = 2⁻¹ ^ 23 := rfl
  have hx : (afterSteps (gradBasic op adj y) prox R ⟨0, 0, none, none, β, lam, r⟩ 1).xOld =
      prox (0 - β • gradBasic op adj y 0) β := by simp only [afterSteps, FB.step]
  rw [hx, gradBasic_zero op adj y hadd hadj, smul_neg, sub_neg_eq_add, zero_add, ← hprox]
  have hn : normAxis0 (V.arr (β • adj y)) i.2 = β * normAxis0 (V.arr (adj y)) i.2 := by
    unfold normAxis0
    have : ∀ g, ‖V.arr (β • adj y) (g, i.2)‖ ^ 2 = β ^ 2 * ‖V.arr (adj y) (g, i.2)‖ ^ 2 := by
      intro g
      rw [arr_real_smul, norm_smul, Real.norm_of_nonneg hb.le, mul_pow]
    simp only [this]
    rw [← Finset.mul_sum, Real.sqrt_mul (sq_nonneg β), Real.sqrt_sq hb.le]
  unfold groupOp
  have h0 : 0 < max (normAxis0 (V.arr (β • adj y)) i.2) eps32 := lt_max_of_lt_right (by rw [e32]; positivity)
  have h1 : w i.2 * β / max (normAxis0 (V.arr (β • adj y)) i.2) eps32 < 1 := by
    rw [div_lt_one h0]
    refine lt_max_of_lt_left ?_
    rw [hn, mul_comm]
    exact mul_lt_mul_of_pos_left hw hb
  have h2 : (0 : ℝ) < max 0 (1 - w i.2 * β / max (normAxis0 (V.arr (β • adj y)) i.2) eps32) :=
    lt_max_of_lt_right (by linarith)
  refine mul_ne_zero ?_ (RCLike.ofReal_ne_zero.2 h2.ne')
  rw [arr_real_smul]
  exact smul_ne_zero hb.ne' hi

/-! ## The theorems apply -/

/-- With no rules the step size never changes. -/
theorem beta_const {E : Type} [NormedAddCommGroup E] [InnerProductSpace ℝ E] (G : E → E) (prox : E → ℝ → E) (s : St Unit E)
    (k : ℕ) : (afterSteps G prox (userRules none none) s k).beta = s.beta := by
  induction k with
  | zero => rfl
  | succ k ih => simpa [afterSteps, FB.step, userRules, applyUpd] using ih

example (y : EuclideanSpace ℝ (Fin 3)) (hy : ∀ i, (euclid (Fin 3) ℝ).arr y i ≤ 0) :
    Minimises {u | ∀ i, 0 ≤ (euclid (Fin 3) ℝ).arr u i} (gradCost (fun v => v) y) 0 :=
  ((C156_positivity (M := Unit) (K := Unit) (euclid (Fin 3) ℝ) (fun v => v) (fun v => v) y (fun _ _ => rfl) (fun _ _ => rfl)
    (fun v _ => (euclid (Fin 3) ℝ).arr.symm (positivityOp ((euclid (Fin 3) ℝ).arr v)))
    (fun v c => AddEquiv.apply_symm_apply _ _) (userRules none none) 1 1 ()).1 hy
    (fun k => by rw [beta_const]; exact zero_le_one)).1

example (y : EuclideanSpace ℂ (Fin 3 × Fin 2))
    (hy : ∀ k, Real.sqrt (∑ g, ‖(euclid (Fin 3 × Fin 2) ℂ).arr y (g, k)‖ ^ 2) ≤ 1) (n : ℕ) :
    (afterSteps (gradBasic (fun v => v) (fun v => v) y)
      (fun v c => (euclid (Fin 3 × Fin 2) ℂ).arr.symm (groupOp (fun _ => 1) ((euclid (Fin 3 × Fin 2) ℂ).arr v) c))
        (userRules none none) ⟨0, 0, none, none, 1 / 2, 1, ()⟩ n).xOld = 0 :=
  (C156_group_lasso (M := Unit) (K := Unit) (euclid (Fin 3 × Fin 2) ℂ) (fun v => v) (fun v => v) y (fun _ _ => rfl)
    (fun _ _ => rfl) (fun _ => 1) _ (fun v c => (AddEquiv.apply_symm_apply _ _).symm) (userRules none none) (1 / 2) 1 () hy
    (fun k => by rw [beta_const]; exact ⟨by norm_num, fun _ => Or.inl (by norm_num)⟩)).1 n

example : (euclid (Fin 1 × Fin 1) ℝ).arr (afterSteps (gradBasic (fun v => v) (fun v => v)
      ((euclid (Fin 1 × Fin 1) ℝ).arr.symm fun _ => 2⁻¹ ^ 40))
    (fun v c => (euclid (Fin 1 × Fin 1) ℝ).arr.symm (groupOp (fun _ => 2⁻¹ ^ 24) ((euclid (Fin 1 × Fin 1) ℝ).arr v) c))
      (userRules none none) ⟨0, 0, none, none, 1, 1, ()⟩ 1).xOld (0, 0) ≠ 0 :=
  C156_group_guard (euclid (Fin 1 × Fin 1) ℝ) (fun v => v) (fun v => v) _ (fun _ _ => rfl) (fun _ _ => rfl) _ _
    (fun v c => (AddEquiv.apply_symm_apply _ _).symm) (userRules none none) 1 1 () one_pos (0, 0) (by norm_num)
    (by rw [AddEquiv.apply_symm_apply]; norm_num)

example (y : EuclideanSpace ℂ (Fin 3 × Fin 2))
    (hy : ∀ k, Real.sqrt (∑ g, ‖(euclid (Fin 3 × Fin 2) ℂ).arr y (g, k)‖ ^ 2) ≤ 1) :
    Minimises Set.univ
      (fun u => gradCost (fun v => v) y u + groupCost (fun _ => 1) ((euclid (Fin 3 × Fin 2) ℂ).arr u)) 0 :=
  C156_group_minimiser _ _ (fun v => v) y (fun _ _ => rfl) (fun _ _ => rfl) _ hy

example : (euclid (Fin 1 × Fin 1) ℝ).arr (afterSteps (gradBasic (fun v => v) (fun v => v)
      ((euclid (Fin 1 × Fin 1) ℝ).arr.symm fun _ => 2))
    (fun v c => (euclid (Fin 1 × Fin 1) ℝ).arr.symm (groupOp (fun _ => 1) ((euclid (Fin 1 × Fin 1) ℝ).arr v) c))
      (userRules none none) ⟨0, 0, none, none, 1, 1, ()⟩ 1).xOld (0, 0) ≠ 0 :=
  C156_group_converse (euclid (Fin 1 × Fin 1) ℝ) (fun v => v) (fun v => v) _ (fun _ _ => rfl) (fun _ _ => rfl) _ _
    (fun v c => (AddEquiv.apply_symm_apply _ _).symm) (userRules none none) 1 1 () one_pos (0, 0)
    (by
      rw [AddEquiv.apply_symm_apply]
      simp only [Finset.univ_unique, Finset.sum_singleton]
      rw [Real.sqrt_sq (norm_nonneg _)]
      norm_num)
    (by rw [AddEquiv.apply_symm_apply]; norm_num)

end Verif
