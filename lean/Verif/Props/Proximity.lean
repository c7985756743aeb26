import Verif.Model.Proximity
import Verif.Props.Noise
import Mathlib.Analysis.InnerProductSpace.PiL2
import Mathlib.Data.Fin.VecNotation

/-!
# C29, C30, C31, C34, C35 (and the SparseThreshold part of C27): proximity operators
-/

set_option linter.unusedSectionVars false

namespace Verif
open Noise Prox Spec RealInnerProductSpace

variable {ι κ : Type*} {𝕜 : Type*} [RCLike 𝕜]

/-! ## C27 for `SparseThreshold` -/

/-- C27: with the identity linear operator, `SparseThreshold.op` with `extra_factor = c` is within
`2⁻⁵² + 10⁻¹⁵` (per entry) of the proximity operator of `c` times the operator's own cost. -/
theorem C27_sparse_threshold_is_prox_of_its_cost [Fintype ι] (w : ι → ℝ) (c : ℝ) (x : ι → 𝕜)
    (hw : ∀ i, 0 ≤ w i) (hc : 0 ≤ c) :
    ∃ out p, sparseOp w "soft" x c = .ok out ∧
      IsUniqueProx (fun u => c * sparseCost (fun v => v) w u) x p ∧
      ∀ i, ‖out i - p i‖ ≤ 2⁻¹ ^ 52 + 1 / 10 ^ 15 := by
  obtain ⟨out, p, h1, h2, h3⟩ :=
    C27_returned_value_close_to_prox x (fun i => w i * c) (fun i => mul_nonneg (hw i) hc)
  refine ⟨out, p, h1, ?_, h3⟩
  have e : (fun u : ι → 𝕜 => c * sparseCost (fun v => v) w u) = fun u => ∑ i, w i * c * ‖u i‖ := by
    funext u
    unfold sparseCost
    rw [Finset.mul_sum]
    refine Finset.sum_congr rfl fun i _ => ?_
    rw [norm_mul, RCLike.norm_ofReal, abs_of_nonneg (hw i)]; ring
  rw [e]; exact h2

/-! ## C29 -/

theorem ridge_strong {V : Type*} [NormedAddCommGroup V] [InnerProductSpace ℝ V] (a : ℝ) (ha : 0 ≤ a)
    (x v : V) :
    1 / 2 * ‖x - (1 + 2 * a)⁻¹ • x‖ ^ 2 + a * ‖(1 + 2 * a)⁻¹ • x‖ ^ 2
      + 1 / 2 * ‖v - (1 + 2 * a)⁻¹ • x‖ ^ 2 ≤ 1 / 2 * ‖x - v‖ ^ 2 + a * ‖v‖ ^ 2 := by
  set p := (1 + 2 * a)⁻¹ • x with hp
  have hx : x = (1 + 2 * a) • p := by
    rw [hp, smul_smul, mul_inv_cancel₀ (by positivity), one_smul]
  apply strong_of_subgradient (fun v => a * ‖v‖ ^ 2)
  intro v
  have e : x - p = (2 * a) • p := by rw [hx]; module
  have h1 := norm_sub_sq_real v p
  have h2 : 0 ≤ a * ‖v - p‖ ^ 2 := by positivity
  rw [e, inner_smul_left, inner_sub_right, real_inner_self_eq_norm_sq, real_inner_comm]
  simp only [conj_trivial]
  rw [h1] at h2
  nlinarith

/-- C29: with the identity linear operator, `Ridge.op` with `extra_factor = c` is exactly the unique
proximity operator of `c` times the Ridge cost, and that cost is `∑ wᵢ|uᵢ|²`. -/
theorem C29_ridge_is_prox [Fintype ι] (w : ι → ℝ) (c : ℝ) (x : ι → 𝕜) (hw : ∀ i, 0 ≤ w i)
    (hc : 0 ≤ c) :
    IsUniqueProx (fun u => c * ridgeCost (fun v => v) w u) x (ridgeOp (fun v => v) w x c) ∧
    ∀ u : ι → 𝕜, ridgeCost (fun v => v) w u = ∑ i, w i * ‖u i‖ ^ 2 := by
  have e : ∀ u : ι → 𝕜, ridgeCost (fun v => v) w u = ∑ i, w i * ‖u i‖ ^ 2 := by
    intro u
    refine Finset.sum_congr rfl fun i _ => ?_
    rw [norm_mul, RCLike.norm_ofReal, abs_of_nonneg (hw i), norm_pow]
  refine ⟨?_, e⟩
  have e2 : (fun u : ι → 𝕜 => c * ridgeCost (fun v => v) w u)
      = fun u => ∑ i, (c * w i) * ‖u i‖ ^ 2 := by
    funext u; rw [e, Finset.mul_sum]; exact Finset.sum_congr rfl fun i _ => by ring
  rw [e2]
  apply isUniqueProx_of_coord (fun i v => (c * w i) * ‖v‖ ^ 2)
  intro i v
  have hop : ridgeOp (fun v => v) w x c i = (1 + 2 * (c * w i))⁻¹ • x i := by
    unfold ridgeOp
    rw [RCLike.real_smul_eq_coe_mul, div_eq_inv_mul]
    congr 1
    push_cast; ring_nf
  rw [hop]
  exact ridge_strong (c * w i) (mul_nonneg hc (hw i)) (x i) v

/-- C29, limit of the claim: the linear operator is applied but never undone, so for `linear = 2·id`
the result of `op` is not a minimiser of the operator's own cost. -/
theorem C29_nonidentity_linear_not_prox :
    ¬ IsProx (fun u => 1 * ridgeCost (fun (v : Unit → ℝ) i => 2 * v i) (fun _ => 1) u) (fun _ => 1)
      (ridgeOp (fun (v : Unit → ℝ) i => 2 * v i) (fun _ => 1) (fun _ => 1) 1) := by
  intro h
  have := h (fun _ => 0)
  simp [halfSqDist, ridgeCost, ridgeOp] at this
  norm_num at this

/-! ## C30 -/

theorem elastic_subgradient {V : Type*} [NormedAddCommGroup V] [InnerProductSpace ℝ V] (a t : ℝ)
    (ha : 0 ≤ a) (ht : 0 ≤ t) (x v : V) :
    let p := (1 + 2 * a)⁻¹ • (max (1 - t / ‖x‖) 0 • x)
    (a * ‖p‖ ^ 2 + t * ‖p‖) + ⟪x - p, v - p⟫ ≤ a * ‖v‖ ^ 2 + t * ‖v‖ := by
  intro p
  set s := max (1 - t / ‖x‖) 0 • x with hs
  have hb : 0 < 1 + 2 * a := by positivity
  have hsp : s = (1 + 2 * a) • p := by
    simp only [p]; rw [smul_smul, mul_inv_cancel₀ hb.ne', one_smul]
  have h1 := shrink_subgradient t ht x ((1 + 2 * a) • v)
  simp only at h1
  have n1 : ‖(1 + 2 * a) • p‖ = (1 + 2 * a) * ‖p‖ := by rw [norm_smul, Real.norm_of_nonneg hb.le]
  have n2 : ‖(1 + 2 * a) • v‖ = (1 + 2 * a) * ‖v‖ := by rw [norm_smul, Real.norm_of_nonneg hb.le]
  rw [← hs, hsp, ← smul_sub, inner_smul_right, n1, n2] at h1
  have h1' : t * ‖p‖ + ⟪x - (1 + 2 * a) • p, v - p⟫ ≤ t * ‖v‖ := by
    have : (1 + 2 * a) * (t * ‖p‖ + ⟪x - (1 + 2 * a) • p, v - p⟫) ≤ (1 + 2 * a) * (t * ‖v‖) := by
      linarith
    exact le_of_mul_le_mul_left this hb
  have e : x - p = (x - (1 + 2 * a) • p) + (2 * a) • p := by module
  rw [e, inner_add_left, inner_smul_left]
  simp only [conj_trivial]
  have h2 := norm_sub_sq_real v p
  have h3 : 0 ≤ a * ‖v - p‖ ^ 2 := by positivity
  have h4 : ⟪p, v - p⟫ = ⟪v, p⟫ - ‖p‖ ^ 2 := by
    rw [inner_sub_right, real_inner_self_eq_norm_sq, real_inner_comm]
  rw [h4]
  rw [h2] at h3
  nlinarith

/-- C30: with the identity linear operator, `ElasticNet.op` with `extra_factor = c` is within
`2⁻⁵² + 10⁻¹⁵` (per entry) of the unique proximity operator of `c` times the ElasticNet cost, and that
cost is `∑ αᵢ|uᵢ|² + βᵢ|uᵢ|`. -/
theorem C30_elastic_net_is_prox [Fintype ι] (alpha beta : ι → ℝ) (c : ℝ) (x : ι → 𝕜)
    (ha : ∀ i, 0 ≤ alpha i) (hb : ∀ i, 0 ≤ beta i) (hc : 0 ≤ c) :
    (∃ out p, elasticOp alpha beta x c = .ok out ∧
      IsUniqueProx (fun u => c * elasticCost (fun v => v) alpha beta u) x p ∧
      ∀ i, ‖out i - p i‖ ≤ 2⁻¹ ^ 52 + 1 / 10 ^ 15) ∧
    ∀ u : ι → 𝕜, elasticCost (fun v => v) alpha beta u
      = ∑ i, (alpha i * ‖u i‖ ^ 2 + beta i * ‖u i‖) := by
  have e : ∀ u : ι → 𝕜, elasticCost (fun v => v) alpha beta u
      = ∑ i, (alpha i * ‖u i‖ ^ 2 + beta i * ‖u i‖) := by
    intro u
    refine Finset.sum_congr rfl fun i _ => ?_
    rw [norm_mul, norm_mul, RCLike.norm_ofReal, RCLike.norm_ofReal, abs_of_nonneg (ha i),
      abs_of_nonneg (hb i), norm_pow]
  refine ⟨?_, e⟩
  obtain ⟨y, s, hy, hs, hys⟩ :=
    C27_returned_value_close_to_prox x (fun i => beta i * c) (fun i => mul_nonneg (hb i) hc)
  -- the soft-threshold part, as the explicit formula
  have hs' : s = fun i => softExact (beta i * c) (x i) := by
    refine ((isUniqueProx_of_coord (fun i v => (beta i * c) * ‖v‖) x
      (fun i => softExact (beta i * c) (x i)) ?_).2 s hs.1)
    intro i v
    exact strong_of_subgradient (fun v => (beta i * c) * ‖v‖) _ _
      (shrink_subgradient _ (mul_nonneg (hb i) hc) (x i)) v
  have hden : ∀ i, 1 ≤ 1 + 2 * (c * alpha i) := fun i => by
    have := mul_nonneg hc (ha i); linarith
  have hdiv : ∀ (i : ι) (z : 𝕜), z / ((alpha i * 2 * c + 1 : ℝ) : 𝕜) = (1 + 2 * (c * alpha i))⁻¹ • z := by
    intro i z
    rw [RCLike.real_smul_eq_coe_mul, div_eq_inv_mul]
    congr 1
    push_cast; ring_nf
  refine ⟨fun i => y i / ((alpha i * 2 * c + 1 : ℝ) : 𝕜),
    fun i => (1 + 2 * (c * alpha i))⁻¹ • s i, by simp [elasticOp, hy, bind, Except.bind], ?_, ?_⟩
  · have e2 : (fun u : ι → 𝕜 => c * elasticCost (fun v => v) alpha beta u)
        = fun u => ∑ i, ((c * alpha i) * ‖u i‖ ^ 2 + (beta i * c) * ‖u i‖) := by
      funext u; rw [e, Finset.mul_sum]; exact Finset.sum_congr rfl fun i _ => by ring
    rw [e2]
    apply isUniqueProx_of_coord (fun i v => (c * alpha i) * ‖v‖ ^ 2 + (beta i * c) * ‖v‖)
    intro i v
    rw [hs']
    exact strong_of_subgradient (fun v => (c * alpha i) * ‖v‖ ^ 2 + (beta i * c) * ‖v‖) _ _
      (elastic_subgradient _ _ (mul_nonneg hc (ha i)) (mul_nonneg (hb i) hc) (x i)) v
  · intro i
    simp only
    rw [hdiv, ← smul_sub, norm_smul, Real.norm_of_nonneg (by have := hden i; positivity)]
    calc _ ≤ 1 * ‖y i - s i‖ := by
          gcongr
          exact inv_le_one_of_one_le₀ (hden i)
      _ ≤ _ := by rw [one_mul]; exact hys i

/-! ## C31 -/

section Group
variable {γ : Type*} [Fintype γ] [Fintype κ]

/-- The group `k` of an array as a Euclidean vector. -/
def groupVec (x : γ × κ → 𝕜) (k : κ) : PiLp 2 (fun _ : γ => 𝕜) := WithLp.toLp 2 fun g => x (g, k)

theorem norm_groupVec (x : γ × κ → 𝕜) (k : κ) : ‖groupVec x k‖ = normAxis0 x k := by
  rw [PiLp.norm_eq_of_L2]; rfl

theorem halfSqDist_group (x u : γ × κ → 𝕜) :
    halfSqDist x u = halfSqDist (groupVec x) (groupVec u) := by
  unfold halfSqDist
  rw [Fintype.sum_prod_type_right]
  congr 1
  refine Finset.sum_congr rfl fun k _ => ?_
  rw [PiLp.norm_sq_eq_of_L2]; rfl

noncomputable instance : InnerProductSpace ℝ (PiLp 2 (fun _ : γ => 𝕜)) := inferInstance

theorem groupVec_injective {x u : γ × κ → 𝕜} (h : groupVec x = groupVec u) : x = u := by
  funext ⟨g, k⟩
  have := congrFun h k
  exact congrFun (congrArg (fun v : PiLp 2 (fun _ : γ => 𝕜) => v.ofLp) this) g

theorem isUniqueProx_group (G : (κ → PiLp 2 (fun _ : γ => 𝕜)) → ℝ) (x p : γ × κ → 𝕜)
    (h : IsUniqueProx G (groupVec x) (groupVec p)) :
    IsUniqueProx (fun u => G (groupVec u)) x p := by
  refine ⟨fun u => ?_, fun q hq => groupVec_injective (h.2 _ fun u => ?_)⟩
  · rw [halfSqDist_group, halfSqDist_group]; exact h.1 (groupVec u)
  · have := hq fun i => (u i.2).ofLp i.1
    rw [halfSqDist_group, halfSqDist_group] at this
    exact this

/-- C31: `GroupLASSO.op` with `extra_factor = c` is exactly the unique proximity operator of `c` times
the operator's own cost `∑ₖ wₖ‖u₍·,ₖ₎‖₂`, whenever each group norm, or each threshold `wₖ c`, is not
below the guard `2⁻²³` (or the threshold is zero). -/
theorem C31_group_lasso_is_prox (w : κ → ℝ) (c : ℝ) (x : γ × κ → 𝕜) (hw : ∀ k, 0 ≤ w k) (hc : 0 ≤ c)
    (hg : ∀ k, eps32 ≤ Real.sqrt (∑ g, ‖x (g, k)‖ ^ 2) ∨ eps32 ≤ w k * c ∨ w k * c = 0) :
    IsUniqueProx (fun u => c * ∑ k, w k * Real.sqrt (∑ g, ‖u (g, k)‖ ^ 2)) x (groupOp w x c) ∧
    ∀ u : γ × κ → 𝕜, groupCost w u = ∑ k, w k * Real.sqrt (∑ g, ‖u (g, k)‖ ^ 2) := by
  refine ⟨?_, fun u => rfl⟩
  have he : 0 < eps32 := by unfold eps32; positivity
  have e : (fun u : γ × κ → 𝕜 => c * ∑ k, w k * Real.sqrt (∑ g, ‖u (g, k)‖ ^ 2))
      = fun u => (fun U : κ → PiLp 2 (fun _ : γ => 𝕜) => ∑ k, (w k * c) * ‖U k‖) (groupVec u) := by
    funext u
    simp only [norm_groupVec]
    rw [Finset.mul_sum]
    exact Finset.sum_congr rfl fun k _ => by unfold normAxis0; ring
  rw [e]
  refine isUniqueProx_group (fun U : κ → PiLp 2 (fun _ : γ => 𝕜) => ∑ k, (w k * c) * ‖U k‖) x _ ?_
  apply isUniqueProx_of_coord (fun k v => (w k * c) * ‖v‖)
  intro k v
  have hop : groupVec (groupOp w x c) k
      = max (1 - w k * c / ‖groupVec x k‖) 0 • groupVec x k := by
    have hmul : groupVec (groupOp w x c) k
        = max 0 (1 - w k * c / max (normAxis0 x k) eps32) • groupVec x k := by
      ext g
      simp only [groupVec, groupOp, PiLp.smul_apply, RCLike.real_smul_eq_coe_mul]
      rw [mul_comm]
    rw [hmul, norm_groupVec]
    have hnn : 0 ≤ normAxis0 x k := Real.sqrt_nonneg _
    rcases le_or_gt eps32 (normAxis0 x k) with h1 | h1
    · rw [max_eq_left h1, max_comm]
    · rw [max_eq_right h1.le]
      rcases hg k with h | h | h
      · exact absurd h (not_le.2 h1)
      · have e1 : 1 - w k * c / eps32 ≤ 0 := by rw [sub_nonpos, le_div_iff₀ he]; linarith
        rw [max_eq_left e1, zero_smul]
        rcases hnn.eq_or_lt with h0 | h0
        · have : groupVec x k = 0 := by rw [← norm_eq_zero, norm_groupVec, ← h0]
          rw [this, smul_zero]
        · have e2 : 1 - w k * c / normAxis0 x k ≤ 0 := by
            rw [sub_nonpos, le_div_iff₀ h0]; linarith
          rw [max_eq_right e2, zero_smul]
      · simp [h]
  rw [hop]
  exact strong_of_subgradient (fun v => (w k * c) * ‖v‖) _ _
    (shrink_subgradient _ (mul_nonneg (hw k) hc) _) v

/-- C31: whatever the size of the groups and thresholds, each group of the result is within the guard `2⁻²³` (in
Euclidean norm) of that group of the exact proximity operator. -/
theorem C31_group_lasso_near_prox (w : κ → ℝ) (c : ℝ) (x : γ × κ → 𝕜) (hw : ∀ k, 0 ≤ w k) (hc : 0 ≤ c) :
    ∃ p, IsUniqueProx (fun u => c * ∑ k, w k * Real.sqrt (∑ g, ‖u (g, k)‖ ^ 2)) x p ∧
      ∀ k, Real.sqrt (∑ g, ‖groupOp w x c (g, k) - p (g, k)‖ ^ 2) ≤ eps32 := by
  have he : 0 < eps32 := by unfold eps32; positivity
  let ρ : κ → ℝ := fun k => max (1 - w k * c / ‖groupVec x k‖) 0
  refine ⟨fun i => x i * ((ρ i.2 : ℝ) : 𝕜), ?_, fun k => ?_⟩
  · have e : (fun u : γ × κ → 𝕜 => c * ∑ k, w k * Real.sqrt (∑ g, ‖u (g, k)‖ ^ 2))
        = fun u => (fun U : κ → PiLp 2 (fun _ : γ => 𝕜) => ∑ k, (w k * c) * ‖U k‖) (groupVec u) := by
      funext u
      simp only [norm_groupVec]
      rw [Finset.mul_sum]
      exact Finset.sum_congr rfl fun k _ => by unfold normAxis0; ring
    rw [e]
    refine isUniqueProx_group (fun U : κ → PiLp 2 (fun _ : γ => 𝕜) => ∑ k, (w k * c) * ‖U k‖) x _ ?_
    apply isUniqueProx_of_coord (fun k v => (w k * c) * ‖v‖)
    intro k v
    have hop : groupVec (fun i => x i * ((ρ i.2 : ℝ) : 𝕜)) k = ρ k • groupVec x k := by
      ext g
      simp only [groupVec, PiLp.smul_apply, RCLike.real_smul_eq_coe_mul]
      rw [mul_comm]
    rw [hop]
    exact strong_of_subgradient (fun v => (w k * c) * ‖v‖) _ _
      (shrink_subgradient _ (mul_nonneg (hw k) hc) _) v
  · have hnn : 0 ≤ normAxis0 x k := Real.sqrt_nonneg _
    have hwc := mul_nonneg (hw k) hc
    let σ : ℝ := max 0 (1 - w k * c / max (normAxis0 x k) eps32)
    have hd : Real.sqrt (∑ g, ‖groupOp w x c (g, k) - x (g, k) * ((ρ k : ℝ) : 𝕜)‖ ^ 2) = |σ - ρ k| * normAxis0 x k := by
      have h1 : ∀ g, ‖groupOp w x c (g, k) - x (g, k) * ((ρ k : ℝ) : 𝕜)‖ ^ 2 = |σ - ρ k| ^ 2 * ‖x (g, k)‖ ^ 2 := by
        intro g
        have h2 : groupOp w x c (g, k) - x (g, k) * ((ρ k : ℝ) : 𝕜) = ((σ - ρ k : ℝ) : 𝕜) * x (g, k) := by
          have h3 : groupOp w x c (g, k) = x (g, k) * ((σ : ℝ) : 𝕜) := rfl
          rw [h3]; push_cast; ring
        rw [h2, norm_mul, RCLike.norm_ofReal, mul_pow]
      simp only [h1]
      rw [← Finset.mul_sum, Real.sqrt_mul (by positivity), Real.sqrt_sq (abs_nonneg _)]
      rfl
    refine hd.trans_le ?_
    rcases le_or_gt eps32 (normAxis0 x k) with h1 | h1
    · have : σ = ρ k := by
        simp only [σ, ρ, norm_groupVec]
        rw [max_eq_left h1, max_comm]
      rw [this, sub_self, abs_zero, zero_mul]; exact he.le
    · have hσ : 0 ≤ σ ∧ σ ≤ 1 := by
        refine ⟨le_max_left _ _, max_le zero_le_one ?_⟩
        have : 0 < max (normAxis0 x k) eps32 := lt_of_lt_of_le he (le_max_right _ _)
        rw [sub_le_self_iff]; positivity
      have hρ : 0 ≤ ρ k ∧ ρ k ≤ 1 := by
        refine ⟨le_max_right _ _, max_le ?_ zero_le_one⟩
        rw [sub_le_self_iff]; positivity
      have h2 : |σ - ρ k| ≤ 1 := abs_le.2 ⟨by linarith, by linarith⟩
      calc _ ≤ 1 * normAxis0 x k := mul_le_mul_of_nonneg_right h2 hnn
        _ ≤ eps32 := by rw [one_mul]; exact h1.le

/-- C31: below the guard the result is still a shrinkage: magnitudes never grow and each group keeps
its direction. -/
theorem C31_group_lasso_shrinks (w : κ → ℝ) (c : ℝ) (x : γ × κ → 𝕜) (hw : ∀ k, 0 ≤ w k) (hc : 0 ≤ c) :
    ∀ k, ∃ r : ℝ, 0 ≤ r ∧ r ≤ 1 ∧ ∀ g, groupOp w x c (g, k) = x (g, k) * r := by
  intro k
  have he : 0 < eps32 := by unfold eps32; positivity
  refine ⟨max 0 (1 - w k * c / max (normAxis0 x k) eps32), le_max_left _ _, max_le zero_le_one ?_,
    fun g => rfl⟩
  have : 0 < max (normAxis0 x k) eps32 := lt_of_lt_of_le he (le_max_right _ _)
  have h2 := mul_nonneg (hw k) hc
  rw [sub_le_self_iff]; positivity

end Group

/-! ## C34 -/

section Composition
variable {E F : Type*} [NormedAddCommGroup E] [InnerProductSpace ℝ E] [NormedAddCommGroup F]
  [InnerProductSpace ℝ F]

/-- C34: `IdentityProx` is the proximity operator of the cost it reports (zero), for every factor; in particular it
changes nothing. -/
theorem C34_identity_is_prox_of_its_cost {ι : Type*} [Fintype ι] {V : Type*} [NormedAddCommGroup V]
    (x : ι → V) (c : ℝ) : IsUniqueProx (fun u => c * identityCost u) x (identityOp x c) ∧
    ∀ u : ι → V, identityCost u = 0 := by
  refine ⟨⟨fun u => ?_, fun q hq => ?_⟩, fun u => rfl⟩
  · have h : 0 ≤ halfSqDist x u := by unfold halfSqDist; positivity
    simpa [identityOp, identityCost, halfSqDist] using h
  · have h := hq x
    simp only [identityCost, mul_zero, add_zero] at h
    have h0 : halfSqDist x x = 0 := by simp [halfSqDist]
    rw [h0] at h
    have hs : ∑ i, ‖x i - q i‖ ^ 2 ≤ 0 := by unfold halfSqDist at h; linarith
    funext i
    have h1 := (Finset.sum_eq_zero_iff_of_nonneg fun i _ => sq_nonneg ‖x i - q i‖).1
      (le_antisymm hs (Finset.sum_nonneg fun i _ => sq_nonneg _)) i (Finset.mem_univ i)
    have h2 := sub_eq_zero.1 (norm_eq_zero.1 (pow_eq_zero_iff two_ne_zero |>.1 h1))
    exact h2.symm

/-- C34: if the linear operator is unitary (its `adj_op` is its adjoint and its two-sided inverse) and
`prox_op.op(·, c)` is the proximity operator of `c · prox_op.cost`, then `LinearCompositionProx.op(·, c)`
is the proximity operator of `c` times the composed cost `x ↦ prox_op.cost(L x)`. -/
theorem C34_unitary_composition_is_prox (L : LinObj E F) (P : ProxObj F) (c : ℝ)
    (hadd : ∀ x y, L.op (x - y) = L.op x - L.op y)
    (hadj : ∀ x y, ⟪L.op x, y⟫ = ⟪x, L.adjOp y⟫)
    (hinv : ∀ x, L.adjOp (L.op x) = x) (hinv' : ∀ y, L.op (L.adjOp y) = y)
    (hprox : ∀ y, IsProxE (fun v => c * P.cost v) y (P.op y c)) (x : E) :
    IsProxE (fun u => c * P.cost (L.op u)) x ((linearComposition L P).op x c) ∧
    ∀ u, (linearComposition L P).cost u = P.cost (L.op u) := by
  refine ⟨fun u => ?_, fun u => rfl⟩
  have hn : ∀ v, ‖L.op v‖ = ‖v‖ := by
    intro v
    have : ‖L.op v‖ ^ 2 = ‖v‖ ^ 2 := by
      rw [← real_inner_self_eq_norm_sq, hadj, hinv, real_inner_self_eq_norm_sq]
    exact (sq_eq_sq₀ (norm_nonneg _) (norm_nonneg _)).1 this
  have h := hprox (L.op x) (L.op u)
  show 1 / 2 * ‖x - L.adjOp (P.op (L.op x) c)‖ ^ 2 + c * P.cost (L.op (L.adjOp (P.op (L.op x) c))) ≤ _
  rw [hinv', ← hn (x - u), ← hn (x - L.adjOp _), hadd, hadd, hinv']
  exact h

end Composition

/-- C34, limit of the claim: being an isometry (`adj_op(op(x)) = x`, as for redundant tight frames) is
not enough.  For `L : ℝ → ℝ²`, `L x = (3x/5, 4x/5)` and the weighted `ℓ₁` cost `2|u₁|`, with its exact
proximity operator, the composed operator does not return the proximity operator of the composed cost. -/
theorem C34_isometry_not_enough :
    ∃ (L : LinObj ℝ (Fin 2 → ℝ)) (P : ProxObj (Fin 2 → ℝ)),
      (∀ x, L.adjOp (L.op x) = x) ∧ (∀ x y, ∑ i, L.op x i * y i = x * L.adjOp y) ∧
      (∀ x y, L.op (x - y) = L.op x - L.op y) ∧
      (∀ y, IsUniqueProx (fun v => 1 * P.cost v) y (P.op y 1)) ∧
      ¬ IsProxE (fun u : ℝ => 1 * P.cost (L.op u)) 1 ((linearComposition L P).op 1 1) := by
  let t : Fin 2 → ℝ := ![2, 0]
  refine ⟨⟨fun x => ![3 / 5 * x, 4 / 5 * x], fun y => 3 / 5 * y 0 + 4 / 5 * y 1⟩,
    ⟨fun y _ i => softExact (t i) (y i), fun v => ∑ i, t i * ‖v i‖⟩, ?_, ?_, ?_, ?_, ?_⟩
  · intro x; simp; ring
  · intro x y; simp [Fin.sum_univ_two]; ring
  · intro x y; funext i; fin_cases i <;> simp <;> ring
  · intro y
    simp only [one_mul]
    apply isUniqueProx_of_coord (fun i v => t i * ‖v‖)
    intro i v
    have ht : 0 ≤ t i := by fin_cases i <;> simp [t]
    exact strong_of_subgradient (fun v => t i * ‖v‖) _ _ (shrink_subgradient (t i) ht (y i)) v
  · intro h
    have h0 := h 0
    simp [linearComposition, softExact, t, Fin.sum_univ_two] at h0
    norm_num [abs_of_pos] at h0

/-! ## C35 -/

/-- Arrays of any size are lists of entries; two arrays of the same size have the squared distance
`∑ |xᵢ - uᵢ|²`. -/
def sqDistL (x u : List ℝ) : ℝ := (List.zipWith (fun a b => (a - b) ^ 2) x u).sum

/-- `p` minimises `½‖x - u‖² + g(u)` over the arrays `u` of the size of `x`. -/
def IsProxL (g : List ℝ → ℝ) (x p : List ℝ) : Prop :=
  p.length = x.length ∧
    ∀ u : List ℝ, u.length = x.length → 1 / 2 * sqDistL x p + g p ≤ 1 / 2 * sqDistL x u + g u

theorem comboOpFrom_spec {A : Type*} (data : List A) (c : ℝ) (ops : List (ProxObj A)) (k : ℕ)
    (h : k + ops.length ≤ data.length) :
    comboOpFrom data c k ops = .ok (List.zipWith (fun p x => p.op x c) ops (data.drop k)) := by
  induction ops generalizing k with
  | nil => simp [comboOpFrom]
  | cons p ps ih =>
    have hk : k < data.length := by simp at h; omega
    rw [comboOpFrom, List.getElem?_eq_getElem hk]
    simp only
    rw [ih (k + 1) (by simp at h; omega), List.drop_eq_getElem_cons hk]
    rfl

theorem comboOpFrom_short {A : Type*} (data : List A) (c : ℝ) (ops : List (ProxObj A)) (k : ℕ)
    (h : data.length < k + ops.length) (hk : k ≤ data.length) :
    comboOpFrom data c k ops = .error .indexError := by
  induction ops generalizing k with
  | nil => simp at h; omega
  | cons p ps ih =>
    rw [comboOpFrom]
    rcases Nat.lt_or_ge k data.length with h1 | h1
    · rw [List.getElem?_eq_getElem h1]
      simp only
      rw [ih (k + 1) (by simp at h; omega) h1]; rfl
    · rw [List.getElem?_eq_none h1]

/-- C35: `op` applies operator `i` to block `i`, and its result does not depend on further blocks. -/
theorem C35_op_acts_blockwise {A : Type*} (ops : List (ProxObj A)) (data : List A) (c : ℝ)
    (h : ops.length ≤ data.length) :
    ∃ out, comboOp ops data c = .ok out ∧ out.length = ops.length ∧
      ∀ i (hi : i < ops.length), out[i]? = some (ops[i].op (data[i]'(by omega)) c) := by
  refine ⟨_, comboOpFrom_spec data c ops 0 (by omega), ?_, ?_⟩
  · simp; omega
  · intro i hi
    have hd : i < data.length := by omega
    simp [hi, hd]

/-- C35: with fewer blocks than operators, `op` raises `IndexError`. -/
theorem C35_missing_block_raises {A : Type*} (ops : List (ProxObj A)) (data : List A) (c : ℝ)
    (h : data.length < ops.length) : comboOp ops data c = .error .indexError :=
  comboOpFrom_short data c ops 0 (by omega) (by omega)

/-- C35: `cost` is the sum of the costs of the blocks. -/
theorem C35_cost_is_sum {A : Type*} (ops : List (ProxObj A)) (data : List A)
    (h : ops.length = data.length) :
    comboCost ops data = ∑ i : Fin ops.length, ops[i].cost (data[i]'(by omega)) := by
  induction ops generalizing data with
  | nil => simp [comboCost]
  | cons p ps ih =>
    cases data with
    | nil => simp at h
    | cons x xs =>
      have := ih xs (by simpa using h)
      simp only [comboCost, List.zipWith_cons_cons, List.sum_cons] at this ⊢
      rw [this]
      exact (Fin.sum_univ_succ (n := ps.length)
        (fun i => (p :: ps)[i].cost ((x :: xs)[i]'(by have := i.2; simp at h ⊢; omega)))).symm

/-- C35: if every operator is the proximity operator of `c` times its cost, then `ProximityCombo.op`
is the proximity operator of `c` times its own (summed) cost, over all lists of blocks of the same
sizes. -/
theorem C35_combo_is_prox (ops : List (ProxObj (List ℝ))) (data : List (List ℝ)) (c : ℝ)
    (hlen : ops.length = data.length)
    (hp : ∀ p ∈ ops, ∀ x, IsProxL (fun u => c * p.cost u) x (p.op x c)) :
    ∃ out, comboOp ops data c = .ok out ∧
      out.map List.length = data.map List.length ∧
      ∀ u : List (List ℝ), u.map List.length = data.map List.length →
        1 / 2 * (List.zipWith sqDistL data out).sum + c * comboCost ops out
          ≤ 1 / 2 * (List.zipWith sqDistL data u).sum + c * comboCost ops u := by
  refine ⟨_, comboOpFrom_spec data c ops 0 (by omega), ?_⟩
  rw [List.drop_zero]
  induction ops generalizing data with
  | nil =>
    cases data with
    | nil => exact ⟨rfl, fun u hu => by simp at hu; subst hu; exact le_rfl⟩
    | cons x xs => simp at hlen
  | cons p ps ih =>
    cases data with
    | nil => simp at hlen
    | cons x xs =>
      obtain ⟨h1, h2⟩ := ih xs (by simpa using hlen) (fun q hq => hp q (List.mem_cons_of_mem _ hq))
      obtain ⟨h3, h4⟩ := hp p List.mem_cons_self x
      refine ⟨by simp [h3, h1], fun u hu => ?_⟩
      cases u with
      | nil => simp at hu
      | cons v vs =>
        simp only [List.map_cons, List.cons.injEq] at hu
        have a := h4 v hu.1
        have b := h2 vs hu.2
        simp only [comboCost, List.zipWith_cons_cons, List.sum_cons] at b ⊢
        linarith

/-- C35: the constructor accepts exactly the non-empty sequences of objects with callable `op` and
`cost`, in the given order; it raises `TypeError` on anything that is not a sequence and `ValueError`
on an empty one. -/
theorem C35_constructor {A : Type*} :
    comboInit (.other : ComboArg A) = .error .typeError ∧
    comboInit (.seq [] : ComboArg A) = .error .valueError ∧
    ∀ l : List (Candidate A), (∃ ops, comboInit (.seq l) = .ok ops) ↔
      (l ≠ [] ∧ ∀ a ∈ l, a.hasOp ∧ a.hasCost ∧ a.opCallable ∧ a.costCallable) := by
  have key : ∀ l : List (Candidate A), (∃ ops, checkEach l = .ok ops) ↔
      (∀ a ∈ l, a.hasOp ∧ a.hasCost ∧ a.opCallable ∧ a.costCallable) := by
    intro l
    induction l with
    | nil => simp [checkEach]
    | cons a l ih =>
      rw [List.forall_mem_cons, ← ih, checkEach]
      cases a.hasOp <;> cases a.hasCost <;> cases a.opCallable <;> cases a.costCallable <;> simp
      constructor
      · rintro ⟨ops, h⟩
        cases hc : checkEach l with
        | error e => rw [hc] at h; simp [bind, Except.bind] at h
        | ok r => exact ⟨r, rfl⟩
      · rintro ⟨r, hr⟩
        exact ⟨a.obj :: r, by rw [hr]; rfl⟩
  refine ⟨rfl, rfl, fun l => ?_⟩
  cases l with
  | nil => simp [comboInit]
  | cons a l =>
    rw [comboInit, if_neg (by simp), key]
    simp

/-- C35: the accepted operators are kept in the given order. -/
theorem C35_constructor_keeps_order {A : Type*} (l : List (Candidate A)) (ops : List (ProxObj A))
    (h : comboInit (.seq l) = .ok ops) : ops = l.map Candidate.obj := by
  have key : ∀ (l : List (Candidate A)) ops, checkEach l = .ok ops → ops = l.map Candidate.obj := by
    intro l
    induction l with
    | nil => intro ops h; simp [checkEach] at h; simp [← h]
    | cons a l ih =>
      intro ops h
      rw [checkEach] at h
      split_ifs at h
      cases hc : checkEach l with
      | error e => rw [hc] at h; simp [bind, Except.bind] at h
      | ok r => rw [hc] at h; simp [bind, Except.bind] at h; rw [← h, ih r hc]; rfl
  rw [comboInit] at h
  split_ifs at h
  exact key l ops h

section Examples
/-- Ridge with weight 1: `prox` of `|u|²` at `6` is `2`. -/
example : ridgeOp (fun v : Unit → ℝ => v) (fun _ => 1) (fun _ => 6) 1 () = 2 := by
  norm_num [ridgeOp]
example : IsUniqueProx (fun u : Unit → ℝ => 1 * ridgeCost (fun v => v) (fun _ => 1) u) (fun _ => 6)
    (ridgeOp (fun v => v) (fun _ => 1) (fun _ => 6) 1) :=
  (C29_ridge_is_prox _ 1 _ (by norm_num) (by norm_num)).1
/-- The hypotheses of the group theorem hold for the documented example weight 3. -/
example (x : Fin 3 × Fin 5 → ℝ) : IsUniqueProx
    (fun u : Fin 3 × Fin 5 → ℝ => 1 * ∑ k, 3 * Real.sqrt (∑ g, ‖u (g, k)‖ ^ 2)) x
    (groupOp (fun _ => 3) x 1) :=
  (C31_group_lasso_is_prox (fun _ => 3) 1 x (by norm_num) (by norm_num)
    (fun _ => Or.inr (Or.inl (by norm_num [eps32])))).1
/-- Two identity blocks with different sizes satisfy the hypotheses of the combination theorem. -/
example : ∃ out, comboOp [⟨fun x _ => x, fun _ => 0⟩, ⟨fun x _ => x, fun _ => 0⟩] [[1, 2], [(3 : ℝ)]] 1 = .ok out
    ∧ out.map List.length = [2, 1] := by
  have hid : ∀ x : List ℝ, IsProxL (fun _ => (1 : ℝ) * 0) x x := by
    intro x
    refine ⟨rfl, fun u hu => ?_⟩
    have h0 : sqDistL x x = 0 := by
      unfold sqDistL
      induction x with
      | nil => rfl
      | cons a x ih => simp at ih ⊢
    have h1 : 0 ≤ sqDistL x u := by
      unfold sqDistL
      apply List.sum_nonneg
      intro a ha
      rw [List.mem_iff_getElem] at ha
      obtain ⟨i, hi, rfl⟩ := ha
      simp
      positivity
    rw [h0]; linarith
  obtain ⟨out, h1, h2, _⟩ := C35_combo_is_prox
    [⟨fun x _ => x, fun _ => 0⟩, ⟨fun x _ => x, fun _ => 0⟩] [[1, 2], [3]] 1 rfl
    (by intro p hp x; simp at hp; rw [hp]; exact hid x)
  exact ⟨out, h1, by simpa using h2⟩
end Examples

end Verif
