import Verif.Props.Pipeline

/-!
# C153: the zeros of the solution are found after finitely many updates
-/

set_option linter.unusedSectionVars false

namespace Verif
open Spec FB Noise
open Linear (gradBasic gradCost)
open Prox (sparseOp sparseCost)
open scoped RealInnerProductSpace

/-! ## One entry -/

section
variable {𝕜 : Type} [RCLike 𝕜]

theorem shrink_mul (t r : ℝ) (ht : 0 ≤ t) (hr : 0 ≤ r) : max (1 - t / r) 0 * r = max (r - t) 0 := by
  rcases hr.eq_or_lt with h | h
  · subst h
    rw [mul_zero, zero_sub, max_eq_right (by linarith)]
  · rw [max_mul_of_nonneg _ _ hr, zero_mul]
    congr 1
    field_simp

theorem norm_softExact (t : ℝ) (ht : 0 ≤ t) (x : 𝕜) : ‖softExact t x‖ = max (‖x‖ - t) 0 := by
  unfold softExact
  rw [norm_smul, Real.norm_of_nonneg (le_max_right _ _), shrink_mul t _ ht (norm_nonneg x)]

theorem softExact_eq_zero_iff (t : ℝ) (ht : 0 ≤ t) (x : 𝕜) : softExact t x = 0 ↔ ‖x‖ ≤ t := by
  rw [← norm_eq_zero, norm_softExact t ht, max_eq_right_iff, sub_nonpos]

theorem softExact_nonexpansive (t : ℝ) (ht : 0 ≤ t) (x y : 𝕜) : ‖softExact t x - softExact t y‖ ≤ ‖x - y‖ := by
  refine radial_nonexpansive (fun r => max (1 - t / r) 0) (fun r _ => le_max_right _ _) (fun r hr => ?_)
    (fun r s hr hs => ?_) x y
  · apply max_le _ zero_le_one
    rw [sub_le_self_iff]
    positivity
  · rw [shrink_mul t r ht hr, shrink_mul t s ht hs]
    refine (abs_max_sub_max_le_abs _ _ _).trans ?_
    rw [sub_sub_sub_cancel_right]

/-- An entry that should vanish and does not pays for it. -/
theorem softExact_gain (t : ℝ) (ht : 0 ≤ t) (x y : 𝕜) (hx : softExact t x ≠ 0) (hy : softExact t y = 0) :
    ‖softExact t x - softExact t y‖ ^ 2 + (t - ‖y‖) ^ 2 ≤ ‖x - y‖ ^ 2 := by
  have h1 : t < ‖x‖ := not_le.1 fun h => hx ((softExact_eq_zero_iff t ht x).2 h)
  have h2 : ‖y‖ ≤ t := (softExact_eq_zero_iff t ht y).1 hy
  have h3 : ‖x‖ - ‖y‖ ≤ ‖x - y‖ := norm_sub_norm_le x y
  rw [hy, sub_zero, norm_softExact t ht, max_eq_left (by linarith)]
  nlinarith [mul_nonneg (sub_nonneg.2 h1.le) (sub_nonneg.2 h2)]

/-- What `thresh` returns is zero wherever the exact soft threshold is: neither the guard nor the rounding create non-zero
entries. -/
theorem thresh_zero {ι : Type} (x : ι → 𝕜) (t : ι → ℝ) (i : ι) (ht : 0 ≤ t i) (h : softExact (t i) (x i) = 0) :
    aroundK 15 (softRaw x t i) = 0 := by
  rcases le_or_gt eps64 ‖x i‖ with h1 | h1
  · rw [softRaw_eq_softExact x t i (Or.inl h1), h]
    simp [aroundK, around_zero]
  · have h2 : ‖softRaw x t i‖ ≤ 2⁻¹ ^ 52 := (C27_soft_shrinks x t i ht).trans h1.le
    have h3 : ((2⁻¹ : ℝ) ^ 52) * 10 ^ 15 ≤ 1 / 2 := by norm_num
    have hr : around 15 (RCLike.re (softRaw x t i)) = 0 := by
      rw [around_eq_zero_iff]
      have := (RCLike.abs_re_le_norm (softRaw x t i)).trans h2
      nlinarith
    have hi : around 15 (RCLike.im (softRaw x t i)) = 0 := by
      rw [around_eq_zero_iff]
      have := (RCLike.abs_im_le_norm (softRaw x t i)).trans h2
      nlinarith
    unfold aroundK
    rw [hr, hi]
    simp

end

/-! ## Arrays -/

section
variable {E ι 𝕜 : Type} [NormedAddCommGroup E] [InnerProductSpace ℝ E] [Fintype ι] [RCLike 𝕜]

open Classical in
/-- The price of the entries of `x` that are not zero although those of `u` are: the squares of the margins `m`. -/
noncomputable def falseNonzeros (V : ArraySpace E ι 𝕜) (m : ι → ℝ) (x u : E) : ℝ :=
  ∑ i, if V.arr x i ≠ 0 ∧ V.arr u i = 0 then m i ^ 2 else 0

/-- One update. -/
theorem soft_step_gain (V : ArraySpace E ι 𝕜) (t : ι → ℝ) (ht : ∀ i, 0 ≤ t i) (z zs p ps : E)
    (hp : ∀ i, V.arr p i = softExact (t i) (V.arr z i)) (hps : ∀ i, V.arr ps i = softExact (t i) (V.arr zs i)) :
    ‖p - ps‖ ^ 2 + falseNonzeros V (fun i => t i - ‖V.arr zs i‖) p ps ≤ ‖z - zs‖ ^ 2 := by
  unfold falseNonzeros
  rw [V.norm_sq, V.norm_sq, ← Finset.sum_add_distrib]
  refine Finset.sum_le_sum fun i _ => ?_
  rw [map_sub, map_sub, Pi.sub_apply, Pi.sub_apply, hp, hps]
  split_ifs with h
  · exact softExact_gain (t i) (ht i) _ _ h.1 h.2
  · rw [add_zero]
    exact pow_le_pow_left₀ (norm_nonneg _) (softExact_nonexpansive (t i) (ht i) _ _) 2

theorem falseNonzeros_mono (V : ArraySpace E ι 𝕜) (m : ι → ℝ) (x y u : E) (h : ∀ i, V.arr x i ≠ 0 → V.arr y i ≠ 0) :
    falseNonzeros V m x u ≤ falseNonzeros V m y u := by
  unfold falseNonzeros
  refine Finset.sum_le_sum fun i _ => ?_
  split_ifs with h1 h2
  · exact le_rfl
  · exact absurd ⟨h i h1.1, h1.2⟩ h2
  · exact sq_nonneg _
  · exact le_rfl

/-- The textbook soft threshold is the proximity operator of the weighted `ℓ₁` norm. -/
theorem softExact_unique_prox (t : ι → ℝ) (ht : ∀ i, 0 ≤ t i) (v : ι → 𝕜) :
    IsUniqueProx (fun u => ∑ i, t i * ‖u i‖) v fun i => softExact (t i) (v i) := by
  apply isUniqueProx_of_coord (fun i v => t i * ‖v‖)
  intro i v'
  exact strong_of_subgradient (fun v => t i * ‖v‖) _ _ (shrink_subgradient (t i) (ht i) (v i)) v'

/-- The exact proximity operator of the weighted `ℓ₁` norm on the space of arrays. -/
noncomputable def softOn (V : ArraySpace E ι 𝕜) (w : ι → ℝ) (v : E) (c : ℝ) : E :=
  V.arr.symm fun i => softExact (w i * c) (V.arr v i)

theorem softOn_exact (V : ArraySpace E ι 𝕜) (w : ι → ℝ) (hw : ∀ i, 0 ≤ w i) :
    ExactProx Set.univ (fun u => ∑ i, w i * ‖V.arr u i‖) (softOn V w) := by
  intro v c hc
  have h : IsProx (fun u => ∑ i, w i * c * ‖u i‖) (V.arr v) (V.arr (softOn V w v c)) := by
    unfold softOn
    rw [AddEquiv.apply_symm_apply]
    exact (softExact_unique_prox (fun i => w i * c) (fun i => mul_nonneg (hw i) hc.le) (V.arr v)).1
  have h2 := isProxOn_of_isProx V h
  have e : (fun u => c * ∑ i, w i * ‖V.arr u i‖) = fun u : E => ∑ i, w i * c * ‖V.arr u i‖ := by
    funext u
    rw [Finset.mul_sum]
    exact Finset.sum_congr rfl fun i _ => by ring
  rw [e]
  exact h2

theorem norm_weight_eq (w : ι → ℝ) (hw : ∀ i, 0 ≤ w i) (u : ι → 𝕜) :
    sparseCost (fun v => v) w u = ∑ i, w i * ‖u i‖ := by
  refine Finset.sum_congr rfl fun i _ => ?_
  rw [norm_mul, RCLike.norm_ofReal, abs_of_nonneg (hw i)]

/-- The accounting: squared distances, errors and prices. -/
theorem count_rate (d q b : ℕ → ℝ) (e : ℝ) (he : 0 ≤ e) (hd : ∀ n, 0 ≤ d n) (hq : ∀ n, 0 ≤ q n) (hb : ∀ n, 0 ≤ b n)
    (h1 : ∀ n, d (n + 1) ≤ q n + e) (h2 : ∀ n, q n ^ 2 + b n ≤ d n ^ 2) (n : ℕ) :
    d n ^ 2 + ∑ k ∈ Finset.range n, b k ≤ (d 0 + n * e) ^ 2 := by
  have hqd : ∀ n, q n ≤ d n := fun n => (sq_le_sq₀ (hq n) (hd n)).1 (by linarith [h2 n, hb n])
  have hlin : ∀ n : ℕ, d n ≤ d 0 + n * e := by
    intro n
    induction n with
    | zero => simp
    | succ n ih =>
      have := h1 n
      have := hqd n
      push_cast
      linarith
  induction n with
  | zero => simp
  | succ n ih =>
    rw [Finset.sum_range_succ]
    have a1 := pow_le_pow_left₀ (hd (n + 1)) (h1 n) 2
    have a2 := h2 n
    have a3 : q n * e ≤ (d 0 + n * e) * e := mul_le_mul_of_nonneg_right ((hqd n).trans (hlin n)) he
    push_cast
    nlinarith

variable {Y : Type} [NormedAddCommGroup Y] [InnerProductSpace ℝ Y] {S : Type}

/-- The common part: an operator that is entrywise within `e` of the exact soft threshold and creates no non-zero entries. -/
theorem support_rate (V : ArraySpace E ι 𝕜) (op : E → Y) (adj : Y → E) (y : Y)
    (hadd : ∀ a b, op (a + b) = op a + op b) (hadj : ∀ a b, ⟪op a, b⟫ = ⟪a, adj b⟫) (N : ℝ)
    (hN : ∀ v, ‖op v‖ ≤ N * ‖v‖) (w : ι → ℝ) (hw : ∀ i, 0 ≤ w i) (prox : E → ℝ → E) (β : ℝ) (hb : 0 < β)
    (hbN : β * N ^ 2 ≤ 2) (e : ℝ) (he : 0 ≤ e)
    (hclose : ∀ v i, ‖V.arr (prox v β) i - softExact (w i * β) (V.arr v i)‖ ≤ e)
    (hzero : ∀ v i, softExact (w i * β) (V.arr v i) = 0 → V.arr (prox v β) i = 0)
    (x0 : E) (r : S) (xs : E)
    (hxs : Minimises Set.univ (fun u => gradCost op y u + sparseCost (fun v => v) w (V.arr u)) xs) (n : ℕ) :
    let x := fun n => (afterSteps (gradBasic op adj y) prox (userRules none none) ⟨x0, x0, none, none, β, 1, r⟩ n).xOld
    (∀ i, V.arr xs i = 0 → ‖V.arr (gradBasic op adj y xs) i‖ ≤ w i) ∧
      ‖x n - xs‖ ^ 2 + ∑ k ∈ Finset.range n,
        falseNonzeros V (fun i => β * (w i - ‖V.arr (gradBasic op adj y xs) i‖)) (x (k + 1)) xs ≤
        (‖x0 - xs‖ + n * (Real.sqrt (Fintype.card ι) * e)) ^ 2 := by
  intro x
  obtain ⟨hF, hS⟩ := gradBasic_models op adj y hadd hadj N hN
  set G := gradBasic op adj y with hG
  have hx : ∀ n, x (n + 1) = prox (x n - β • G (x n)) β := plain_iterates G prox x0 β r
  have hconv : ConvexOn ℝ Set.univ fun u => ∑ i, w i * ‖V.arr u i‖ := by
    simpa only [zero_mul, zero_add] using convex_moduli V (fun _ : ι => 0) w (fun _ => le_rfl) hw
  have hP := softOn_exact V w hw
  simp only [norm_weight_eq w hw] at hxs
  have hfix : softOn V w (xs - β • G xs) β = xs := fb_fixed_of_minimises hconv hF hS hP hb hxs
  have ht : ∀ i, 0 ≤ w i * β := fun i => mul_nonneg (hw i) hb.le
  have harr : ∀ v i, V.arr (softOn V w v β) i = softExact (w i * β) (V.arr v i) := by
    intro v i
    unfold softOn
    rw [AddEquiv.apply_symm_apply]
  have hxs_i : ∀ i, V.arr xs i = softExact (w i * β) (V.arr (xs - β • G xs) i) := by
    intro i
    conv_lhs => rw [← hfix]
    exact harr _ i
  have hzs : ∀ i, V.arr xs i = 0 → ‖V.arr (xs - β • G xs) i‖ = β * ‖V.arr (G xs) i‖ := by
    intro i hi
    rw [map_sub, Pi.sub_apply, hi, zero_sub, norm_neg, arr_real_smul, norm_smul, Real.norm_of_nonneg hb.le]
  constructor
  · intro i hi
    have h1 := (softExact_eq_zero_iff _ (ht i) _).1 ((hxs_i i).symm.trans hi)
    rw [hzs i hi, mul_comm (w i)] at h1
    exact le_of_mul_le_mul_left h1 hb
  · have hb0 : ∀ k, 0 ≤ falseNonzeros V (fun i => β * (w i - ‖V.arr (G xs) i‖)) (x (k + 1)) xs := by
      intro k
      unfold falseNonzeros
      refine Finset.sum_nonneg fun i _ => ?_
      split_ifs
      · exact sq_nonneg _
      · exact le_rfl
    refine count_rate (fun n => ‖x n - xs‖) (fun n => ‖softOn V w (x n - β • G (x n)) β - xs‖)
      (fun k => falseNonzeros V (fun i => β * (w i - ‖V.arr (G xs) i‖)) (x (k + 1)) xs)
      (Real.sqrt (Fintype.card ι) * e) (by positivity) (fun _ => norm_nonneg _) (fun _ => norm_nonneg _) hb0
      (fun k => ?_) (fun k => ?_) n
    · have h1 : ‖x (k + 1) - softOn V w (x k - β • G (x k)) β‖ ≤ Real.sqrt (Fintype.card ι) * e := by
        refine norm_le_of_entries V _ _ he fun i => ?_
        rw [map_sub, Pi.sub_apply, harr, hx k]
        exact hclose _ i
      have h2 := norm_add_le (x (k + 1) - softOn V w (x k - β • G (x k)) β) (softOn V w (x k - β • G (x k)) β - xs)
      rw [sub_add_sub_cancel] at h2
      linarith
    · have h1 := soft_step_gain V (fun i => w i * β) ht (x k - β • G (x k)) (xs - β • G xs)
        (softOn V w (x k - β • G (x k)) β) xs (harr _) hxs_i
      have h2 : ‖(x k - β • G (x k)) - (xs - β • G xs)‖ ≤ ‖x k - xs‖ := by
        have h := grad_step_lipschitz (strongly_zero hF) hS (sq_nonneg N) hb.le (x k) xs
        have h3 : max |1 - β * 0| |1 - β * N ^ 2| = 1 := by
          rw [mul_zero, sub_zero, abs_one]
          apply max_eq_left
          rw [abs_le]
          have := mul_nonneg hb.le (sq_nonneg N)
          constructor <;> linarith
        rw [h3, one_mul] at h
        exact h
      have h3 := pow_le_pow_left₀ (norm_nonneg _) h2 2
      have h4 : falseNonzeros V (fun i => β * (w i - ‖V.arr (G xs) i‖)) (x (k + 1)) xs ≤
          falseNonzeros V (fun i => w i * β - ‖V.arr (xs - β • G xs) i‖)
            (softOn V w (x k - β • G (x k)) β) xs := by
        refine (falseNonzeros_mono V _ _ (softOn V w (x k - β • G (x k)) β) xs fun i hi h0 => ?_).trans (le_of_eq ?_)
        · rw [harr] at h0
          rw [hx k] at hi
          exact hi (hzero _ i h0)
        · unfold falseNonzeros
          refine Finset.sum_congr rfl fun i _ => ?_
          split_ifs with h
          · show (β * (w i - ‖V.arr (G xs) i‖)) ^ 2 = (w i * β - ‖V.arr (xs - β • G xs) i‖) ^ 2
            rw [hzs i h.2]
            ring
          · rfl
      show ‖softOn V w (x k - β • G (x k)) β - xs‖ ^ 2 + _ ≤ ‖x k - xs‖ ^ 2
      linarith

open Classical in
/-- C153: least squares with an l1 penalty, `ForwardBackward` without acceleration with `GradBasic` and `SparseThreshold` (soft)
as the package computes it, step `0 < β ≤ 2/‖op‖²`, real or complex arrays of any shape.  Let `xs` be a minimiser.  Where `xs`
is zero its gradient is at most the weight, and the number of the first `n` iterates in which such an entry is not zero, times
the square of `β` times the margin `wᵢ - |∇ᵢ|`, summed over all these entries, is at most the square of the distance from the
starting point to `xs` (plus `n` times the rounding error of an update). -/
theorem C153_false_nonzeros (V : ArraySpace E ι 𝕜) (op : E → Y) (adj : Y → E) (y : Y)
    (hadd : ∀ a b, op (a + b) = op a + op b) (hadj : ∀ a b, ⟪op a, b⟫ = ⟪a, adj b⟫) (N : ℝ)
    (hN : ∀ v, ‖op v‖ ≤ N * ‖v‖) (w : ι → ℝ) (hw : ∀ i, 0 ≤ w i) (prox : E → ℝ → E)
    (hprox : ∀ v c, sparseOp w "soft" (V.arr v) c = .ok (V.arr (prox v c))) (x0 : E) (β : ℝ) (r : S)
    (hb : 0 < β) (hbN : β * N ^ 2 ≤ 2) (xs : E)
    (hxs : Minimises Set.univ (fun u => gradCost op y u + sparseCost (fun v => v) w (V.arr u)) xs) (n : ℕ) :
    let x := fun n => (afterSteps (gradBasic op adj y) prox (userRules none none) ⟨x0, x0, none, none, β, 1, r⟩ n).xOld
    (∀ i, V.arr xs i = 0 → ‖V.arr (gradBasic op adj y xs) i‖ ≤ w i) ∧
      ∑ i, (if V.arr xs i = 0 then
          ((Finset.range n).filter fun k => V.arr (x (k + 1)) i ≠ 0).card *
            (β * (w i - ‖V.arr (gradBasic op adj y xs) i‖)) ^ 2 else 0) ≤
        (‖x0 - xs‖ + n * (Real.sqrt (Fintype.card ι) * (2⁻¹ ^ 52 + 1 / 10 ^ 15))) ^ 2 := by
  intro x
  have hout : ∀ v i, V.arr (prox v β) i = aroundK 15 (softRaw (V.arr v) (fun i => w i * β) i) := by
    intro v i
    have h4 := hprox v β
    simp only [sparseOp, thresh] at h4
    simp at h4
    rw [← h4]
  have ht : ∀ i, 0 ≤ w i * β := fun i => mul_nonneg (hw i) hb.le
  obtain ⟨h1, h2⟩ := support_rate V op adj y hadd hadj N hN w hw prox β hb hbN (2⁻¹ ^ 52 + 1 / 10 ^ 15) (by positivity)
    (fun v i => by
      obtain ⟨out, p, a1, a2, a3⟩ := C27_returned_value_close_to_prox (V.arr v) (fun i => w i * β) ht
      have hp : p = fun i => softExact (w i * β) (V.arr v i) := by
        exact (a2.2 _ (softExact_unique_prox _ ht (V.arr v)).1).symm
      have h4 := hprox v β
      simp only [sparseOp] at h4
      rw [h4] at a1
      have h5 := Except.ok.inj a1
      have h6 := a3 i
      rw [hp, ← h5] at h6
      exact h6)
    (fun v i h => by rw [hout]; exact thresh_zero _ _ i (ht i) h) x0 r xs hxs n
  refine ⟨h1, le_trans (le_of_eq ?_) (le_trans (le_add_of_nonneg_left (sq_nonneg _)) h2)⟩
  unfold falseNonzeros
  rw [Finset.sum_comm]
  refine Finset.sum_congr rfl fun i _ => ?_
  by_cases hi : V.arr xs i = 0
  · rw [if_pos hi, ← nsmul_eq_mul, ← Finset.sum_const, Finset.sum_filter]
    refine Finset.sum_congr rfl fun k _ => ?_
    simp [hi, x]
  · rw [if_neg hi]
    symm
    refine Finset.sum_eq_zero fun k _ => ?_
    rw [if_neg fun h => hi h.2]

/-- C153 with an exact proximity operator: an entry of the solution that is zero with a margin `wᵢ - |∇ᵢ| > 0` is not zero in at
most `(‖x₀ - xs‖/(β(wᵢ - |∇ᵢ|)))²` of all iterates, however long the run; after the last of these it stays zero. -/
theorem C153_exact (V : ArraySpace E ι 𝕜) (op : E → Y) (adj : Y → E) (y : Y)
    (hadd : ∀ a b, op (a + b) = op a + op b) (hadj : ∀ a b, ⟪op a, b⟫ = ⟪a, adj b⟫) (N : ℝ)
    (hN : ∀ v, ‖op v‖ ≤ N * ‖v‖) (w : ι → ℝ) (hw : ∀ i, 0 ≤ w i) (prox : E → ℝ → E)
    (hprox : ∀ v c, 0 < c → IsUniqueProx (fun u => ∑ i, w i * c * ‖u i‖) (V.arr v) (V.arr (prox v c)))
    (x0 : E) (β : ℝ) (r : S) (hb : 0 < β) (hbN : β * N ^ 2 ≤ 2) (xs : E)
    (hxs : Minimises Set.univ (fun u => gradCost op y u + sparseCost (fun v => v) w (V.arr u)) xs) (i : ι)
    (hi : V.arr xs i = 0) (hm : ‖V.arr (gradBasic op adj y xs) i‖ < w i) :
    let x := fun n => (afterSteps (gradBasic op adj y) prox (userRules none none) ⟨x0, x0, none, none, β, 1, r⟩ n).xOld
    {k | V.arr (x (k + 1)) i ≠ 0}.Finite ∧
      ({k | V.arr (x (k + 1)) i ≠ 0}.ncard : ℝ) ≤
        (‖x0 - xs‖ / (β * (w i - ‖V.arr (gradBasic op adj y xs) i‖))) ^ 2 ∧
      ∃ n, ∀ k, n ≤ k → V.arr (x k) i = 0 := by
  classical
  intro x
  set μ := β * (w i - ‖V.arr (gradBasic op adj y xs) i‖) with hμ
  have hμ0 : 0 < μ := mul_pos hb (sub_pos.2 hm)
  have ht : ∀ i, 0 ≤ w i * β := fun i => mul_nonneg (hw i) hb.le
  have hp : ∀ v i, V.arr (prox v β) i = softExact (w i * β) (V.arr v i) := by
    intro v i
    have h := (hprox v β hb).2 (fun i => softExact (w i * β) (V.arr v i))
      (softExact_unique_prox (fun i => w i * β) ht (V.arr v)).1
    rw [← h]
  have key : ∀ n : ℕ, (((Finset.range n).filter fun k => V.arr (x (k + 1)) i ≠ 0).card : ℝ) ≤ (‖x0 - xs‖ / μ) ^ 2 := by
    intro n
    have h2 := (support_rate V op adj y hadd hadj N hN w hw prox β hb hbN 0 le_rfl
      (fun v i => by rw [hp, sub_self, norm_zero]) (fun v i h => by rw [hp, h]) x0 r xs hxs n).2
    rw [mul_zero, mul_zero, add_zero] at h2
    rw [div_pow, le_div_iff₀ (by positivity)]
    refine le_trans ?_ (le_trans (le_add_of_nonneg_left (sq_nonneg _)) h2)
    rw [← nsmul_eq_mul, ← Finset.sum_const, Finset.sum_filter]
    refine Finset.sum_le_sum fun k _ => ?_
    unfold falseNonzeros
    refine le_trans (le_of_eq ?_) (Finset.single_le_sum (f := fun j =>
      if V.arr (x (k + 1)) j ≠ 0 ∧ V.arr xs j = 0 then (β * (w j - ‖V.arr (gradBasic op adj y xs) j‖)) ^ 2 else 0)
      (fun j _ => by split_ifs <;> positivity) (Finset.mem_univ i))
    simp [hi, hμ]
  obtain ⟨B, hB⟩ := exists_nat_ge ((‖x0 - xs‖ / μ) ^ 2)
  have hfin : {k | V.arr (x (k + 1)) i ≠ 0}.Finite := by
    by_contra hinf
    obtain ⟨s, hs, hc⟩ := Set.Infinite.exists_subset_card_eq hinf (B + 1)
    have h1 : s ⊆ (Finset.range (s.sup id + 1)).filter fun k => V.arr (x (k + 1)) i ≠ 0 := by
      intro k hk
      rw [Finset.mem_filter, Finset.mem_range]
      exact ⟨Nat.lt_succ_iff.2 (Finset.le_sup (f := id) hk), hs hk⟩
    have h2 := Finset.card_le_card h1
    have h3 := (key (s.sup id + 1)).trans hB
    rw [hc] at h2
    have h4 : ((Finset.range (s.sup id + 1)).filter fun k => V.arr (x (k + 1)) i ≠ 0).card ≤ B := by exact_mod_cast h3
    omega
  refine ⟨hfin, ?_, ?_⟩
  · rw [Set.ncard_eq_toFinset_card _ hfin]
    refine le_trans ?_ (key (hfin.toFinset.sup id + 1))
    exact_mod_cast Finset.card_le_card (by
      intro k hk
      rw [Finset.mem_filter, Finset.mem_range]
      exact ⟨Nat.lt_succ_iff.2 (Finset.le_sup (f := id) hk), hfin.mem_toFinset.1 hk⟩)
  · refine ⟨hfin.toFinset.sup id + 2, fun k hk => ?_⟩
    by_contra h
    obtain ⟨j, rfl⟩ : ∃ j, k = j + 1 := ⟨k - 1, by omega⟩
    have := Finset.le_sup (f := id) (hfin.mem_toFinset.2 h)
    simp only [id] at this
    omega

/-- Denoising: the soft threshold of the data is the minimiser. -/
theorem denoise_minimises (V : ArraySpace E ι 𝕜) (w : ι → ℝ) (hw : ∀ i, 0 ≤ w i) (y : E) :
    Minimises Set.univ (fun u => gradCost (fun v => v) y u + sparseCost (fun v => v) w (V.arr u)) (softOn V w y 1) := by
  have h := softOn_exact V w hw y 1 one_pos
  refine ⟨Set.mem_univ _, fun u _ => ?_⟩
  have h2 := h.2 u (Set.mem_univ _)
  simp only [one_mul] at h2
  simp only [norm_weight_eq w hw]
  unfold gradCost
  norm_num at h2 ⊢
  linarith

end

/-- The hypotheses can be met: denoising with weights one, in every entry in which the data are below one in modulus. -/
example (y : EuclideanSpace ℂ (Fin 3)) (x0 : EuclideanSpace ℂ (Fin 3)) (i : Fin 3)
    (hi : ‖(euclid (Fin 3) ℂ).arr y i‖ < 1) :
    ∃ prox : EuclideanSpace ℂ (Fin 3) → ℝ → EuclideanSpace ℂ (Fin 3), ∃ n, ∀ k, n ≤ k →
      (euclid (Fin 3) ℂ).arr (afterSteps (gradBasic (fun v => v) (fun v => v) y) prox (userRules none none)
        ⟨x0, x0, none, none, 3 / 2, 1, ()⟩ k).xOld i = 0 := by
  have h0 : softExact (1 * 1) ((euclid (Fin 3) ℂ).arr y i) = 0 :=
    (softExact_eq_zero_iff _ (by norm_num) _).2 (by linarith)
  have h1 : (euclid (Fin 3) ℂ).arr (softOn (euclid (Fin 3) ℂ) (fun _ => 1) y 1) i = 0 := by
    unfold softOn
    rw [AddEquiv.apply_symm_apply]
    exact h0
  refine ⟨softOn (euclid (Fin 3) ℂ) (fun _ => 1), (C153_exact (euclid (Fin 3) ℂ) (fun v => v) (fun v => v) y
    (fun _ _ => rfl) (fun _ _ => rfl) 1 (fun v => by simp) (fun _ => 1) (fun _ => zero_le_one) _ (fun v c hc => ?_) x0
    (3 / 2) () (by norm_num) (by norm_num) (softOn (euclid (Fin 3) ℂ) (fun _ => 1) y 1)
    (denoise_minimises (euclid (Fin 3) ℂ) (fun _ => 1) (fun _ => zero_le_one) y) i h1 ?_).2.2⟩
  · unfold softOn
    rw [AddEquiv.apply_symm_apply]
    exact softExact_unique_prox _ (fun _ => by linarith) _
  · show ‖(euclid (Fin 3) ℂ).arr (softOn (euclid (Fin 3) ℂ) (fun _ => 1) y 1 - y) i‖ < 1
    rw [map_sub, Pi.sub_apply, h1, zero_sub, norm_neg]
    exact hi

/-- The operator of the package is one to which the first theorem applies. -/
example (y x0 : EuclideanSpace ℝ (Fin 3)) (n : ℕ) : ∃ prox : EuclideanSpace ℝ (Fin 3) → ℝ → EuclideanSpace ℝ (Fin 3),
    (∀ v c, sparseOp (fun _ => 1) "soft" ((euclid (Fin 3) ℝ).arr v) c = .ok ((euclid (Fin 3) ℝ).arr (prox v c))) ∧
    ∀ i, (euclid (Fin 3) ℝ).arr (softOn (euclid (Fin 3) ℝ) (fun _ => 1) y 1) i = 0 →
      ‖(euclid (Fin 3) ℝ).arr (gradBasic (fun v => v) (fun v => v) y (softOn (euclid (Fin 3) ℝ) (fun _ => 1) y 1)) i‖ ≤ 1 := by
  obtain ⟨prox, hp⟩ := exists_prox (𝕜 := ℝ) (fun _ : Fin 3 => 1)
  exact ⟨prox, hp, (C153_false_nonzeros (euclid (Fin 3) ℝ) (fun v => v) (fun v => v) y (fun _ _ => rfl)
    (fun _ _ => rfl) 1 (fun v => by simp) (fun _ => 1) (fun _ => zero_le_one) prox hp x0 1 () one_pos (by norm_num) _
    (denoise_minimises (euclid (Fin 3) ℝ) (fun _ => 1) (fun _ => zero_le_one) y) n).1⟩

end Verif
