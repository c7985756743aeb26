import Verif.Model.Noise
import Verif.Lemmas.Shrink
import Mathlib.Analysis.InnerProductSpace.Basic
import Mathlib.Data.Rat.Floor

/-!
# C27, C28, C76: thresholding and noise
-/

set_option linter.unusedSectionVars false

namespace Verif
open Noise Spec

variable {ι : Type*} {𝕜 : Type*} [RCLike 𝕜]

theorem eps64_pos : 0 < eps64 := by unfold eps64; positivity

/-! ## Lemmas -/

/-- The textbook soft threshold of one entry: the norm is reduced by `t`, entries of norm at most `t`
vanish. -/
noncomputable def softExact (t : ℝ) (x : 𝕜) : 𝕜 := (max (1 - t / ‖x‖) 0 : ℝ) • x

theorem softRaw_eq_smul (x : ι → 𝕜) (t : ι → ℝ) (i : ι) :
    softRaw x t i = softFactor (t i) ‖x i‖ • x i := by
  unfold softRaw; rw [RCLike.real_smul_eq_coe_mul]

theorem softRaw_eq_softExact (x : ι → 𝕜) (t : ι → ℝ) (i : ι)
    (h : eps64 ≤ ‖x i‖ ∨ eps64 ≤ t i ∨ t i = 0) : softRaw x t i = softExact (t i) (x i) := by
  rw [softRaw_eq_smul]
  unfold softExact softFactor
  rcases le_or_gt eps64 ‖x i‖ with h1 | h1
  · rw [max_eq_right h1]
  · rw [max_eq_left h1.le]
    rcases h with h | h | h
    · exact absurd h (not_le.2 h1)
    · have e1 : 1 - t i / eps64 ≤ 0 := by
        rw [sub_nonpos, le_div_iff₀ eps64_pos]; linarith
      rw [max_eq_right e1, zero_smul]
      rcases eq_or_ne (x i) 0 with h0 | h0
      · rw [h0, smul_zero]
      · have hn : 0 < ‖x i‖ := norm_pos_iff.2 h0
        have e2 : 1 - t i / ‖x i‖ ≤ 0 := by rw [sub_nonpos, le_div_iff₀ hn]; linarith
        rw [max_eq_right e2, zero_smul]
    · simp [h]

theorem softFactor_nonneg (t r : ℝ) : 0 ≤ softFactor t r := le_max_right _ _

theorem softFactor_le_one (t r : ℝ) (ht : 0 ≤ t) : softFactor t r ≤ 1 := by
  unfold softFactor
  have : 0 < max eps64 r := lt_of_lt_of_le eps64_pos (le_max_left _ _)
  apply max_le _ zero_le_one
  rw [sub_le_self_iff]
  positivity

theorem norm_softExact_le (t : ℝ) (ht : 0 ≤ t) (x : 𝕜) : ‖softExact t x‖ ≤ ‖x‖ := by
  unfold softExact
  rw [norm_smul, Real.norm_of_nonneg (le_max_right _ _)]
  have : max (1 - t / ‖x‖) 0 ≤ 1 := by
    apply max_le _ zero_le_one
    rw [sub_le_self_iff]; positivity
  calc _ ≤ 1 * ‖x‖ := by gcongr
    _ = ‖x‖ := one_mul _

theorem norm_aroundK_sub_le (z : 𝕜) : ‖aroundK 15 z - z‖ ≤ 1 / 10 ^ 15 := by
  have e : aroundK 15 z - z = ((around 15 (RCLike.re z) - RCLike.re z : ℝ) : 𝕜)
      + ((around 15 (RCLike.im z) - RCLike.im z : ℝ) : 𝕜) * RCLike.I := by
    have hz := RCLike.re_add_im z
    unfold aroundK
    push_cast
    linear_combination hz
  rw [e]
  have h1 := abs_around_sub_le 15 (RCLike.re z)
  have h2 := abs_around_sub_le 15 (RCLike.im z)
  calc _ ≤ ‖((around 15 (RCLike.re z) - RCLike.re z : ℝ) : 𝕜)‖
        + ‖((around 15 (RCLike.im z) - RCLike.im z : ℝ) : 𝕜) * RCLike.I‖ := norm_add_le _ _
    _ ≤ 1 / 2 / 10 ^ 15 + 1 / 2 / 10 ^ 15 * 1 := by
        rw [norm_mul, RCLike.norm_ofReal, RCLike.norm_ofReal]
        gcongr
        rcases eq_or_ne (RCLike.I : 𝕜) 0 with h0 | h0
        · rw [h0, norm_zero]; exact zero_le_one
        · exact (RCLike.norm_I_of_ne_zero h0).le
    _ = 1 / 10 ^ 15 := by ring

/-! ## C27 -/

/-- C27: before the final rounding, soft thresholding is exactly the (unique) proximity operator of
the weighted `ℓ₁` norm `u ↦ ∑ tᵢ|uᵢ|`, for real and for complex arrays of any shape, as soon as each
entry or its threshold is zero or not below the machine epsilon `2⁻⁵²` used as a denominator guard. -/
theorem C27_soft_is_prox_of_weighted_l1 [Fintype ι] (x : ι → 𝕜) (t : ι → ℝ) (ht : ∀ i, 0 ≤ t i)
    (h : ∀ i, eps64 ≤ ‖x i‖ ∨ eps64 ≤ t i ∨ t i = 0) :
    IsUniqueProx (fun u => ∑ i, t i * ‖u i‖) x (softRaw x t) := by
  apply isUniqueProx_of_coord (fun i v => t i * ‖v‖)
  intro i v
  rw [softRaw_eq_softExact x t i (h i)]
  exact strong_of_subgradient (fun v => t i * ‖v‖) _ _ (shrink_subgradient (t i) (ht i) (x i)) v

/-- C27: the value returned by `thresh(x, t, 'soft')` is within `2⁻⁵² + 10⁻¹⁵` of the exact proximity
operator in every entry, for all inputs. -/
theorem C27_returned_value_close_to_prox [Fintype ι] (x : ι → 𝕜) (t : ι → ℝ) (ht : ∀ i, 0 ≤ t i) :
    ∃ out p, thresh x t "soft" = .ok out ∧ IsUniqueProx (fun u => ∑ i, t i * ‖u i‖) x p ∧
      ∀ i, ‖out i - p i‖ ≤ 2⁻¹ ^ 52 + 1 / 10 ^ 15 := by
  refine ⟨fun i => aroundK 15 (softRaw x t i), fun i => softExact (t i) (x i), by simp [thresh], ?_, ?_⟩
  · apply isUniqueProx_of_coord (fun i v => t i * ‖v‖)
    intro i v
    exact strong_of_subgradient (fun v => t i * ‖v‖) _ _ (shrink_subgradient (t i) (ht i) (x i)) v
  · intro i
    have h1 := norm_aroundK_sub_le (softRaw x t i)
    have h2 : ‖softRaw x t i - softExact (t i) (x i)‖ ≤ 2⁻¹ ^ 52 := by
      rcases le_or_gt eps64 ‖x i‖ with h | h
      · rw [softRaw_eq_softExact x t i (Or.inl h), sub_self, norm_zero]; positivity
      · rw [softRaw_eq_smul]
        unfold softExact
        rw [← sub_smul, norm_smul]
        have a0 := softFactor_nonneg (t i) ‖x i‖
        have a1 := softFactor_le_one (t i) ‖x i‖ (ht i)
        have b0 : 0 ≤ max (1 - t i / ‖x i‖) 0 := le_max_right _ _
        have b1 : max (1 - t i / ‖x i‖) 0 ≤ 1 := by
          apply max_le _ zero_le_one
          rw [sub_le_self_iff]; exact div_nonneg (ht i) (norm_nonneg _)
        have : ‖softFactor (t i) ‖x i‖ - max (1 - t i / ‖x i‖) 0‖ ≤ 1 := by
          rw [Real.norm_eq_abs, abs_le]; constructor <;> linarith
        calc _ ≤ 1 * eps64 := mul_le_mul this h.le (norm_nonneg _) zero_le_one
          _ = 2⁻¹ ^ 52 := by rw [one_mul]; rfl
    calc _ = ‖(aroundK 15 (softRaw x t i) - softRaw x t i)
          + (softRaw x t i - softExact (t i) (x i))‖ := by congr 1; ring
      _ ≤ _ := norm_add_le _ _
      _ ≤ _ := by linarith

/-- C27: for real data, the unrounded result is the documented formula: `x - t` above `t`, `x + t`
below `-t`, zero in between. -/
theorem C27_soft_formula (x t : ι → ℝ) (i : ι) (ht : 0 ≤ t i)
    (h : eps64 ≤ |x i| ∨ eps64 ≤ t i ∨ t i = 0) :
    softRaw x t i = if t i ≤ x i then x i - t i else if x i ≤ -t i then x i + t i else 0 := by
  rw [softRaw_eq_softExact x t i h]
  unfold softExact
  rw [smul_eq_mul, Real.norm_eq_abs]
  generalize x i = a at *
  generalize t i = b at *
  rcases eq_or_ne a 0 with rfl | ha
  · simp only [mul_zero]
    split_ifs with c1 c2
    · linarith
    · linarith
    · rfl
  · have hp : 0 < |a| := abs_pos.2 ha
    rcases le_or_gt b |a| with hb | hb
    · have : 0 ≤ 1 - b / |a| := by rw [sub_nonneg, div_le_one hp]; exact hb
      rw [max_eq_left this]
      rcases lt_or_gt_of_ne ha with h1 | h1
      · rw [abs_of_neg h1] at hb ⊢
        have c1 : ¬ b ≤ a := by linarith
        have c2 : a ≤ -b := by linarith
        rw [if_neg c1, if_pos c2]; field_simp; ring
      · rw [abs_of_pos h1] at hb ⊢
        rw [if_pos hb]; field_simp
    · have : 1 - b / |a| ≤ 0 := by rw [sub_nonpos, le_div_iff₀ hp]; linarith
      rw [max_eq_right this, zero_mul]
      have h2 := abs_lt.1 hb
      rw [if_neg (by linarith), if_neg (by linarith)]

/-- C27: the returned value is an odd function of the data, rounding included. -/
theorem C27_soft_odd (x : ι → 𝕜) (t : ι → ℝ) (out : ι → 𝕜) (h : thresh x t "soft" = .ok out) :
    thresh (fun i => -x i) t "soft" = .ok (fun i => -out i) := by
  simp only [thresh] at h ⊢
  simp at h ⊢
  subst h
  funext i
  have : softRaw (fun i => -x i) t i = -softRaw x t i := by simp [softRaw]
  rw [this]
  simp only [aroundK, map_neg, around_neg]
  ring

/-- C27: soft thresholding never increases a magnitude. -/
theorem C27_soft_shrinks (x : ι → 𝕜) (t : ι → ℝ) (i : ι) (ht : 0 ≤ t i) :
    ‖softRaw x t i‖ ≤ ‖x i‖ := by
  rw [softRaw_eq_smul, norm_smul, Real.norm_of_nonneg (softFactor_nonneg _ _)]
  calc _ ≤ 1 * ‖x i‖ := by gcongr; exact softFactor_le_one _ _ ht
    _ = ‖x i‖ := one_mul _

theorem softFactor_mul (t r : ℝ) (hr : 0 ≤ r) :
    softFactor t r * r = max (r - t * (r / max eps64 r)) 0 := by
  unfold softFactor
  rw [max_mul_of_nonneg _ _ hr, zero_mul]
  congr 1
  ring

/-- C27: soft thresholding (unrounded) is non-expansive in every entry, for all data. -/
theorem C27_soft_nonexpansive (x y : ι → 𝕜) (t : ι → ℝ) (i : ι) (ht : 0 ≤ t i) :
    ‖softRaw x t i - softRaw y t i‖ ≤ ‖x i - y i‖ := by
  rw [softRaw_eq_smul, softRaw_eq_smul]
  apply radial_nonexpansive (softFactor (t i)) (fun r _ => softFactor_nonneg _ _)
    (fun r _ => softFactor_le_one _ _ ht)
  have he := eps64_pos
  -- the radial profile is monotone and grows at most as fast as the identity
  have mono : ∀ r s, 0 ≤ r → r ≤ s →
      softFactor (t i) r * r ≤ softFactor (t i) s * s ∧
      softFactor (t i) s * s - softFactor (t i) r * r ≤ s - r := by
    intro r s hr hrs
    have hs : 0 ≤ s := hr.trans hrs
    generalize t i = b at *
    have m1 : softFactor b r ≤ softFactor b s := by
      unfold softFactor
      have : max eps64 r ≤ max eps64 s := max_le_max le_rfl hrs
      have hp : 0 < max eps64 r := lt_of_lt_of_le he (le_max_left _ _)
      gcongr
    refine ⟨mul_le_mul m1 hrs hr (softFactor_nonneg _ _), ?_⟩
    rw [softFactor_mul b r hr, softFactor_mul b s hs]
    have m2 : r / max eps64 r ≤ s / max eps64 s := by
      have hp : 0 < max eps64 r := lt_of_lt_of_le he (le_max_left _ _)
      have hq : 0 < max eps64 s := lt_of_lt_of_le he (le_max_left _ _)
      rw [div_le_div_iff₀ hp hq]
      rcases le_total eps64 r with h | h
      · rw [max_eq_right h, max_eq_right (h.trans hrs)]; linarith
      · rw [max_eq_left h]
        rcases le_total eps64 s with h' | h'
        · rw [max_eq_right h']; nlinarith
        · rw [max_eq_left h']; nlinarith
    have m3 : b * (r / max eps64 r) ≤ b * (s / max eps64 s) := mul_le_mul_of_nonneg_left m2 ht
    generalize b * (r / max eps64 r) = A at *
    generalize b * (s / max eps64 s) = B at *
    have h1 := le_max_left (r - A) 0
    have h2 := le_max_right (r - A) 0
    rcases le_total (s - B) 0 with h | h
    · rw [max_eq_right h]; linarith
    · rw [max_eq_left h]; linarith
  intro r s hr hs
  rcases le_total r s with h | h
  · obtain ⟨h1, h2⟩ := mono r s hr h
    rw [abs_sub_comm, abs_of_nonneg (by linarith), abs_sub_comm, abs_of_nonneg (by linarith)]
    exact h2
  · obtain ⟨h1, h2⟩ := mono s r hs h
    rw [abs_of_nonneg (by linarith), abs_of_nonneg (by linarith)]
    exact h2

/-! ## C28 -/

/-- C28: hard thresholding keeps exactly the entries whose magnitude reaches the threshold. -/
theorem C28_hard_keeps_or_kills (x : ι → 𝕜) (t : ι → ℝ) :
    ∃ out, thresh x t "hard" = .ok out ∧
      ∀ i, (t i ≤ ‖x i‖ → out i = x i) ∧ (‖x i‖ < t i → out i = 0) := by
  refine ⟨hardThresh x t, by simp [thresh], fun i => ⟨fun h => ?_, fun h => ?_⟩⟩
  · simp [hardThresh, h]
  · simp [hardThresh, not_le.2 h]

/-- C28: hard thresholding minimises `½‖x-u‖² + ∑ (tᵢ²/2)·[uᵢ ≠ 0]` over all arrays `u`. -/
theorem C28_hard_is_l0_prox [Fintype ι] (x : ι → 𝕜) (t : ι → ℝ) (ht : ∀ i, 0 ≤ t i) :
    ∃ out, thresh x t "hard" = .ok out ∧
      IsProx (fun u => ∑ i, if u i = 0 then 0 else t i ^ 2 / 2) x out := by
  refine ⟨hardThresh x t, by simp [thresh], fun u => ?_⟩
  unfold halfSqDist
  rw [Finset.mul_sum, Finset.mul_sum, ← Finset.sum_add_distrib, ← Finset.sum_add_distrib]
  refine Finset.sum_le_sum fun i _ => ?_
  have hu : 0 ≤ ‖x i - u i‖ ^ 2 := sq_nonneg _
  have hx : 0 ≤ ‖x i‖ ^ 2 := sq_nonneg _
  have ht2 : 0 ≤ t i ^ 2 := sq_nonneg _
  by_cases h : t i ≤ ‖x i‖
  · have hsq : t i ^ 2 ≤ ‖x i‖ ^ 2 := by have := ht i; gcongr
    have e : hardThresh x t i = x i := by simp [hardThresh, h]
    rw [e, sub_self, norm_zero]
    split_ifs with h1 h2 h2
    · linarith
    · linarith
    · rw [h2, sub_zero]; linarith
    · linarith
  · have hlt := not_le.1 h
    have hsq : ‖x i‖ ^ 2 ≤ t i ^ 2 := by gcongr
    have e : hardThresh x t i = 0 := by simp [hardThresh, h]
    rw [e, sub_zero, if_pos rfl]
    split_ifs with h2
    · rw [h2, sub_zero]
    · linarith

/-- C28: hard thresholding is idempotent, for every threshold. -/
theorem C28_hard_idempotent (x : ι → 𝕜) (t : ι → ℝ) (out : ι → 𝕜)
    (h : thresh x t "hard" = .ok out) : thresh out t "hard" = .ok out := by
  simp [thresh] at h ⊢
  subst h
  funext i
  by_cases hi : t i ≤ ‖x i‖
  · simp [hardThresh, hi]
  · simp [hardThresh, hi]

/-- C28: any other threshold type raises `ValueError`. -/
theorem C28_invalid_type_rejected (x : ι → 𝕜) (t : ι → ℝ) (s : String) (h1 : s ≠ "hard")
    (h2 : s ≠ "soft") : thresh x t s = .error .valueError := by
  simp [thresh, h1, h2]

section Examples
/-- `[3, -1/2, 0]` with threshold 1 meets the hypotheses of the prox theorem. -/
example : softRaw (![3, -1/2, 0] : Fin 3 → ℝ) (fun _ => 1) = ![2, 0, 0] := by
  funext i
  rw [C27_soft_formula _ _ _ (by norm_num) (Or.inr (Or.inl (by unfold eps64; norm_num)))]
  fin_cases i <;> norm_num
example : IsUniqueProx (fun u : Fin 3 → ℝ => ∑ i, 1 * ‖u i‖) ![3, -1/2, 0]
    (softRaw ![3, -1/2, 0] (fun _ => 1)) :=
  C27_soft_is_prox_of_weighted_l1 _ (fun _ => 1) (by norm_num)
    (fun _ => Or.inr (Or.inl (by unfold eps64; norm_num)))
example : ∃ out, thresh (![-4, 2, 3, -1, 4] : Fin 5 → ℝ) (fun _ => 4) "hard" = .ok out ∧
    out 0 = -4 ∧ out 1 = 0 ∧ out 4 = 4 := by
  obtain ⟨out, h1, h2⟩ := C28_hard_keeps_or_kills (![-4, 2, 3, -1, 4] : Fin 5 → ℝ) (fun _ => 4)
  refine ⟨out, h1, (h2 0).1 ?_, (h2 1).2 ?_, (h2 4).1 ?_⟩ <;> (norm_num; try simp)
end Examples

/-! ## C76 -/

/-- C76: with a scalar `sigma`, `add_noise` returns data plus `sigma` times the drawn noise, in every
entry; the Poisson draw is taken at the absolute values of the data. -/
theorem C76_scalar_sigma {n : ℕ} {κ : Type*} (data gauss : Stack n κ) (poisson : Stack n κ → Stack n κ)
    (s : ℝ) :
    (∃ out, addNoise data (.num s) "gauss" gauss poisson = .ok out ∧
      ∀ i k, out i k = data i k + s * gauss i k) ∧
    (∃ out, addNoise data (.num s) "poisson" gauss poisson = .ok out ∧
      ∀ i k, out i k = data i k + s * poisson (fun i k => |data i k|) i k) := by
  constructor
  · exact ⟨_, by simp [addNoise], fun _ _ => rfl⟩
  · exact ⟨_, by simp [addNoise], fun _ _ => rfl⟩

/-- C76: with a sequence, slice `i` gets noise scaled by `sigma[i]`; the call succeeds exactly when the
number of values matches the first dimension, and raises `ValueError` otherwise. -/
theorem C76_sequence_sigma {n : ℕ} {κ : Type*} (data gauss : Stack n κ)
    (poisson : Stack n κ → Stack n κ) (l : List ℝ) :
    (∀ h : l.length = n, ∃ out, addNoise data (.seq l) "gauss" gauss poisson = .ok out ∧
      ∀ i k, out i k = data i k + l[i]'(h ▸ i.2) * gauss i k) ∧
    (l.length ≠ n → addNoise data (.seq l) "gauss" gauss poisson = .error .valueError ∧
      addNoise data (.seq l) "poisson" gauss poisson = .error .valueError) := by
  constructor
  · intro h
    refine ⟨fun i k => data i k + l.getD i 0 * gauss i k, by simp [addNoise, h], fun i k => ?_⟩
    have : (i : ℕ) < l.length := h ▸ i.2
    simp [this]
  · intro h
    simp [addNoise, h]

/-- C76: a `sigma` that is neither a Python number nor a sequence (a NumPy scalar that is not a `float`, `None`) raises
`TypeError` for both types of noise. -/
theorem C76_other_sigma {n : ℕ} {κ : Type*} (data gauss : Stack n κ) (poisson : Stack n κ → Stack n κ) :
    addNoise data .other "gauss" gauss poisson = .error .typeError ∧
    addNoise data .other "poisson" gauss poisson = .error .typeError := by
  simp [addNoise]

/-- C76: noise types other than `gauss` and `poisson` raise `ValueError`, whatever `sigma`. -/
theorem C76_invalid_type {n : ℕ} {κ : Type*} (data gauss : Stack n κ)
    (poisson : Stack n κ → Stack n κ) (sigma : Sigma) (s : String) (h1 : s ≠ "gauss")
    (h2 : s ≠ "poisson") : addNoise data sigma s gauss poisson = .error .valueError := by
  simp [addNoise, h1, h2]

example : ∃ out, addNoise (fun (i : Fin 2) (_ : Unit) => (i : ℝ)) (.seq [1, 2]) "gauss" (fun _ _ => 3)
    id = .ok out ∧ out 1 () = 7 := by
  obtain ⟨out, h1, h2⟩ := (C76_sequence_sigma (fun (i : Fin 2) (_ : Unit) => (i : ℝ)) (fun _ _ => 3) id
    [1, 2]).1 rfl
  refine ⟨out, h1, ?_⟩
  rw [h2]; norm_num

end Verif
