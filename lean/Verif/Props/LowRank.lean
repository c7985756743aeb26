import Verif.Props.Svd
import Verif.Spec.Prox

/-!
# C94, C95: nuclear norm and the low-rank proximity operator
-/

set_option linter.unusedSectionVars false

namespace Verif
open Matrix Noise Spec Svd

variable {M N : ℕ} {𝕜 : Type} [RCLike 𝕜]

/-! ## C95 -/

/-- C95: `nuclear_norm` returns the nuclear norm, defined without singular values as the dual of the
spectral norm. -/
theorem C95_nuclear_norm_is_dual_norm {svd : Matrix (Fin M) (Fin N) 𝕜 → Dec M N 𝕜}
    (hs : CorrectSvd svd) (A : Matrix (Fin M) (Fin N) 𝕜) :
    Svd.nuclearNorm svd A = Spec.nuclearNorm A := (nuclearNorm_eq_sum (hs A)).symm

/-- C95: the value does not depend on which singular value decomposition the external routine returns. -/
theorem C95_independent_of_decomposition {svd svd' : Matrix (Fin M) (Fin N) 𝕜 → Dec M N 𝕜}
    (hs : CorrectSvd svd) (hs' : CorrectSvd svd') (A : Matrix (Fin M) (Fin N) 𝕜) :
    Svd.nuclearNorm svd A = Svd.nuclearNorm svd' A := by
  rw [C95_nuclear_norm_is_dual_norm hs, C95_nuclear_norm_is_dual_norm hs']

/-- C95: `nuclear_norm` is a norm: non-negative, zero only on the zero matrix, absolutely homogeneous and
subadditive. -/
theorem C95_nuclear_norm_is_a_norm {svd : Matrix (Fin M) (Fin N) 𝕜 → Dec M N 𝕜} (hs : CorrectSvd svd)
    (A B : Matrix (Fin M) (Fin N) 𝕜) (c : 𝕜) :
    0 ≤ Svd.nuclearNorm svd A ∧
    (Svd.nuclearNorm svd A = 0 ↔ A = 0) ∧
    Svd.nuclearNorm svd (c • A) = ‖c‖ * Svd.nuclearNorm svd A ∧
    Svd.nuclearNorm svd (A + B) ≤ Svd.nuclearNorm svd A + Svd.nuclearNorm svd B := by
  have hadd : ∀ G X Y : Matrix (Fin M) (Fin N) 𝕜, frobInner G (X + Y) = frobInner G X + frobInner G Y := by
    intro G X Y
    simp only [frobInner_eq_trace, Matrix.mul_add, trace_add, map_add]
  refine ⟨?_, ⟨fun h => ?_, fun h => ?_⟩, ?_, ?_⟩
  · rw [C95_nuclear_norm_is_dual_norm hs]; exact nuclearNorm_nonneg A
  · have h0 : ∀ i, (svd A).s i = 0 := by
      have := (Finset.sum_eq_zero_iff_of_nonneg fun i _ => (hs A).nonneg i).1 h
      exact fun i => this i (Finset.mem_univ i)
    rw [(hs A).factor]
    have : (fun i => (((svd A).s i : ℝ) : 𝕜)) = fun _ => 0 := by funext i; rw [h0]; simp
    rw [this]; simp
  · rw [C95_nuclear_norm_is_dual_norm hs, h]
    refine le_antisymm (csSup_le ⟨_, 0, isContraction_zero, rfl⟩ ?_) (nuclearNorm_nonneg _)
    rintro c ⟨G, _, rfl⟩
    simp [frobInner]
  · rw [C95_nuclear_norm_is_dual_norm hs, C95_nuclear_norm_is_dual_norm hs]
    -- one inequality for all scalars
    have key : ∀ (c : 𝕜) (X : Matrix (Fin M) (Fin N) 𝕜),
        Spec.nuclearNorm (c • X) ≤ ‖c‖ * Spec.nuclearNorm X := by
      intro c X
      refine csSup_le ⟨_, 0, isContraction_zero, rfl⟩ ?_
      rintro a ⟨G, hG, rfl⟩
      rcases eq_or_ne c 0 with rfl | hc
      · simp [frobInner]
      have hn : ‖c‖ ≠ 0 := norm_ne_zero_iff.2 hc
      -- rotate the contraction by the phase of `c`
      let w : 𝕜 := star c / ((‖c‖ : ℝ) : 𝕜)
      have hw : ‖w‖ = 1 := by
        simp only [w, norm_div, norm_star, RCLike.norm_ofReal, abs_norm]; exact div_self hn
      have hG' : IsContraction (w • G) := by
        intro x y
        have e : ∑ i, ∑ j, star (x i) * (w • G) i j * y j = w * ∑ i, ∑ j, star (x i) * G i j * y j := by
          simp only [Finset.mul_sum, Matrix.smul_apply, smul_eq_mul]
          refine Finset.sum_congr rfl fun i _ => Finset.sum_congr rfl fun j _ => by ring
        rw [e, norm_mul, hw, one_mul]; exact hG x y
      have e : frobInner G (c • X) = ‖c‖ * frobInner (w • G) X := by
        unfold frobInner
        simp only [Finset.mul_sum]
        refine Finset.sum_congr rfl fun i _ => Finset.sum_congr rfl fun j _ => ?_
        rw [← RCLike.re_ofReal_mul]
        congr 1
        have hc' : ((‖c‖ : ℝ) : 𝕜) ≠ 0 := by exact_mod_cast hn
        simp only [Matrix.smul_apply, smul_eq_mul, star_mul', w, star_div₀, star_star]
        have e2 : star ((‖c‖ : ℝ) : 𝕜) = ((‖c‖ : ℝ) : 𝕜) := by simp
        rw [e2]
        field_simp
      rw [e]
      exact mul_le_mul_of_nonneg_left (frobInner_le_nuclearNorm X _ hG') (norm_nonneg c)
    refine le_antisymm (key c A) ?_
    rcases eq_or_ne c 0 with rfl | hc
    · rw [norm_zero, zero_mul]; exact nuclearNorm_nonneg _
    · have h1 := key c⁻¹ (c • A)
      rw [smul_smul, inv_mul_cancel₀ hc, one_smul, norm_inv] at h1
      have hp : 0 < ‖c‖ := norm_pos_iff.2 hc
      have := mul_le_mul_of_nonneg_left h1 hp.le
      rwa [← mul_assoc, mul_inv_cancel₀ hp.ne', one_mul] at this
  · simp only [C95_nuclear_norm_is_dual_norm hs]
    refine csSup_le ⟨_, 0, isContraction_zero, rfl⟩ ?_
    rintro a ⟨G, hG, rfl⟩
    rw [hadd]
    exact add_le_add (frobInner_le_nuclearNorm A G hG) (frobInner_le_nuclearNorm B G hG)

/-- C95: `nuclear_norm` is invariant under unitary changes of basis on either side. -/
theorem C95_unitarily_invariant {svd : Matrix (Fin M) (Fin N) 𝕜 → Dec M N 𝕜} (hs : CorrectSvd svd)
    (A : Matrix (Fin M) (Fin N) 𝕜) (P : Matrix (Fin M) (Fin M) 𝕜) (Q : Matrix (Fin N) (Fin N) 𝕜)
    (hP : Pᴴ * P = 1) (hQ : Q * Qᴴ = 1) :
    Svd.nuclearNorm svd (P * A * Q) = Svd.nuclearNorm svd A := by
  have h : IsSVD (P * A * Q) (P * (svd A).u) (svd A).s ((svd A).v * Q) := by
    refine ⟨?_, ?_, ?_, (hs A).nonneg, (hs A).anti⟩
    · conv_lhs => rw [(hs A).factor]
      simp only [Matrix.mul_assoc]
    · rw [conjTranspose_mul, Matrix.mul_assoc, ← Matrix.mul_assoc Pᴴ, hP, Matrix.one_mul, (hs A).left]
    · rw [conjTranspose_mul, Matrix.mul_assoc, ← Matrix.mul_assoc Q, hQ, Matrix.one_mul, (hs A).right]
  rw [C95_nuclear_norm_is_dual_norm hs, nuclearNorm_eq_sum h]; rfl

/-! ## C94 -/

theorem halfSqDist_toMatrix (x u : Fin N × Fin M → 𝕜) :
    halfSqDist x u = 1 / 2 * frobSq (toMatrix (fun k i => x (k, i)) - toMatrix fun k i => u (k, i)) := by
  unfold halfSqDist frobSq
  rw [Fintype.sum_prod_type, Finset.sum_comm]
  rfl

/-- C94: with `extra_factor = c`, soft `LowRankMatrix.op` (standard mode, no rank estimate) is, up to the
rounding inside `thresh`, the proximity operator of `c` times the object's own cost: there is exactly one
minimiser `p` of `½‖x - u‖² + c · cost(u)`, and the squared distance from the returned stack to `p` is at
most `min(M, N) · (2⁻⁵² + 10⁻¹⁵)²`.  The object is left unchanged. -/
theorem C94_low_rank_op_is_prox_of_its_cost {svd svd' : Matrix (Fin M) (Fin N) 𝕜 → Dec M N 𝕜}
    (hs : CorrectSvd svd) (hs' : CorrectSvd svd')
    (auto : Matrix (Fin M) (Fin (min M N)) 𝕜 → Py ℕ)
    (svds : Matrix (Fin M) (Fin N) 𝕜 → ℕ → PartialDec M N 𝕜) (fuel : ℕ) (o : LowRank M N 𝕜)
    (ho : o.lowrType = "standard") (hr : o.rank = none) (ht : o.threshType = "soft")
    (hthr : 0 ≤ o.thresh) (c : ℝ) (hc : 0 ≤ c) (x : Fin N → Fin M → 𝕜) :
    ∃ y p : Fin N → Fin M → 𝕜,
      lowRankOp svd auto svds fuel o x c none = (some (.ok y), o) ∧
      IsUniqueProx (fun u : Fin N × Fin M → 𝕜 => c * lowRankCost svd' o fun k i => u (k, i))
        (fun q => x q.1 q.2) (fun q => p q.1 q.2) ∧
      ∑ k, ∑ i, ‖y k i - p k i‖ ^ 2 ≤ (min M N : ℕ) * (2⁻¹ ^ 52 + 1 / 10 ^ 15) ^ 2 := by
  have htc : 0 ≤ o.thresh * c := mul_nonneg hthr hc
  set A := toMatrix x with hA
  obtain ⟨sNew, hsN, hclose⟩ := thresh_soft_close (svd A).s (hs A).nonneg (fun _ => o.thresh * c) (fun _ => htc)
  set Z : Matrix (Fin M) (Fin N) 𝕜 :=
    (svd A).u * diagonal (fun i => ((max ((svd A).s i - o.thresh * c) 0 : ℝ) : 𝕜)) * (svd A).v with hZ
  refine ⟨toCube ((svd A).u * (diagonal (fun i => (sNew i : 𝕜)) * (svd A).v)), toCube Z, ?_, ?_, ?_⟩
  · simp [lowRankOp, ho, hr, svdThresh, NPc.invalid, calculateSvd, thresholdFor, ht, ← hA, bind,
      Except.bind, hsN, Except.map]
  · have hcost : ∀ u : Fin N × Fin M → 𝕜, c * lowRankCost svd' o (fun k i => u (k, i)) =
        (o.thresh * c) * Spec.nuclearNorm (toMatrix fun k i => u (k, i)) := by
      intro u
      rw [lowRankCost, C95_nuclear_norm_is_dual_norm hs']; ring
    have hp : ∀ u : Fin N × Fin M → 𝕜,
        halfSqDist (fun q : Fin N × Fin M => x q.1 q.2) (fun q => toCube Z q.1 q.2)
          + c * lowRankCost svd' o (toCube Z)
          + 1 / 2 * frobSq (Z - toMatrix fun k i => u (k, i)) ≤
        halfSqDist (fun q : Fin N × Fin M => x q.1 q.2) u + c * lowRankCost svd' o fun k i => u (k, i) := by
      intro u
      have := nuclear_prox (hs A) (o.thresh * c) htc (toMatrix fun k i => u (k, i))
      rw [hcost, halfSqDist_toMatrix, halfSqDist_toMatrix]
      have e := hcost (fun q => toCube Z q.1 q.2)
      simp only at e
      rw [e]
      exact this
    refine ⟨fun u => ?_, fun q hq => ?_⟩
    · have := hp u
      have h0 := frobSq_nonneg (Z - toMatrix fun k i => u (k, i))
      linarith
    · have h1 := hp q
      have h2 := hq fun q => toCube Z q.1 q.2
      have h3 : frobSq (Z - toMatrix fun k i => q (k, i)) ≤ 0 := by linarith
      have h4 : frobSq (Z - toMatrix fun k i => q (k, i)) = 0 := le_antisymm h3 (frobSq_nonneg _)
      unfold frobSq at h4
      funext ⟨k, i⟩
      have h5 := (Finset.sum_eq_zero_iff_of_nonneg fun i _ => by positivity).1 h4 i (Finset.mem_univ i)
      have h6 := (Finset.sum_eq_zero_iff_of_nonneg fun i _ => by positivity).1 h5 k (Finset.mem_univ k)
      have h7 : (Z - toMatrix fun k i => q (k, i)) i k = 0 := by
        simpa using h6
      rw [Matrix.sub_apply, sub_eq_zero] at h7
      exact h7.symm
  · have e : ∑ k, ∑ i, ‖toCube ((svd A).u * (diagonal (fun i => (sNew i : 𝕜)) * (svd A).v)) k i
        - toCube Z k i‖ ^ 2 = frobSq ((svd A).u * diagonal (fun i => (sNew i : 𝕜)) * (svd A).v - Z) := by
      unfold frobSq
      rw [Finset.sum_comm, factor_assoc]; rfl
    rw [e, hZ, ← Matrix.sub_mul, ← Matrix.mul_sub, diagonal_sub, frobSq_mul_right _ (hs A).right,
      frobSq_mul_left _ (hs A).left, frobSq_diagonal]
    calc _ ≤ ∑ _i : Fin (min M N), ((2⁻¹ ^ 52 + 1 / 10 ^ 15) ^ 2 : ℝ) := by
          refine Finset.sum_le_sum fun i _ => ?_
          rw [← RCLike.ofReal_sub, RCLike.norm_ofReal]
          exact pow_le_pow_left₀ (abs_nonneg _) (hclose i) 2
      _ = _ := by rw [Finset.sum_const, Finset.card_univ, Fintype.card_fin, nsmul_eq_mul]

/-- C94: the cost is `threshold` times the nuclear norm of the matrix whose columns are the images. -/
theorem C94_cost_is_weighted_nuclear_norm {svd : Matrix (Fin M) (Fin N) 𝕜 → Dec M N 𝕜}
    (hs : CorrectSvd svd) (o : LowRank M N 𝕜) (x : Fin N → Fin M → 𝕜) :
    lowRankCost svd o x = o.thresh * Spec.nuclearNorm (Matrix.of fun i k => x k i) := by
  rw [lowRankCost, C95_nuclear_norm_is_dual_norm hs]; rfl

/-- C94: a `lowr_type` other than `'standard'` and `'ngole'` raises `ValueError`. -/
theorem C94_unknown_type_rejected (svd : Matrix (Fin M) (Fin N) 𝕜 → Dec M N 𝕜)
    (auto : Matrix (Fin M) (Fin (min M N)) 𝕜 → Py ℕ)
    (svds : Matrix (Fin M) (Fin N) 𝕜 → ℕ → PartialDec M N 𝕜) (fuel : ℕ) (o : LowRank M N 𝕜)
    (h1 : o.lowrType ≠ "standard") (h2 : o.lowrType ≠ "ngole") (x : Fin N → Fin M → 𝕜) (c : ℝ)
    (rank : Option ℤ) : lowRankOp svd auto svds fuel o x c rank = (some (.error .valueError), o) := by
  simp [lowRankOp, h1, h2]

/-- The hypotheses of the prox theorem hold for the default object with threshold 10 on every shape. -/
example : ∃ (svd : Matrix (Fin 9) (Fin 4) ℝ → Dec 9 4 ℝ) (o : LowRank 9 4 ℝ), CorrectSvd svd ∧
    o.lowrType = "standard" ∧ o.rank = none ∧ o.threshType = "soft" ∧ 0 < o.thresh := by
  obtain ⟨svd, h⟩ := exists_correctSvd 9 4 ℝ
  exact ⟨svd, ⟨10, "soft", "standard", none, none⟩, h, rfl, rfl, rfl, by norm_num⟩

end Verif
