import Verif.Model.Svd
import Verif.Lemmas.Svd
import Verif.Props.Noise

/-!
# C65, C66, C94, C95: singular value thresholding
-/

set_option linter.unusedSectionVars false

namespace Verif
open Matrix Noise Spec Svd

variable {M N : ℕ} {𝕜 : Type} [RCLike 𝕜]

/-- The external full decomposition is correct: it returns a singular value decomposition of every
matrix. -/
def CorrectSvd (svd : Matrix (Fin M) (Fin N) 𝕜 → Dec M N 𝕜) : Prop :=
  ∀ A, IsSVD A (svd A).u (svd A).s (svd A).v

/-- A correct decomposition routine exists, for all shapes. -/
theorem exists_correctSvd (M N : ℕ) (𝕜 : Type) [RCLike 𝕜] :
    ∃ svd : Matrix (Fin M) (Fin N) 𝕜 → Dec M N 𝕜, CorrectSvd svd := by
  choose U s V h using fun A : Matrix (Fin M) (Fin N) 𝕜 => exists_isSVD A
  exact ⟨fun A => ⟨U A, s A, V A⟩, h⟩

/-! ## Helper lemmas -/

theorem npIndex_ok {r : ℕ} (s : Fin r → ℝ) (k : ℕ) (h1 : 1 ≤ k) (h2 : k ≤ r) :
    npIndex s ((k : ℤ) - 1) = .ok (s ⟨k - 1, by omega⟩) := by
  have e : (if ((k : ℤ) - 1) < 0 then ((k : ℤ) - 1) + r else ((k : ℤ) - 1)) = (k : ℤ) - 1 := by
    rw [if_neg]; omega
  unfold npIndex
  rw [dif_pos (by rw [e]; omega)]
  congr 2
  apply Fin.ext
  simp only [e]; omega

theorem npIndex_last {r : ℕ} (s : Fin r → ℝ) (h : 0 < r) :
    npIndex s (-1) = .ok (s ⟨r - 1, by omega⟩) := by
  have e : (if (-1 : ℤ) < 0 then (-1 : ℤ) + r else -1) = (r : ℤ) - 1 := by
    rw [if_pos (by omega)]; ring
  unfold npIndex
  rw [dif_pos (by rw [e]; omega)]
  congr 2
  apply Fin.ext
  simp only [e]; omega

theorem thresh_hard {ι : Type*} (s : ι → ℝ) (t : ι → ℝ) :
    thresh s t "hard" = .ok (hardThresh s t) := by simp [thresh]

theorem hardThresh_nonneg {ι : Type*} (s t : ι → ℝ) (hs : ∀ i, 0 ≤ s i) (i : ι) :
    hardThresh s t i = if t i ≤ s i then s i else 0 := by
  unfold hardThresh
  rw [Real.norm_of_nonneg (hs i)]
  simp only [ge_iff_le]
  split_ifs <;> simp

theorem svdThresh_int_hard {svd : Matrix (Fin M) (Fin N) 𝕜 → Dec M N 𝕜} (hs : CorrectSvd svd)
    (auto : Matrix (Fin M) (Fin (min M N)) 𝕜 → Py ℕ) (A : Matrix (Fin M) (Fin N) 𝕜) (k : ℕ)
    (h1 : 1 ≤ k) (h2 : k ≤ min M N) :
    svdThresh svd auto (.mat A) none (.int k) "hard" =
      .ok ((svd A).u * (diagonal (fun i => ((if (svd A).s ⟨k - 1, by omega⟩ ≤ (svd A).s i
        then (svd A).s i else 0 : ℝ) : 𝕜)) * (svd A).v)) := by
  have e : (if (k : ℤ) ≥ (min M N : ℕ) then ((min M N : ℕ) : ℤ) else (k : ℤ)) = k := by
    split_ifs with h
    · omega
    · rfl
  have hi : NPc.invalid (.int (k : ℤ)) = false := by simp [NPc.invalid]; omega
  unfold svdThresh
  rw [hi]
  simp only [Bool.false_eq_true, if_false, calculateSvd, thresholdFor, resolveNPc, bind, Except.bind]
  rw [e, npIndex_ok _ k h1 h2]
  simp only [thresh_hard]
  congr 3
  congr 1
  funext i
  rw [hardThresh_nonneg _ _ (hs A).nonneg]

theorem factor_assoc {r : ℕ} (U : Matrix (Fin M) (Fin r) 𝕜) (d : Fin r → ℝ) (V : Matrix (Fin r) (Fin N) 𝕜) :
    U * (diagonal (fun i => (d i : 𝕜)) * V) = U * diagonal (fun i => (d i : 𝕜)) * V := by
  rw [Matrix.mul_assoc]

/-- A matrix built from singular vectors has rank at most the number of non-zero coefficients. -/
theorem rank_factor_le {r : ℕ} (U : Matrix (Fin M) (Fin r) 𝕜) (d : Fin r → ℝ)
    (V : Matrix (Fin r) (Fin N) 𝕜) (k : ℕ) (hd : ∀ i : Fin r, k ≤ i → d i = 0) :
    (U * diagonal (fun i => (d i : 𝕜)) * V).rank ≤ k := by
  refine (Matrix.rank_mul_le_left _ _).trans ((Matrix.rank_mul_le_right _ _).trans ?_)
  rw [Matrix.rank_diagonal]
  rw [Fintype.card_subtype]
  calc _ ≤ ((Finset.univ : Finset (Fin r)).filter fun i : Fin r => (i : ℕ) < k).card := by
        refine Finset.card_le_card fun i hi => ?_
        simp only [Finset.mem_filter, Finset.mem_univ, true_and] at hi ⊢
        by_contra hc
        exact hi (by rw [hd i (by omega)]; simp)
    _ ≤ k := by
        have := Finset.card_le_card_of_injOn (s := (Finset.univ : Finset (Fin r)).filter fun i : Fin r => (i : ℕ) < k)
          (t := Finset.range k) (fun i => (i : ℕ)) (by intro i hi; simpa using hi)
          (fun i _ j _ h => Fin.ext h)
        simpa using this

theorem frobSq_factor_sub {r : ℕ} {A : Matrix (Fin M) (Fin N) 𝕜} {U : Matrix (Fin M) (Fin r) 𝕜}
    {s : Fin r → ℝ} {V : Matrix (Fin r) (Fin N) 𝕜} (h : IsSVD A U s V) (d : Fin r → ℝ) :
    frobSq (A - U * diagonal (fun i => (d i : 𝕜)) * V) = ∑ i, (s i - d i) ^ 2 := by
  conv_lhs => rw [h.factor]
  rw [← Matrix.sub_mul, ← Matrix.mul_sub, diagonal_sub, frobSq_mul_right _ h.right,
    frobSq_mul_left _ h.left, frobSq_diagonal]
  refine Finset.sum_congr rfl fun i _ => ?_
  rw [← RCLike.ofReal_sub, RCLike.norm_ofReal, sq_abs]

/-- On singular values, soft thresholding is within `2⁻⁵² + 10⁻¹⁵` of `max (s - t) 0`. -/
theorem thresh_soft_close {ι : Type*} (s : ι → ℝ) (hs : ∀ i, 0 ≤ s i) (t : ι → ℝ) (ht : ∀ i, 0 ≤ t i) :
    ∃ out, thresh s t "soft" = .ok out ∧ ∀ i, |out i - max (s i - t i) 0| ≤ 2⁻¹ ^ 52 + 1 / 10 ^ 15 := by
  refine ⟨fun i => aroundK 15 (softRaw s t i), by simp [thresh], fun i => ?_⟩
  obtain ⟨out, p, h1, h2, h3⟩ := C27_returned_value_close_to_prox (ι := Unit) (fun _ => s i) (fun _ => t i)
    (fun _ => ht i)
  have e1 : out = fun _ => aroundK 15 (softRaw (fun _ : Unit => s i) (fun _ => t i) ()) := by
    have : thresh (fun _ : Unit => s i) (fun _ => t i) "soft" =
      .ok (fun _ => aroundK 15 (softRaw (fun _ : Unit => s i) (fun _ => t i) ())) := by simp [thresh]
    rw [this] at h1
    exact (Except.ok.inj h1).symm
  have e2 : p = fun _ => softExact (t i) (s i) := by
    refine ((isUniqueProx_of_coord (fun _ v => t i * ‖v‖) (fun _ : Unit => s i)
      (fun _ => softExact (t i) (s i)) ?_).2 p h2.1)
    intro _ v
    exact strong_of_subgradient (fun v => t i * ‖v‖) _ _ (shrink_subgradient (t i) (ht i) (s i)) v
  have e3 : softExact (t i) (s i) = max (s i - t i) 0 := by
    unfold softExact
    rw [smul_eq_mul, Real.norm_of_nonneg (hs i)]
    rcases (hs i).eq_or_lt with h0 | h0
    · rw [← h0, mul_zero, zero_sub, max_eq_right]; linarith [ht i]
    · rw [max_mul_of_nonneg _ _ h0.le]
      congr 1
      · field_simp
      · rw [zero_mul]
  have := h3 ()
  rw [e1, e2, e3, Real.norm_eq_abs] at this
  exact this

/-- Soft thresholding returns exactly zero at or below the threshold. -/
theorem thresh_soft_zero {ι : Type*} (s : ι → ℝ) (t : ι → ℝ) (i : ι) (hs : 0 ≤ s i)
    (ht : s i ≤ t i) : aroundK 15 (softRaw s t i) = (0 : ℝ) := by
  have h0 : |softRaw s t i| ≤ eps64 := by
    rw [softRaw_eq_smul, smul_eq_mul, abs_mul, abs_of_nonneg (softFactor_nonneg _ _), abs_of_nonneg hs,
      Real.norm_of_nonneg hs]
    rcases le_or_gt eps64 (s i) with h | h
    · have hp : 0 < s i := eps64_pos.trans_le h
      have : softFactor (t i) (s i) = 0 := by
        unfold softFactor
        rw [max_eq_right h, max_eq_right]
        rw [sub_nonpos, le_div_iff₀ hp, one_mul]; exact ht
      rw [this, zero_mul]; exact eps64_pos.le
    · calc softFactor (t i) (s i) * s i ≤ 1 * eps64 :=
          mul_le_mul (softFactor_le_one _ _ (hs.trans ht)) h.le hs zero_le_one
        _ = eps64 := one_mul _
  have h1 : around 15 (softRaw s t i) = 0 := by
    rw [around_eq_zero_iff]
    calc |softRaw s t i| * 10 ^ 15 ≤ eps64 * 10 ^ 15 := by gcongr
      _ ≤ 1 / 2 := by unfold eps64; norm_num
  unfold aroundK
  simp [h1, around_zero]

/-! ## C65 -/

/-- C65: an `n_pc` that is a non-positive integer, a string other than `'all'`, or neither an integer, a
string nor `None`, raises `ValueError` for every data argument. -/
theorem C65_invalid_n_pc_rejected (svd : Matrix (Fin M) (Fin N) 𝕜 → Dec M N 𝕜)
    (auto : Matrix (Fin M) (Fin (min M N)) 𝕜 → Py ℕ) (x : Arg M N 𝕜)
    (threshold : Option (Fin (min M N) → ℝ)) (ty : String) :
    (∀ k : ℤ, k ≤ 0 → svdThresh svd auto x threshold (.int k) ty = .error .valueError) ∧
    (∀ s : String, s ≠ "all" → svdThresh svd auto x threshold (.str s) ty = .error .valueError) ∧
    svdThresh svd auto x threshold .other ty = .error .valueError := by
  refine ⟨fun k hk => ?_, fun s hs => ?_, ?_⟩
  · simp [svdThresh, NPc.invalid, hk]
  · simp [svdThresh, NPc.invalid, hs]
  · simp [svdThresh, NPc.invalid]

/-- C65: with a valid `n_pc`, anything that is not a two-dimensional array raises `TypeError`. -/
theorem C65_non_matrix_rejected (svd : Matrix (Fin M) (Fin N) 𝕜 → Dec M N 𝕜)
    (auto : Matrix (Fin M) (Fin (min M N)) 𝕜 → Py ℕ)
    (threshold : Option (Fin (min M N) → ℝ)) (nPc : NPc) (ty : String)
    (h : nPc = .none ∨ nPc = .str "all" ∨ ∃ k : ℤ, 0 < k ∧ nPc = .int k) :
    svdThresh svd auto .other threshold nPc ty = .error .typeError := by
  rcases h with rfl | rfl | ⟨k, hk, rfl⟩
  · simp [svdThresh, NPc.invalid, calculateSvd, bind, Except.bind]
  · simp [svdThresh, NPc.invalid, calculateSvd, bind, Except.bind]
  · have : ¬ k ≤ 0 := not_le.2 hk
    simp [svdThresh, NPc.invalid, calculateSvd, bind, Except.bind, this]

/-- C65 (part): hard thresholding with `n_pc = k` returns exactly the sum of the first `k` singular
triplets, provided the `k`-th singular value is strictly larger than the next one. -/
theorem C65_hard_keeps_first_k_partial {svd : Matrix (Fin M) (Fin N) 𝕜 → Dec M N 𝕜}
    (hs : CorrectSvd svd) (auto : Matrix (Fin M) (Fin (min M N)) 𝕜 → Py ℕ)
    (A : Matrix (Fin M) (Fin N) 𝕜) (k : ℕ) (h1 : 1 ≤ k) (h2 : k ≤ min M N)
    (hgap : ∀ i : Fin (min M N), k ≤ i → (svd A).s i < (svd A).s ⟨k - 1, by omega⟩) :
    ∃ B, svdThresh svd auto (.mat A) none (.int k) "hard" = .ok B ∧
      (∀ i j, B i j = ∑ l : Fin (min M N), if (l : ℕ) < k then
        (svd A).u i l * ((svd A).s l : 𝕜) * (svd A).v l j else 0) ∧ B.rank ≤ k := by
  refine ⟨_, svdThresh_int_hard hs auto A k h1 h2, ?_, ?_⟩
  · intro i j
    rw [factor_assoc, mul_apply]
    refine Finset.sum_congr rfl fun l _ => ?_
    rw [mul_diagonal]
    by_cases hl : (l : ℕ) < k
    · rw [if_pos hl, if_pos]
      exact (hs A).anti (by rw [Fin.le_def]; simp; omega)
    · rw [if_neg hl, if_neg (not_le.2 (hgap l (by omega)))]; simp
  · rw [factor_assoc]
    refine rank_factor_le _ _ _ k fun i hi => ?_
    rw [if_neg (not_le.2 (hgap i hi))]

/-- C65: whatever the multiplicities, hard thresholding with `n_pc = k` is at least as close to the data
(in Frobenius norm) as every matrix of rank at most `k`. -/
theorem C65_at_least_as_good_as_rank_k {svd : Matrix (Fin M) (Fin N) 𝕜 → Dec M N 𝕜}
    (hs : CorrectSvd svd) (auto : Matrix (Fin M) (Fin (min M N)) 𝕜 → Py ℕ)
    (A : Matrix (Fin M) (Fin N) 𝕜) (k : ℕ) (h1 : 1 ≤ k) (h2 : k ≤ min M N) :
    ∃ B, svdThresh svd auto (.mat A) none (.int k) "hard" = .ok B ∧
      ∀ C : Matrix (Fin M) (Fin N) 𝕜, C.rank ≤ k → frobSq (A - B) ≤ frobSq (A - C) := by
  refine ⟨_, svdThresh_int_hard hs auto A k h1 h2, fun C hC => ?_⟩
  rw [factor_assoc, frobSq_factor_sub (hs A)]
  refine le_trans (Finset.sum_le_sum fun i _ => ?_) (eckart_young (hs A) k C hC)
  by_cases hi : (i : ℕ) < k
  · rw [if_pos hi, if_pos ((hs A).anti (by rw [Fin.le_def]; simp; omega))]; simp
  · rw [if_neg hi]
    split_ifs
    · simp; positivity
    · simp

/-- C65: `n_pc = 'all'`, and every integer not smaller than the number of singular values, returns the
data unchanged under hard thresholding. -/
theorem C65_all_components {svd : Matrix (Fin M) (Fin N) 𝕜 → Dec M N 𝕜}
    (hs : CorrectSvd svd) (auto : Matrix (Fin M) (Fin (min M N)) 𝕜 → Py ℕ)
    (A : Matrix (Fin M) (Fin N) 𝕜) (h0 : 0 < min M N) (nPc : NPc)
    (h : nPc = .str "all" ∨ ∃ k : ℤ, (min M N : ℕ) ≤ k ∧ nPc = .int k) :
    svdThresh svd auto (.mat A) none nPc "hard" = .ok A := by
  have hi : nPc.invalid = false := by
    rcases h with rfl | ⟨k, hk, rfl⟩
    · simp [NPc.invalid]
    · simp [NPc.invalid]; omega
  have hr : resolveNPc (min M N) (auto (svd A).u) nPc = .ok ((min M N : ℕ) : ℤ) := by
    rcases h with rfl | ⟨k, hk, rfl⟩
    · simp [resolveNPc]
    · simp only [resolveNPc]; rw [if_pos hk]
  unfold svdThresh
  rw [hi]
  simp only [Bool.false_eq_true, if_false, calculateSvd, thresholdFor, bind, Except.bind, hr]
  rw [npIndex_ok _ (min M N) h0 le_rfl]
  simp only [thresh_hard]
  congr 1
  conv_rhs => rw [(hs A).factor]
  rw [factor_assoc]
  congr 3
  funext i
  rw [hardThresh_nonneg _ _ (hs A).nonneg, if_pos]
  exact (hs A).anti (by rw [Fin.le_def]; simp; omega)

theorem isSVD_one_values {r : ℕ} {U : Matrix (Fin M) (Fin r) 𝕜} {s : Fin r → ℝ}
    {V : Matrix (Fin r) (Fin M) 𝕜} (h : IsSVD (1 : Matrix (Fin M) (Fin M) 𝕜) U s V) (i : Fin r) :
    s i = 1 := by
  have e1 : (U * diagonal (fun i => (s i : 𝕜)) * V) * (U * diagonal (fun i => (s i : 𝕜)) * V)ᴴ =
      U * (diagonal (fun i => ((s i ^ 2 : ℝ) : 𝕜)) * Uᴴ) := by
    rw [conjTranspose_mul, conjTranspose_mul, diagonal_conjTranspose]
    have e : (star fun i => ((s i : ℝ) : 𝕜)) = fun i => (s i : 𝕜) := by funext i; simp
    rw [e]
    calc _ = U * (diagonal (fun i => (s i : 𝕜)) * ((V * Vᴴ) * (diagonal (fun i => (s i : 𝕜)) * Uᴴ))) := by
          simp only [Matrix.mul_assoc]
      _ = _ := by
          rw [h.right, Matrix.one_mul, ← Matrix.mul_assoc (diagonal _), diagonal_mul_diagonal]
          congr 3; funext i; push_cast; ring
  have e2 : U * (diagonal (fun i => ((s i ^ 2 : ℝ) : 𝕜)) * Uᴴ) = 1 := by
    rw [← e1, ← h.factor]; simp
  have e3 : diagonal (fun i => ((s i ^ 2 : ℝ) : 𝕜)) = (1 : Matrix (Fin r) (Fin r) 𝕜) := by
    have := congrArg (fun X => Uᴴ * X * U) e2
    simp only [Matrix.mul_one] at this
    rw [h.left] at this
    rw [← this]
    calc _ = (Uᴴ * U) * diagonal (fun i => ((s i ^ 2 : ℝ) : 𝕜)) * (Uᴴ * U) := by rw [h.left]; simp
      _ = _ := by simp only [Matrix.mul_assoc]
  have e4 := congrFun (congrFun e3 i) i
  rw [diagonal_apply_eq, one_apply_eq] at e4
  have e5 : s i ^ 2 = 1 := by exact_mod_cast e4
  exact (pow_eq_one_iff_of_nonneg (h.nonneg i) two_ne_zero).1 e5

/-- C65 (refutation of the unconditional claim): with equal singular values, more than `n_pc` components
are kept.  Asking for one component of the 2×2 identity returns the identity, of rank 2, whatever
decomposition the external routine picks. -/
theorem C65_ties_keep_more_components {svd : Matrix (Fin 2) (Fin 2) ℝ → Dec 2 2 ℝ}
    (hs : CorrectSvd svd) (auto : Matrix (Fin 2) (Fin (min 2 2)) ℝ → Py ℕ) :
    svdThresh svd auto (.mat 1) none (.int 1) "hard" = .ok 1 ∧ (1 : Matrix (Fin 2) (Fin 2) ℝ).rank = 2 := by
  refine ⟨?_, by simp⟩
  have := svdThresh_int_hard hs auto 1 1 le_rfl (by decide)
  rw [Nat.cast_one] at this
  rw [this, factor_assoc]
  congr 1
  conv_rhs => rw [(hs 1).factor]
  congr 3
  funext i
  rw [isSVD_one_values (hs 1), isSVD_one_values (hs 1)]; simp

/-- C65 (refutation for soft thresholding): with `thresh_type='soft'` and `n_pc = k` the threshold is the
`k`-th singular value itself, so that component is set to zero as well: the result has rank at most
`k - 1`, for every matrix. -/
theorem C65_soft_keeps_fewer {svd : Matrix (Fin M) (Fin N) 𝕜 → Dec M N 𝕜}
    (hs : CorrectSvd svd) (auto : Matrix (Fin M) (Fin (min M N)) 𝕜 → Py ℕ)
    (A : Matrix (Fin M) (Fin N) 𝕜) (k : ℕ) (h1 : 1 ≤ k) (h2 : k ≤ min M N) :
    ∃ B, svdThresh svd auto (.mat A) none (.int k) "soft" = .ok B ∧ B.rank ≤ k - 1 := by
  have e : (if (k : ℤ) ≥ (min M N : ℕ) then ((min M N : ℕ) : ℤ) else (k : ℤ)) = k := by
    split_ifs with h
    · omega
    · rfl
  have hi : NPc.invalid (.int (k : ℤ)) = false := by simp [NPc.invalid]; omega
  have ht : thresh (svd A).s (fun _ => (svd A).s ⟨k - 1, by omega⟩) "soft" = .ok fun i =>
      aroundK 15 (softRaw (svd A).s (fun _ => (svd A).s ⟨k - 1, by omega⟩) i) := by simp [thresh]
  refine ⟨(svd A).u * (diagonal (fun i => ((aroundK 15 (softRaw (svd A).s
    (fun _ => (svd A).s ⟨k - 1, by omega⟩) i) : ℝ) : 𝕜)) * (svd A).v), ?_, ?_⟩
  · unfold svdThresh
    rw [hi]
    simp only [Bool.false_eq_true, if_false, calculateSvd, thresholdFor, resolveNPc, bind, Except.bind]
    rw [e, npIndex_ok _ k h1 h2]
    simp only [ht]
  · rw [factor_assoc]
    refine rank_factor_le _ _ _ (k - 1) fun i hi => ?_
    exact thresh_soft_zero _ _ i ((hs A).nonneg i) ((hs A).anti (by rw [Fin.le_def]; exact hi))

/-- C65: a given threshold is used as it is; a valid `n_pc` is then ignored. -/
theorem C65_threshold_takes_precedence (svd : Matrix (Fin M) (Fin N) 𝕜 → Dec M N 𝕜)
    (auto : Matrix (Fin M) (Fin (min M N)) 𝕜 → Py ℕ) (x : Arg M N 𝕜) (t : Fin (min M N) → ℝ)
    (nPc : NPc) (ty : String)
    (h : nPc = .str "all" ∨ ∃ k : ℤ, 0 < k ∧ nPc = .int k) :
    svdThresh svd auto x (some t) nPc ty = svdThresh svd auto x (some t) .none ty := by
  have hi : nPc.invalid = false := by
    rcases h with rfl | ⟨k, hk, rfl⟩
    · simp [NPc.invalid]
    · simp [NPc.invalid]; omega
  have hn : NPc.invalid .none = false := rfl
  simp only [svdThresh, hi, hn, thresholdFor]

/-- C65: hard thresholding with a given threshold keeps exactly the triplets whose singular value is at
least the threshold. -/
theorem C65_hard_threshold_selects {svd : Matrix (Fin M) (Fin N) 𝕜 → Dec M N 𝕜}
    (hs : CorrectSvd svd) (auto : Matrix (Fin M) (Fin (min M N)) 𝕜 → Py ℕ)
    (A : Matrix (Fin M) (Fin N) 𝕜) (t : Fin (min M N) → ℝ) :
    ∃ B, svdThresh svd auto (.mat A) (some t) .none "hard" = .ok B ∧
      ∀ i j, B i j = ∑ l : Fin (min M N), if t l ≤ (svd A).s l then
        (svd A).u i l * ((svd A).s l : 𝕜) * (svd A).v l j else 0 := by
  refine ⟨(svd A).u * (diagonal (fun i => ((hardThresh (svd A).s t i : ℝ) : 𝕜)) * (svd A).v), ?_, ?_⟩
  · simp [svdThresh, NPc.invalid, calculateSvd, thresholdFor, bind, Except.bind, thresh_hard]
  · intro i j
    rw [factor_assoc, mul_apply]
    refine Finset.sum_congr rfl fun l _ => ?_
    rw [mul_diagonal, hardThresh_nonneg _ _ (hs A).nonneg]
    split_ifs <;> simp

/-- C65 (refutation for the automatic choice): when the automatic test finds no component worth keeping
(`find_n_pc` returns zero), index `-1` selects the smallest singular value as threshold, so everything is
kept. -/
theorem C65_auto_zero_keeps_everything {svd : Matrix (Fin M) (Fin N) 𝕜 → Dec M N 𝕜}
    (hs : CorrectSvd svd) (auto : Matrix (Fin M) (Fin (min M N)) 𝕜 → Py ℕ)
    (A : Matrix (Fin M) (Fin N) 𝕜) (h0 : 0 < min M N) (hauto : auto (svd A).u = .ok 0) :
    svdThresh svd auto (.mat A) none .none "hard" = .ok A := by
  unfold svdThresh
  simp only [NPc.invalid, Bool.false_eq_true, if_false, calculateSvd, thresholdFor, resolveNPc, bind,
    Except.bind, hauto, Nat.cast_zero, zero_sub]
  rw [npIndex_last _ h0]
  simp only [thresh_hard]
  congr 1
  conv_rhs => rw [(hs A).factor]
  rw [factor_assoc]
  congr 3
  funext i
  rw [hardThresh_nonneg _ _ (hs A).nonneg, if_pos]
  exact (hs A).anti (by rw [Fin.le_def]; simp; omega)

/-! ## Non-vacuity -/

/-- A correct routine can return any given decomposition at one matrix. -/
theorem correctSvd_with {A : Matrix (Fin M) (Fin N) 𝕜} (d : Dec M N 𝕜) (h : IsSVD A d.u d.s d.v) :
    ∃ svd : Matrix (Fin M) (Fin N) 𝕜 → Dec M N 𝕜, CorrectSvd svd ∧ svd A = d := by
  classical
  obtain ⟨svd, hs⟩ := exists_correctSvd M N 𝕜
  refine ⟨fun B => if B = A then d else svd B, fun B => ?_, by simp⟩
  by_cases hB : B = A
  · subst hB; simpa using h
  · simpa [hB] using hs B

/-- The decomposition of `diag(3, 1)`. -/
def diagDec : Dec 2 2 ℝ where
  u := (1 : Matrix (Fin 2) (Fin 2) ℝ)
  s := ![3, 1]
  v := (1 : Matrix (Fin 2) (Fin 2) ℝ)

theorem isSVD_diag31 : IsSVD (k := 2) (diagonal ![3, 1] : Matrix (Fin 2) (Fin 2) ℝ)
    (1 : Matrix (Fin 2) (Fin 2) ℝ) ![3, 1] (1 : Matrix (Fin 2) (Fin 2) ℝ) where
  factor := by simp
  left := by simp
  right := by simp
  nonneg := by intro i; fin_cases i <;> simp
  anti := by
    intro i j hij
    fin_cases i <;> fin_cases j <;> simp at hij ⊢

theorem diagDec_isSVD : IsSVD (diagonal ![3, 1] : Matrix (Fin 2) (Fin 2) ℝ) diagDec.u diagDec.s diagDec.v :=
  isSVD_diag31

/-- `diag(3, 1)` with `n_pc = 1` meets the hypotheses of the theorems of C65 (gap included). -/
example : ∃ svd : Matrix (Fin 2) (Fin 2) ℝ → Dec 2 2 ℝ, CorrectSvd svd ∧
    ∀ i : Fin (min 2 2), 1 ≤ (i : ℕ) →
      (svd (diagonal ![3, 1])).s i < (svd (diagonal ![3, 1])).s ⟨1 - 1, by decide⟩ := by
  obtain ⟨svd, h1, h2⟩ := correctSvd_with diagDec diagDec_isSVD
  refine ⟨svd, h1, ?_⟩
  rw [h2]
  show ∀ i : Fin 2, 1 ≤ (i : ℕ) → (![3, 1] : Fin 2 → ℝ) i < (![3, 1] : Fin 2 → ℝ) 0
  intro i hi
  fin_cases i
  · simp at hi
  · simp

end Verif
