import Verif.Props.LowRank
import Verif.Lemmas.SvdUnique

/-!
# C66, C96 and the decomposition-independence part of C65: the fast SVD threshold
-/

set_option linter.unusedSectionVars false

namespace Verif
open Matrix Noise Spec Svd

variable {M N : ℕ} {𝕜 : Type} [RCLike 𝕜]

/-- The external partial decomposition is correct: for `1 ≤ k < min(shape)` it returns the `k` largest
singular triplets of a singular value decomposition, in increasing order. -/
def CorrectSvds (svds : Matrix (Fin M) (Fin N) 𝕜 → ℕ → PartialDec M N 𝕜) : Prop :=
  ∀ A k, 1 ≤ k → k < min M N → (svds A k).k = k ∧
    ∃ (U : Matrix (Fin M) (Fin (min M N)) 𝕜) (s : Fin (min M N) → ℝ) (V : Matrix (Fin (min M N)) (Fin N) 𝕜),
      IsSVD A U s V ∧ ∀ (l : Fin (svds A k).k) (q : Fin (min M N)), (q : ℕ) + l + 1 = k →
        (svds A k).s l = s q ∧ (∀ i, (svds A k).u i l = U i q) ∧ ∀ j, (svds A k).v l j = V q j

/-- A correct partial routine exists, for all shapes. -/
theorem exists_correctSvds (M N : ℕ) (𝕜 : Type) [RCLike 𝕜] :
    ∃ svds : Matrix (Fin M) (Fin N) 𝕜 → ℕ → PartialDec M N 𝕜, CorrectSvds svds := by
  obtain ⟨svd, hs⟩ := exists_correctSvd M N 𝕜
  refine ⟨fun A k => ⟨k,
    Matrix.of fun i l => if h : k - 1 - l < min M N then (svd A).u i ⟨k - 1 - l, h⟩ else 0,
    fun l => if h : k - 1 - l < min M N then (svd A).s ⟨k - 1 - l, h⟩ else 0,
    Matrix.of fun l j => if h : k - 1 - l < min M N then (svd A).v ⟨k - 1 - l, h⟩ j else 0⟩, ?_⟩
  intro A k h1 h2
  refine ⟨rfl, (svd A).u, (svd A).s, (svd A).v, hs A, ?_⟩
  intro l q hq
  have hq' : k - 1 - (l : ℕ) = q := by omega
  have hlt : k - 1 - (l : ℕ) < min M N := by rw [hq']; exact q.2
  have e : (⟨k - 1 - (l : ℕ), hlt⟩ : Fin (min M N)) = q := Fin.ext hq'
  refine ⟨?_, fun i => ?_, fun j => ?_⟩
  · exact (dif_pos hlt).trans (by rw [e])
  · exact (dif_pos hlt).trans (by rw [e])
  · exact (dif_pos hlt).trans (by rw [e])

/-! ## C65: independence of the decomposition -/

/-- What `thresh` does to a non-negative number. -/
noncomputable def threshReal (hard : Bool) (t s : ℝ) : ℝ :=
  if hard then (if t ≤ s then s else 0) else aroundK 15 (softRaw (fun _ : Unit => s) (fun _ => t) ())

/-- `'hard'` or `'soft'`. -/
def typeName (hard : Bool) : String := if hard then "hard" else "soft"

theorem thresh_eq_threshReal {ι : Type*} (s : ι → ℝ) (hs : ∀ i, 0 ≤ s i) (t : ℝ) (hard : Bool) :
    thresh s (fun _ => t) (typeName hard) = .ok fun i => threshReal hard t (s i) := by
  cases hard
  · simp only [typeName, threshReal, Bool.false_eq_true, if_false]
    simp [thresh]; rfl
  · simp only [typeName, threshReal, if_true]
    rw [thresh_hard]
    congr 1
    funext i
    rw [hardThresh_nonneg _ _ hs]

theorem threshReal_zero (hard : Bool) (t : ℝ) : threshReal hard t 0 = 0 := by
  cases hard
  · simp only [threshReal, Bool.false_eq_true, if_false]
    have : softRaw (fun _ : Unit => (0 : ℝ)) (fun _ => t) () = 0 := by simp [softRaw]
    rw [this]; simp [aroundK, around_zero]
  · simp [threshReal]

/-- C65: with a scalar threshold the result does not depend on which singular value decomposition the
external routine returns (signs, order within equal singular values, bases of singular subspaces). -/
theorem C65_independent_of_decomposition {svd svd' : Matrix (Fin M) (Fin N) 𝕜 → Dec M N 𝕜}
    (hs : CorrectSvd svd) (hs' : CorrectSvd svd') (auto auto' : Matrix (Fin M) (Fin (min M N)) 𝕜 → Py ℕ)
    (x : Arg M N 𝕜) (t : ℝ) (ty : String) :
    svdThresh svd auto x (some fun _ => t) .none ty = svdThresh svd' auto' x (some fun _ => t) .none ty := by
  cases x with
  | other => simp [svdThresh, calculateSvd, bind, Except.bind]
  | mat A =>
    by_cases hty : ty = "hard" ∨ ty = "soft"
    · obtain ⟨hard, rfl⟩ : ∃ b, ty = typeName b := by
        rcases hty with rfl | rfl
        · exact ⟨true, rfl⟩
        · exact ⟨false, rfl⟩
      simp only [svdThresh, NPc.invalid, Bool.false_eq_true, if_false, calculateSvd, thresholdFor, bind,
        Except.bind, thresh_eq_threshReal _ (hs A).nonneg, thresh_eq_threshReal _ (hs' A).nonneg]
      rw [factor_assoc, factor_assoc,
        svd_function_unique (hs A) (hs' A) (threshReal hard t) (threshReal_zero hard t)]
    · have h : ∀ s : Fin (min M N) → ℝ, thresh s (fun _ => t) ty = .error .valueError := by
        intro s
        push Not at hty
        simp [thresh, hty.1, hty.2]
      simp [svdThresh, NPc.invalid, calculateSvd, thresholdFor, bind, Except.bind, h]

/-- C65: the same holds when the number of components is given. -/
theorem C65_n_pc_independent_of_decomposition {svd svd' : Matrix (Fin M) (Fin N) 𝕜 → Dec M N 𝕜}
    (hs : CorrectSvd svd) (hs' : CorrectSvd svd') (auto auto' : Matrix (Fin M) (Fin (min M N)) 𝕜 → Py ℕ)
    (x : Arg M N 𝕜) (k : ℤ) (ty : String) :
    svdThresh svd auto x none (.int k) ty = svdThresh svd' auto' x none (.int k) ty := by
  cases x with
  | other =>
    simp only [svdThresh, calculateSvd, bind, Except.bind]
  | mat A =>
    have hv : (svd A).s = (svd' A).s := isSVD_values_unique (hs A) (hs' A)
    by_cases hk : NPc.invalid (.int k) = true
    · simp [svdThresh, hk]
    · simp only [svdThresh, if_neg hk, calculateSvd, thresholdFor, resolveNPc, bind, Except.bind, hv]
      cases hc : npIndex (svd' A).s ((if k ≥ (min M N : ℕ) then ((min M N : ℕ) : ℤ) else k) - 1) with
      | error e => rfl
      | ok c =>
        simp only
        have := C65_independent_of_decomposition hs hs' auto auto' (.mat A) c ty
        simp only [svdThresh, NPc.invalid, Bool.false_eq_true, if_false, calculateSvd, thresholdFor, bind,
          Except.bind, hv] at this
        exact this

/-! ## C66 -/

theorem fastLoop_terminates (svds : Matrix (Fin M) (Fin N) 𝕜 → ℕ → PartialDec M N 𝕜)
    (A : Matrix (Fin M) (Fin N) 𝕜) (t : ℝ) (extra : ℤ) (he : 1 ≤ extra) :
    ∀ (fuel : ℕ) (n : ℤ), ((min M N : ℕ) - n : ℤ).toNat + 1 < fuel → fastLoop svds A t extra fuel n ≠ none := by
  intro fuel
  induction fuel with
  | zero => intro n h; omega
  | succ fuel ih =>
    intro n h
    have e : ((min M N : ℕ) : ℤ) = (min M N : ℤ) := by push_cast; rfl
    unfold fastLoop
    by_cases c1 : 1 ≤ n ∧ n ≤ (min M N : ℤ) - 1
    · rw [if_neg (not_not.2 c1)]
      by_cases c2 : (svds A n.toNat).first ≤ t ∨ n = (min M N : ℤ) - 1
      · rw [if_pos c2]; simp
      · rw [if_neg c2]
        refine ih _ ?_
        have h2 : n + 1 ≤ min (n + extra) (min M N : ℤ) := by
          rw [le_min_iff]; constructor <;> omega
        rw [e] at h ⊢
        omega
    · rw [if_pos c1]; simp

/-- C66: for every matrix, threshold, starting value and positive `extra_vals`, the loop ends: there is a
number of iterations after which the routine has returned or raised. -/
theorem C66_terminates (svds : Matrix (Fin M) (Fin N) 𝕜 → ℕ → PartialDec M N 𝕜)
    (A : Matrix (Fin M) (Fin N) 𝕜) (t : ℝ) (nVals extra : ℤ) (he : 1 ≤ extra) (ty : String) :
    ∃ fuel, ∀ fuel', fuel ≤ fuel' → svdThreshCoefFast svds A t nVals extra ty fuel' ≠ none := by
  refine ⟨((min M N : ℕ) - (if nVals = -1 then (min M N : ℤ) - 1 else nVals) : ℤ).toNat + 2, fun f hf => ?_⟩
  unfold svdThreshCoefFast
  intro h
  rw [Option.map_eq_none_iff] at h
  exact fastLoop_terminates svds A t extra he f _ (by omega) h

theorem fastLoop_ok {svds : Matrix (Fin M) (Fin N) 𝕜 → ℕ → PartialDec M N 𝕜}
    {A : Matrix (Fin M) (Fin N) 𝕜} {t : ℝ} {extra : ℤ} {d : PartialDec M N 𝕜} :
    ∀ {fuel : ℕ} {n : ℤ}, fastLoop svds A t extra fuel n = some (.ok d) →
      ∃ k : ℕ, 1 ≤ k ∧ k < min M N ∧ d = svds A k ∧ (d.first ≤ t ∨ k = min M N - 1) := by
  intro fuel
  induction fuel with
  | zero => intro n h; simp [fastLoop] at h
  | succ fuel ih =>
    intro n h
    have e : ((min M N : ℕ) : ℤ) = (min M N : ℤ) := by push_cast; rfl
    unfold fastLoop at h
    by_cases c1 : 1 ≤ n ∧ n ≤ (min M N : ℤ) - 1
    · rw [if_neg (not_not.2 c1)] at h
      by_cases c2 : (svds A n.toNat).first ≤ t ∨ n = (min M N : ℤ) - 1
      · rw [if_pos c2, Option.some.injEq, Except.ok.injEq] at h
        refine ⟨n.toNat, by omega, by omega, h.symm, ?_⟩
        rcases c2 with c2 | c2
        · left; rw [← h]; exact c2
        · right; omega
      · rw [if_neg c2] at h
        exact ih h
    · rw [if_pos c1] at h
      cases h

theorem softVal_mono (t : ℝ) (ht : 0 ≤ t) {a b : ℝ} (ha : 0 ≤ a) (hab : a ≤ b) :
    softRaw (fun _ : Unit => a) (fun _ => t) () ≤ softRaw (fun _ : Unit => b) (fun _ => t) () := by
  have hb := ha.trans hab
  simp only [softRaw_eq_smul, smul_eq_mul, Real.norm_of_nonneg ha, Real.norm_of_nonneg hb]
  refine mul_le_mul ?_ hab ha (softFactor_nonneg _ _)
  unfold softFactor
  refine max_le_max ?_ le_rfl
  have h1 : 0 < max eps64 a := lt_of_lt_of_le eps64_pos (le_max_left _ _)
  have h2 : max eps64 a ≤ max eps64 b := max_le_max le_rfl hab
  have := div_le_div_of_nonneg_left ht h1 h2
  linarith

/-- Thresholding keeps a larger singular value whenever it keeps a smaller one. -/
theorem threshReal_ne_zero_mono (hard : Bool) (t : ℝ) (ht : 0 ≤ t) {a b : ℝ} (ha : 0 ≤ a) (hab : a ≤ b)
    (h : threshReal hard t a ≠ 0) : threshReal hard t b ≠ 0 := by
  cases hard
  · simp only [threshReal, Bool.false_eq_true, if_false] at h ⊢
    have hz : ∀ z : ℝ, aroundK 15 z = (0 : ℝ) ↔ |z| * 10 ^ 15 ≤ 1 / 2 := by
      intro z; rw [← around_eq_zero_iff]; simp [aroundK, around_zero]
    rw [ne_eq, hz, not_le] at h ⊢
    have h0 : 0 ≤ softRaw (fun _ : Unit => a) (fun _ => t) () := by
      rw [softRaw_eq_smul]; exact mul_nonneg (softFactor_nonneg _ _) ha
    have h1 := softVal_mono t ht ha hab
    rw [abs_of_nonneg h0] at h
    rw [abs_of_nonneg (h0.trans h1)]
    exact h.trans_le (by gcongr)
  · simp only [threshReal, if_true] at h ⊢
    split_ifs at h with c1
    · rw [if_pos (c1.trans hab)]
      exact (lt_of_lt_of_le (lt_of_le_of_ne ha (Ne.symm h)) hab).ne'
    · exact absurd rfl h

/-- The slice of the last `rank` triplets contains every non-zero one. -/
theorem lastProduct_eq (d : PartialDec M N 𝕜) (f : Fin d.k → ℝ)
    (hup : ∀ l l' : Fin d.k, l ≤ l' → f l ≠ 0 → f l' ≠ 0) (i : Fin M) (j : Fin N) :
    lastProduct d f (Finset.univ.filter fun l => f l ≠ 0).card i j =
      ∑ l, d.u i l * (f l : 𝕜) * d.v l j := by
  unfold lastProduct
  rw [Matrix.of_apply]
  refine Finset.sum_congr rfl fun l _ => ?_
  by_cases hl : f l = 0
  · rw [hl]; simp
  · rw [if_pos]
    right
    have hsub : Finset.Ici l ⊆ Finset.univ.filter fun l => f l ≠ 0 := by
      intro l' hl'
      rw [Finset.mem_Ici] at hl'
      simp only [Finset.mem_filter, Finset.mem_univ, true_and]
      exact hup l l' hl' hl
    have := Finset.card_le_card hsub
    rw [Fin.card_Ici] at this
    omega

/-- C66: what is returned, for every run that returns.  For some number `k` of computed values,
`1 ≤ k < min(shape)`, with either `k = min(shape) - 1` or the `k`-th singular value not above the threshold,
the result is the thresholded sum of the `k` leading triplets of a singular value decomposition, and the
reported rank is the number of its non-zero terms. -/
theorem C66_returned_value {svds : Matrix (Fin M) (Fin N) 𝕜 → ℕ → PartialDec M N 𝕜} (hs : CorrectSvds svds)
    (A : Matrix (Fin M) (Fin N) 𝕜) (t : ℝ) (ht : 0 ≤ t) (nVals extra : ℤ) (hard : Bool) (fuel : ℕ)
    (B : Matrix (Fin M) (Fin N) 𝕜) (rank : ℕ)
    (h : svdThreshCoefFast svds A t nVals extra (typeName hard) fuel = some (.ok (B, rank))) :
    ∃ (U : Matrix (Fin M) (Fin (min M N)) 𝕜) (s : Fin (min M N) → ℝ) (V : Matrix (Fin (min M N)) (Fin N) 𝕜)
      (k : ℕ), IsSVD A U s V ∧ 1 ≤ k ∧ k < min M N ∧
      (k = min M N - 1 ∨ ∀ q : Fin (min M N), (q : ℕ) + 1 = k → s q ≤ t) ∧
      ∃ sNew, thresh s (fun _ => t) (typeName hard) = .ok sNew ∧
      (∀ i j, B i j = ∑ q : Fin (min M N), if (q : ℕ) < k then U i q * (sNew q : 𝕜) * V q j else 0) ∧
      rank = (Finset.univ.filter fun q : Fin (min M N) => (q : ℕ) < k ∧ sNew q ≠ 0).card := by
  unfold svdThreshCoefFast at h
  rw [Option.map_eq_some_iff] at h
  obtain ⟨d', h1, h2⟩ := h
  cases d' with
  | error e => simp [bind, Except.bind] at h2
  | ok d =>
    obtain ⟨k, hk1, hk2, rfl, hstop⟩ := fastLoop_ok h1
    obtain ⟨hk, U, s, V, hsvd, htop⟩ := hs A k hk1 hk2
    refine ⟨U, s, V, k, hsvd, hk1, hk2, ?_, ?_⟩
    · rcases hstop with h | h
      · right
        intro q hq
        have hpos : 0 < (svds A k).k := by rw [hk]; exact hk1
        have := (htop ⟨0, hpos⟩ q (by simpa using hq)).1
        rw [← this]
        simpa [PartialDec.first, hpos] using h
      · left; exact h
    · generalize svds A k = d at *
      obtain ⟨dk, du, ds, dv⟩ := d
      dsimp only at hk
      subst hk
      have htop' : ∀ (l : Fin dk) (q : Fin (min M N)), (q : ℕ) + l + 1 = dk →
        ds l = s q ∧ (∀ i, du i l = U i q) ∧ ∀ j, dv l j = V q j := htop
      clear htop
      rename' htop' => htop
      have hidx : ∀ l : Fin dk, ∃ q : Fin (min M N), (q : ℕ) + l + 1 = dk := fun l =>
        ⟨⟨dk - 1 - l, by omega⟩, by simp; omega⟩
      have hnn : ∀ l, 0 ≤ ds l := by
        intro l
        obtain ⟨q, hq⟩ := hidx l
        rw [(htop l q hq).1]; exact hsvd.nonneg q
      have hmono : ∀ l l' : Fin dk, l ≤ l' → ds l ≤ ds l' := by
        intro l l' hll
        obtain ⟨q, hq⟩ := hidx l
        obtain ⟨q', hq'⟩ := hidx l'
        rw [(htop l q hq).1, (htop l' q' hq').1]
        refine hsvd.anti ?_
        rw [Fin.le_def] at hll ⊢; omega
      simp only [bind, Except.bind, fastFinish, thresh_eq_threshReal _ hnn, Except.ok.injEq,
        Prod.mk.injEq] at h2
      obtain ⟨hB, hr⟩ := h2
      refine ⟨_, thresh_eq_threshReal _ hsvd.nonneg t hard, ?_, ?_⟩
      · intro i j
        rw [← hB]
        have := lastProduct_eq (𝕜 := 𝕜) ⟨dk, du, ds, dv⟩ (fun l => threshReal hard t (ds l))
          (fun l l' hll hne => threshReal_ne_zero_mono hard t ht (hnn l) (hmono l l' hll) hne) i j
        refine Eq.trans (Eq.trans ?_ this) ?_
        · congr!
        -- reindex
        rw [← Finset.sum_filter]
        symm
        refine Finset.sum_bij' (i := fun q hq => (⟨dk - 1 - q, by simp at hq; omega⟩ : Fin dk))
          (j := fun l _ => (⟨dk - 1 - l, by omega⟩ : Fin (min M N))) ?_ ?_ ?_ ?_ ?_
        · intro q hq; simp
        · intro l hl; simp; omega
        · intro q hq; apply Fin.ext; simp at hq ⊢; omega
        · intro l hl; apply Fin.ext; simp; omega
        · intro q hq
          have hq' : (q : ℕ) < dk := by simpa using hq
          have := htop ⟨dk - 1 - q, by omega⟩ q (by simp; omega)
          dsimp only
          rw [this.1, this.2.1 i, this.2.2 j]
      · rw [← hr]
        refine Finset.card_bij' (i := fun l _ => (⟨dk - 1 - l, by omega⟩ : Fin (min M N)))
          (j := fun q hq => (⟨dk - 1 - q, by simp at hq; omega⟩ : Fin dk)) ?_ ?_ ?_ ?_
        · intro l hl
          simp only [Finset.mem_filter, Finset.mem_univ, true_and] at hl ⊢
          refine ⟨by omega, ?_⟩
          have := htop l ⟨dk - 1 - l, by omega⟩ (by simp; omega)
          rw [← this.1]; exact hl
        · intro q hq
          simp only [Finset.mem_filter, Finset.mem_univ, true_and] at hq ⊢
          have := htop ⟨dk - 1 - q, by omega⟩ q (by simp; omega)
          rw [this.1]; exact hq.2
        · intro l hl; apply Fin.ext; simp; omega
        · intro q hq
          simp only [Finset.mem_filter, Finset.mem_univ, true_and] at hq
          apply Fin.ext; simp; omega

theorem finish_ok (d : PartialDec M N 𝕜) (t : ℝ) (hard : Bool) :
    ∃ B rank, fastFinish d t (typeName hard) = .ok (B, rank) := by
  cases hard
  · simp [fastFinish, typeName, thresh, bind, Except.bind]
  · simp [fastFinish, typeName, thresh, bind, Except.bind]

/-- C66 (part): the fast routine agrees with `svd_thresh`, and its rank is the number of non-zero thresholded
singular values, whenever it returns, provided the smallest singular value is below the threshold and, for
hard thresholding, no singular value equals the threshold. -/
theorem C66_agrees_with_svd_thresh_partial {svd : Matrix (Fin M) (Fin N) 𝕜 → Dec M N 𝕜}
    {svds : Matrix (Fin M) (Fin N) 𝕜 → ℕ → PartialDec M N 𝕜} (hs : CorrectSvd svd) (hs' : CorrectSvds svds)
    (auto : Matrix (Fin M) (Fin (min M N)) 𝕜 → Py ℕ)
    (A : Matrix (Fin M) (Fin N) 𝕜) (t : ℝ) (ht : 0 ≤ t) (nVals extra : ℤ) (hard : Bool) (fuel : ℕ)
    (B : Matrix (Fin M) (Fin N) 𝕜) (rank : ℕ)
    (h : svdThreshCoefFast svds A t nVals extra (typeName hard) fuel = some (.ok (B, rank)))
    (hlast : ∀ q : Fin (min M N), (q : ℕ) + 1 = min M N → (svd A).s q ≤ t)
    (hne : hard = true → ∀ q, (svd A).s q ≠ t) :
    svdThresh svd auto (.mat A) (some fun _ => t) .none (typeName hard) = .ok B ∧
    ∃ sNew, thresh (svd A).s (fun _ => t) (typeName hard) = .ok sNew ∧
      rank = (Finset.univ.filter fun q => sNew q ≠ 0).card := by
  obtain ⟨U, s, V, k, hsvd, hk1, hk2, hstop, sNew, hsN, hB, hr⟩ :=
    C66_returned_value hs' A t ht nVals extra hard fuel B rank h
  have hv : (svd A).s = s := isSVD_values_unique (hs A) hsvd
  rw [hv] at hlast hne
  rw [thresh_eq_threshReal _ hsvd.nonneg, Except.ok.injEq] at hsN
  subst hsN
  -- the omitted values vanish
  have hz : ∀ q : Fin (min M N), k ≤ q → threshReal hard t (s q) = 0 := by
    intro q hq
    have hle : s q ≤ t := by
      rcases hstop with h1 | h1
      · exact hlast q (by omega)
      · have := h1 ⟨k - 1, by omega⟩ (by simp; omega)
        exact (hsvd.anti (by rw [Fin.le_def]; simp; omega)).trans this
    cases hard
    · simp only [threshReal, Bool.false_eq_true, if_false]
      exact thresh_soft_zero _ _ () (hsvd.nonneg q) hle
    · simp only [threshReal, if_true]
      rw [if_neg (not_le.2 (lt_of_le_of_ne hle (hne rfl q)))]
  refine ⟨?_, ?_⟩
  · simp only [svdThresh, NPc.invalid, Bool.false_eq_true, if_false, calculateSvd, thresholdFor, bind,
      Except.bind, thresh_eq_threshReal _ (hs A).nonneg]
    rw [factor_assoc, svd_function_unique (hs A) hsvd (threshReal hard t) (threshReal_zero hard t)]
    congr 1
    ext i j
    rw [hB, mul_apply]
    refine Finset.sum_congr rfl fun q _ => ?_
    rw [mul_diagonal]
    split_ifs with hq
    · rfl
    · rw [hz q (by omega)]; simp
  · rw [hv]
    refine ⟨_, thresh_eq_threshReal _ hsvd.nonneg t hard, ?_⟩
    rw [hr]
    congr 1
    ext q
    simp only [Finset.mem_filter, Finset.mem_univ, true_and]
    constructor
    · exact fun h => h.2
    · intro h
      refine ⟨?_, h⟩
      by_contra hc
      exact h (hz q (by omega))

/-- C66 (refutation of the unconditional claim): at least one singular triplet is always lost.  Whatever the
threshold, even zero, the returned matrix has rank below `min(shape)`. -/
theorem C66_never_full_rank {svds : Matrix (Fin M) (Fin N) 𝕜 → ℕ → PartialDec M N 𝕜}
    (hs' : CorrectSvds svds) (A : Matrix (Fin M) (Fin N) 𝕜) (t : ℝ) (ht : 0 ≤ t) (nVals extra : ℤ)
    (hard : Bool) (fuel : ℕ) (B : Matrix (Fin M) (Fin N) 𝕜) (rank : ℕ)
    (h : svdThreshCoefFast svds A t nVals extra (typeName hard) fuel = some (.ok (B, rank))) :
    B.rank < min M N := by
  obtain ⟨U, s, V, k, hsvd, hk1, hk2, hstop, sNew, hsN, hB, hr⟩ :=
    C66_returned_value hs' A t ht nVals extra hard fuel B rank h
  have : B = U * diagonal (fun q : Fin (min M N) => ((if (q : ℕ) < k then sNew q else 0 : ℝ) : 𝕜)) * V := by
    ext i j
    rw [hB, mul_apply]
    refine Finset.sum_congr rfl fun q _ => ?_
    rw [mul_diagonal]
    split_ifs <;> simp
  rw [this]
  refine lt_of_le_of_lt (rank_factor_le U (fun q : Fin (min M N) => if (q : ℕ) < k then sNew q else 0) V k ?_) hk2
  intro q hq
  rw [if_neg (by omega)]

/-- C66 (refutation, concrete): thresholding the 2×2 identity at `1/2` with all default arguments loses a
component, while `svd_thresh` returns the identity. -/
theorem C66_default_loses_a_component {svd : Matrix (Fin 2) (Fin 2) ℝ → Dec 2 2 ℝ}
    {svds : Matrix (Fin 2) (Fin 2) ℝ → ℕ → PartialDec 2 2 ℝ} (hs : CorrectSvd svd) (hs' : CorrectSvds svds)
    (auto : Matrix (Fin 2) (Fin (min 2 2)) ℝ → Py ℕ) (fuel : ℕ) :
    (∃ B rank, svdThreshCoefFast svds 1 (1 / 2) (-1) 5 "hard" (fuel + 1) = some (.ok (B, rank)) ∧ B ≠ 1) ∧
    svdThresh svd auto (.mat 1) (some fun _ => 1 / 2) .none "hard" = .ok 1 := by
  constructor
  · obtain ⟨B, rank, hf⟩ := finish_ok (svds 1 1) (1 / 2) true
    have hrun : svdThreshCoefFast svds 1 (1 / 2) (-1) 5 "hard" (fuel + 1) = some (.ok (B, rank)) := by
      have e : typeName true = "hard" := rfl
      rw [e] at hf
      simpa [svdThreshCoefFast, fastLoop, bind, Except.bind] using hf
    refine ⟨B, rank, hrun, ?_⟩
    have hlt := C66_never_full_rank hs' 1 (1 / 2) (by norm_num) (-1) 5 true (fuel + 1) B rank hrun
    rintro rfl
    simp at hlt
  · simp only [svdThresh, NPc.invalid, Bool.false_eq_true, if_false, calculateSvd, thresholdFor, bind,
      Except.bind, thresh_hard]
    rw [factor_assoc]
    congr 1
    conv_rhs => rw [(hs 1).factor]
    congr 3
    funext i
    rw [hardThresh_nonneg _ _ (hs 1).nonneg, isSVD_one_values (hs 1)]
    norm_num

theorem first_eq {svd : Matrix (Fin M) (Fin N) 𝕜 → Dec M N 𝕜} (hs : CorrectSvd svd)
    {svds : Matrix (Fin M) (Fin N) 𝕜 → ℕ → PartialDec M N 𝕜} (hs' : CorrectSvds svds)
    (A : Matrix (Fin M) (Fin N) 𝕜) (n : ℕ) (h1 : 1 ≤ n) (h2 : n < min M N) :
    (svds A n).first = (svd A).s ⟨n - 1, by omega⟩ := by
  obtain ⟨hk, U, s, V, hsvd, htop⟩ := hs' A n h1 h2
  have hpos : 0 < (svds A n).k := by rw [hk]; exact h1
  have := (htop ⟨0, hpos⟩ ⟨n - 1, by omega⟩ (by simp; omega)).1
  rw [isSVD_values_unique (hs A) hsvd, ← this]
  simp [PartialDec.first, hpos]

/-- C66: with the default `n_vals = -1` the first attempt is the last: for every matrix with at least two rows and
columns, whatever the threshold and `extra_vals`, the call returns after a single pass. -/
theorem C66_default_returns_at_once (svds : Matrix (Fin M) (Fin N) 𝕜 → ℕ → PartialDec M N 𝕜)
    (A : Matrix (Fin M) (Fin N) 𝕜) (t : ℝ) (extra : ℤ) (hard : Bool) (h : 2 ≤ min M N) (fuel : ℕ) :
    ∃ B rank, svdThreshCoefFast svds A t (-1) extra (typeName hard) (fuel + 1) = some (.ok (B, rank)) := by
  obtain ⟨B, rank, hf⟩ := finish_ok (svds A ((min M N : ℤ) - 1).toNat) t hard
  refine ⟨B, rank, ?_⟩
  have e : ((min M N : ℕ) : ℤ) = (min M N : ℤ) := by push_cast; rfl
  have hl : fastLoop svds A t extra (fuel + 1) ((min M N : ℤ) - 1) =
      some (.ok (svds A ((min M N : ℤ) - 1).toNat)) := by
    unfold fastLoop
    rw [if_neg (by push Not; omega), if_pos (Or.inr rfl)]
  unfold svdThreshCoefFast
  rw [if_pos rfl, hl, Option.map_some]
  exact congrArg some hf

/-- C66 (refutation): if the first attempt with `n_vals` values is not enough and `n_vals + extra_vals`
reaches `min(shape)`, the next attempt asks for more values than the external solver can compute and the
call raises `ValueError`. -/
theorem C66_retry_can_overshoot {svd : Matrix (Fin M) (Fin N) 𝕜 → Dec M N 𝕜} (hs : CorrectSvd svd)
    {svds : Matrix (Fin M) (Fin N) 𝕜 → ℕ → PartialDec M N 𝕜} (hs' : CorrectSvds svds)
    (A : Matrix (Fin M) (Fin N) 𝕜) (t : ℝ) (n : ℕ) (extra : ℤ) (ty : String) (h1 : 1 ≤ n)
    (h2 : n + 1 < min M N) (h3 : (min M N : ℕ) ≤ n + extra)
    (h4 : t < (svd A).s ⟨n - 1, by omega⟩) (fuel : ℕ) :
    svdThreshCoefFast svds A t n extra ty (fuel + 2) = some (.error .valueError) := by
  have e : ((min M N : ℕ) : ℤ) = (min M N : ℤ) := by push_cast; rfl
  have hf := first_eq hs hs' A n h1 (by omega)
  have hl : fastLoop svds A t extra (fuel + 2) n = some (.error .valueError) := by
    unfold fastLoop
    rw [if_neg (by push Not; omega), if_neg, min_eq_right (by omega)]
    · unfold fastLoop
      rw [if_pos (by omega)]
    · rw [Int.toNat_natCast, hf]
      push Not
      exact ⟨h4, by omega⟩
  unfold svdThreshCoefFast
  rw [if_neg (by omega), hl]
  rfl

/-- C66 (refutation): with `extra_vals = 0` and too few values the call never returns. -/
theorem C66_zero_extra_never_returns {svd : Matrix (Fin M) (Fin N) 𝕜 → Dec M N 𝕜} (hs : CorrectSvd svd)
    {svds : Matrix (Fin M) (Fin N) 𝕜 → ℕ → PartialDec M N 𝕜} (hs' : CorrectSvds svds)
    (A : Matrix (Fin M) (Fin N) 𝕜) (t : ℝ) (n : ℕ) (ty : String) (h1 : 1 ≤ n)
    (h2 : n + 1 < min M N) (h4 : t < (svd A).s ⟨n - 1, by omega⟩) (fuel : ℕ) :
    svdThreshCoefFast svds A t n 0 ty fuel = none := by
  have e : ((min M N : ℕ) : ℤ) = (min M N : ℤ) := by push_cast; rfl
  have hf := first_eq hs hs' A n h1 (by omega)
  have hl : ∀ fuel, fastLoop svds A t 0 fuel n = none := by
    intro fuel
    induction fuel with
    | zero => rfl
    | succ fuel ih =>
      unfold fastLoop
      rw [if_neg (by push Not; omega), if_neg, add_zero, min_eq_left (by omega)]
      · exact ih
      · rw [Int.toNat_natCast, hf]
        push Not
        exact ⟨h4, by omega⟩
  unfold svdThreshCoefFast
  rw [if_neg (by omega), hl]
  rfl

/-- C66 (refutation): a matrix with a single row or column is always rejected. -/
theorem C66_vectors_rejected (svds : Matrix (Fin M) (Fin N) 𝕜 → ℕ → PartialDec M N 𝕜)
    (A : Matrix (Fin M) (Fin N) 𝕜) (t : ℝ) (nVals extra : ℤ) (ty : String) (h : min M N ≤ 1) (fuel : ℕ) :
    svdThreshCoefFast svds A t nVals extra ty (fuel + 1) = some (.error .valueError) := by
  have e : ((min M N : ℕ) : ℤ) = (min M N : ℤ) := by push_cast; rfl
  have hl : ∀ n : ℤ, fastLoop svds A t extra (fuel + 1) n = some (.error .valueError) := by
    intro n
    unfold fastLoop
    rw [if_pos (by omega)]
  unfold svdThreshCoefFast
  rw [hl]
  rfl

/-- The 4×4 identity with threshold `1/2` and `n_vals = 2` meets the hypotheses of the overshoot theorem. -/
example : ∃ (svd : Matrix (Fin 4) (Fin 4) ℝ → Dec 4 4 ℝ) (svds : Matrix (Fin 4) (Fin 4) ℝ → ℕ → PartialDec 4 4 ℝ),
    CorrectSvd svd ∧ CorrectSvds svds ∧ (1 / 2 : ℝ) < (svd 1).s ⟨2 - 1, by decide⟩ := by
  obtain ⟨svd, h⟩ := exists_correctSvd 4 4 ℝ
  obtain ⟨svds, h'⟩ := exists_correctSvds 4 4 ℝ
  refine ⟨svd, svds, h, h', ?_⟩
  rw [isSVD_one_values (h 1)]; norm_num

/-- `diag(3, 1)` with threshold 2 meets the hypotheses of the agreement theorem: the routine returns, the
smallest singular value is below the threshold and none equals it. -/
example : ∃ (svd : Matrix (Fin 2) (Fin 2) ℝ → Dec 2 2 ℝ) (svds : Matrix (Fin 2) (Fin 2) ℝ → ℕ → PartialDec 2 2 ℝ),
    CorrectSvd svd ∧ CorrectSvds svds ∧
    (∃ B rank, svdThreshCoefFast svds (diagonal ![3, 1]) 2 1 5 (typeName true) 1 = some (.ok (B, rank))) ∧
    (∀ q : Fin (min 2 2), (q : ℕ) + 1 = min 2 2 → (svd (diagonal ![3, 1])).s q ≤ 2) ∧
    ∀ q, (svd (diagonal ![3, 1])).s q ≠ 2 := by
  obtain ⟨svd, h, hd⟩ := correctSvd_with diagDec diagDec_isSVD
  obtain ⟨svds, h'⟩ := exists_correctSvds 2 2 ℝ
  refine ⟨svd, svds, h, h', ?_, ?_, ?_⟩
  · obtain ⟨B, rank, hf⟩ := finish_ok (svds (diagonal ![3, 1]) 1) 2 true
    refine ⟨B, rank, ?_⟩
    simp [svdThreshCoefFast, fastLoop, bind, Except.bind, hf]
  · rw [hd]
    show ∀ q : Fin 2, (q : ℕ) + 1 = 2 → (![3, 1] : Fin 2 → ℝ) q ≤ 2
    intro q hq
    fin_cases q
    · simp at hq
    · simp
  · rw [hd]
    show ∀ q : Fin 2, (![3, 1] : Fin 2 → ℝ) q ≠ 2
    intro q
    fin_cases q <;> simp

/-! ## C96: the rank estimate kept by `LowRankMatrix` -/

/-- C96: without a rank estimate, no sequence of calls changes the object. -/
theorem C96_no_estimate_no_state (svd : Matrix (Fin M) (Fin N) 𝕜 → Dec M N 𝕜)
    (auto : Matrix (Fin M) (Fin (min M N)) 𝕜 → Py ℕ)
    (svds : Matrix (Fin M) (Fin N) 𝕜 → ℕ → PartialDec M N 𝕜) (fuel : ℕ) (o : LowRank M N 𝕜)
    (hr : o.rank = none) (calls : List ((Fin N → Fin M → 𝕜) × ℝ)) :
    calls.foldl (fun o' q => (lowRankOp svd auto svds fuel o' q.1 q.2 none).2) o = o := by
  induction calls with
  | nil => rfl
  | cons q l ih =>
    rw [List.foldl_cons]
    have : (lowRankOp svd auto svds fuel o q.1 q.2 none).2 = o := by
      by_cases h1 : o.lowrType = "standard"
      · simp [lowRankOp, h1, hr]
      · by_cases h2 : o.lowrType = "ngole"
        · simp [lowRankOp, h2]
        · simp [lowRankOp, h1, h2]
    rw [this, ih]

/-- C96: in standard mode with an estimate, a call that returns stores the number of singular values that
survived the thresholding as the new estimate, and changes nothing else. -/
theorem C96_estimate_is_updated {svds : Matrix (Fin M) (Fin N) 𝕜 → ℕ → PartialDec M N 𝕜}
    (hs : CorrectSvds svds) (svd : Matrix (Fin M) (Fin N) 𝕜 → Dec M N 𝕜)
    (auto : Matrix (Fin M) (Fin (min M N)) 𝕜 → Py ℕ) (fuel : ℕ) (o : LowRank M N 𝕜) (hard : Bool)
    (hstd : o.lowrType = "standard") (hty : o.threshType = typeName hard) (hthr : 0 ≤ o.thresh)
    (x : Fin N → Fin M → 𝕜) (c : ℝ) (hc : 0 ≤ c) (rank : Option ℤ) (hr : o.rank ≠ none ∨ rank ≠ none)
    (y : Fin N → Fin M → 𝕜) (o' : LowRank M N 𝕜)
    (h : lowRankOp svd auto svds fuel o x c rank = (some (.ok y), o')) :
    ∃ k : ℕ, o' = { o with rank := some (k : ℤ) } ∧
      ∃ (U : Matrix (Fin M) (Fin (min M N)) 𝕜) (s : Fin (min M N) → ℝ) (V : Matrix (Fin (min M N)) (Fin N) 𝕜)
        (n : ℕ) (sNew : Fin (min M N) → ℝ), IsSVD (toMatrix x) U s V ∧ n < min M N ∧
        thresh s (fun _ => o.thresh * c) (typeName hard) = .ok sNew ∧
        k = (Finset.univ.filter fun q : Fin (min M N) => (q : ℕ) < n ∧ sNew q ≠ 0).card := by
  have hcond : ¬ (o.lowrType = "standard" ∧ o.rank = none ∧ rank = none) := by
    rintro ⟨_, h1, h2⟩
    rcases hr with h3 | h3
    · exact h3 h1
    · exact h3 h2
  rw [lowRankOp, if_neg hcond, if_pos hstd] at h
  cases hro : rankOr rank o.rank with
  | none => simp [hro] at h
  | some n =>
    simp only [hro] at h
    cases hrun : svdThreshCoefFast svds (toMatrix x) (o.thresh * c) n 5 o.threshType fuel with
    | none => simp [hrun] at h
    | some res =>
      cases res with
      | error e => simp [hrun] at h
      | ok p =>
        obtain ⟨B, k⟩ := p
        simp only [hrun, Prod.mk.injEq] at h
        rw [hty] at hrun
        obtain ⟨U, s, V, n', h1, h2, h3, _, sNew, h5, _, h7⟩ := C66_returned_value hs (toMatrix x)
          (o.thresh * c) (mul_nonneg hthr hc) n 5 hard fuel B k hrun
        exact ⟨k, h.2.symm, U, s, V, n', sNew, h1, h3, h5, h7⟩

/-- C96: a rank of zero given to `op` means no rank: the stored estimate is used, and without one the call raises
`TypeError` (although a call without a rank succeeds then). -/
theorem C96_rank_zero_means_none (svd : Matrix (Fin M) (Fin N) 𝕜 → Dec M N 𝕜)
    (auto : Matrix (Fin M) (Fin (min M N)) 𝕜 → Py ℕ)
    (svds : Matrix (Fin M) (Fin N) 𝕜 → ℕ → PartialDec M N 𝕜) (fuel : ℕ) (o : LowRank M N 𝕜)
    (x : Fin N → Fin M → 𝕜) (c : ℝ) (hstd : o.lowrType = "standard") :
    (o.rank ≠ none → lowRankOp svd auto svds fuel o x c (some 0) = lowRankOp svd auto svds fuel o x c none) ∧
    (o.rank = none → lowRankOp svd auto svds fuel o x c (some 0) = (some (.error .typeError), o)) := by
  refine ⟨fun h => ?_, fun h => ?_⟩
  · rcases hr : o.rank with _ | r
    · exact absurd hr h
    · simp [lowRankOp, hstd, hr, rankOr]
  · simp [lowRankOp, hstd, h, rankOr]

/-- C96 (refutation): once the stored estimate is zero, every later call without an explicit rank raises
`ValueError`, whatever the data and the factor, and the object stays in that state. -/
theorem C96_zero_estimate_is_a_trap (svd : Matrix (Fin M) (Fin N) 𝕜 → Dec M N 𝕜)
    (auto : Matrix (Fin M) (Fin (min M N)) 𝕜 → Py ℕ)
    (svds : Matrix (Fin M) (Fin N) 𝕜 → ℕ → PartialDec M N 𝕜) (fuel : ℕ) (o : LowRank M N 𝕜)
    (hstd : o.lowrType = "standard") (hr : o.rank = some 0) (x : Fin N → Fin M → 𝕜) (c : ℝ) :
    lowRankOp svd auto svds (fuel + 1) o x c none = (some (.error .valueError), o) := by
  have hl : fastLoop svds (toMatrix x) (o.thresh * c) 5 (fuel + 1) 0 = some (.error .valueError) := by
    unfold fastLoop
    rw [if_pos (by omega)]
  simp [lowRankOp, hstd, hr, rankOr, svdThreshCoefFast, hl, bind, Except.bind]

/-- C96 (refutation, reachable): an object created with a rank estimate reaches that state through a single
successful call, on an all-zero stack, for all shapes with `min(M, N) ≥ 2` and every positive threshold. -/
theorem C96_trap_is_reachable {svds : Matrix (Fin M) (Fin N) 𝕜 → ℕ → PartialDec M N 𝕜}
    (hs' : CorrectSvds svds) (svd : Matrix (Fin M) (Fin N) 𝕜 → Dec M N 𝕜)
    (auto : Matrix (Fin M) (Fin (min M N)) 𝕜 → Py ℕ) (fuel : ℕ) (o : LowRank M N 𝕜) (hard : Bool)
    (hstd : o.lowrType = "standard") (hty : o.threshType = typeName hard) (hthr : 0 < o.thresh)
    (n : ℕ) (h1 : 1 ≤ n) (h2 : n < min M N) (hr : o.rank = some (n : ℤ)) :
    (lowRankOp svd auto svds (fuel + 1) o 0 1 none).2 = { o with rank := some 0 } ∧
    (lowRankOp svd auto svds (fuel + 1) o 0 1 none).1 = some (.ok 0) := by
  have e : ((min M N : ℕ) : ℤ) = (min M N : ℤ) := by push_cast; rfl
  have hz : toMatrix (0 : Fin N → Fin M → 𝕜) = 0 := rfl
  obtain ⟨hk, U, s, V, hsvd, htop⟩ := hs' 0 n h1 h2
  -- all singular values of the zero matrix vanish
  have hs0 : ∀ q, s q = 0 := by
    intro q
    have h0 : frobSq (0 : Matrix (Fin M) (Fin N) 𝕜) = 0 := by simp [frobSq]
    have h3 : frobSq (0 : Matrix (Fin M) (Fin N) 𝕜) = ∑ i, s i ^ 2 := by
      have := frobSq_factor_sub hsvd (fun _ => 0)
      simpa using this
    rw [h0] at h3
    have := (Finset.sum_eq_zero_iff_of_nonneg fun i _ => sq_nonneg (s i)).1 h3.symm q (Finset.mem_univ q)
    exact pow_eq_zero_iff two_ne_zero |>.1 this
  have hfirst : (svds 0 n).first = 0 := by
    have hpos : 0 < (svds 0 n).k := by rw [hk]; exact h1
    have := (htop ⟨0, hpos⟩ ⟨n - 1, by omega⟩ (by simp; omega)).1
    rw [PartialDec.first, dif_pos hpos, this, hs0]
  obtain ⟨B, rank, hf⟩ := finish_ok (svds 0 n) (o.thresh * 1) hard
  have hrun : svdThreshCoefFast svds (0 : Matrix (Fin M) (Fin N) 𝕜) (o.thresh * 1) n 5 (typeName hard)
      (fuel + 1) = some (.ok (B, rank)) := by
    have hl : fastLoop svds 0 (o.thresh * 1) 5 (fuel + 1) (n : ℤ) = some (.ok (svds 0 n)) := by
      unfold fastLoop
      rw [if_neg (by push Not; omega), Int.toNat_natCast, if_pos]
      left; rw [hfirst, mul_one]; exact hthr.le
    unfold svdThreshCoefFast
    rw [if_neg (by omega), hl]
    simpa [bind, Except.bind] using hf
  obtain ⟨U', s', V', k', hsvd', _, _, _, sNew, hsN, hB, hrk⟩ := C66_returned_value hs' 0 (o.thresh * 1)
    (by rw [mul_one]; exact hthr.le) n 5 hard (fuel + 1) B rank hrun
  have hv : s' = s := isSVD_values_unique hsvd' hsvd
  rw [thresh_eq_threshReal _ hsvd'.nonneg, Except.ok.injEq] at hsN
  have hn0 : ∀ q, sNew q = 0 := by
    intro q; rw [← hsN]; simp only; rw [hv, hs0, threshReal_zero]
  have hrank : rank = 0 := by
    rw [hrk, Finset.card_eq_zero, Finset.filter_eq_empty_iff]
    intro q _ h; exact h.2 (hn0 q)
  have hB0 : B = 0 := by
    ext i j
    rw [hB]
    exact Finset.sum_eq_zero fun q _ => by rw [hn0]; simp
  subst hrank hB0
  have hcond : ¬ (o.lowrType = "standard" ∧ o.rank = none ∧ (none : Option ℤ) = none) := by
    rw [hr]; simp
  have : lowRankOp svd auto svds (fuel + 1) o 0 1 none = (some (.ok 0), { o with rank := some 0 }) := by
    rw [lowRankOp, if_neg hcond, if_pos hstd, hr]
    simp only [rankOr, hz, hty, hrun]
    rfl
  rw [this]
  exact ⟨rfl, rfl⟩

/-- A two-call history of a concrete object: the first call, on blank images, succeeds; the second call, on any
images, raises `ValueError`. -/
example (svds : Matrix (Fin 4) (Fin 3) ℝ → ℕ → PartialDec 4 3 ℝ) (hs : CorrectSvds svds)
    (svd : Matrix (Fin 4) (Fin 3) ℝ → Dec 4 3 ℝ) (auto : Matrix (Fin 4) (Fin (min 4 3)) ℝ → Py ℕ)
    (x : Fin 3 → Fin 4 → ℝ) :
    let o : LowRank 4 3 ℝ := ⟨1 / 2, "soft", "standard", none, some 2⟩
    (lowRankOp svd auto svds 1 o 0 1 none).1 = some (.ok 0) ∧
    (lowRankOp svd auto svds 1 (lowRankOp svd auto svds 1 o 0 1 none).2 x 1 none).1 =
      some (.error .valueError) := by
  intro o
  have h := C96_trap_is_reachable hs svd auto 0 o false rfl rfl (by norm_num [o]) 2 (by norm_num) (by norm_num)
    (by rfl)
  refine ⟨h.2, ?_⟩
  rw [h.1, C96_zero_estimate_is_a_trap svd auto svds 0 _ (by rfl) (by rfl)]

end Verif
