import Verif.Model.Svd
import Verif.Spec.FindNPc
import Verif.Lemmas.Convolve
import Verif.Props.Rotate
import Mathlib.Tactic.Linarith

/-!
# The number of principal components (C98)
-/

namespace Verif
open NDArray Convolve NpAdjust Spec Svd

variable {r : ℕ}

/-- Column `l` of `u` seen as an `n × n` image: pixel `(i, j)` is entry `i * n + j`. -/
def columnImage {M : ℕ} (u : Matrix (Fin M) (Fin r) ℝ) (n : ℕ) (l : Fin r) (i j : ℕ) : ℝ :=
  if h : i * n + j < M then u ⟨i * n + j, h⟩ l else 0

theorem pcImage_get {M : ℕ} (u : Matrix (Fin M) (Fin r) ℝ) (n : ℕ) (l : Fin r) {i j : ℕ} (hi : i < n)
    (hj : j < n) : (pcImage u n l).get [i, j] = columnImage u n l i j := by
  unfold pcImage
  rw [get_ofFn _ (by rw [inB_two]; exact ⟨_, _, rfl, hi, hj⟩)]
  rfl

theorem pcAuto_spec {M : ℕ} (u : Matrix (Fin M) (Fin r) ℝ) (n : ℕ) (hn : 0 < n) (l : Fin r) :
    ∃ w, pcAuto u n l = .ok w ∧ w.WF ∧ w.shape = [n, n] ∧ ∀ i j, i < n → j < n →
      w.get [i, j] = autocorr (columnImage u n l) n ((n / 2 : ℕ) - i) ((n / 2 : ℕ) - j) := by
  have hs : (pcImage u n l).shape = [n, n] := rfl
  obtain ⟨k, hk, hkwf, hks, hkget⟩ := rot180_spec (s := []) hs
  obtain ⟨w, hw, hwf, hws, hwget⟩ := convolve_two (fun x _ => x) true hs hks hn hn hn hn
  refine ⟨w, ?_, hwf, hws, ?_⟩
  · simp only [pcAuto, hk, bind, Except.bind, hw]
  · intro i j hi hj
    rw [hwget i j hi hj]
    unfold conv2 autocorr
    refine Finset.sum_congr rfl fun a ha => Finset.sum_congr rfl fun b hb => ?_
    rw [Finset.mem_range] at ha hb
    beta_reduce
    rw [pcImage_get u n l ha hb]
    congr 1
    unfold kernelValue
    by_cases hc : (0 ≤ (i : ℤ) + ((n - 1) / 2 : ℕ) - a ∧ (i : ℤ) + ((n - 1) / 2 : ℕ) - a < n ∧
        0 ≤ (j : ℤ) + ((n - 1) / 2 : ℕ) - b ∧ (j : ℤ) + ((n - 1) / 2 : ℕ) - b < n)
    · rw [if_pos hc, if_pos (by omega)]
      beta_reduce
      rw [hkget _ _ [] (by omega) (by omega) (by simp [InB]),
        pcImage_get u n l (by omega) (by omega)]
      congr 1 <;> omega
    · rw [if_neg hc, if_neg (by omega)]

theorem pcTest_spec {M : ℕ} (u : Matrix (Fin M) (Fin r) ℝ) (n : ℕ) (hn : 0 < n) (l : Fin r) (factor : ℝ)
    {w : NDArray ℝ} (h : pcAuto u n l = .ok w) :
    pcTest factor n w = true ↔
      autocorr (columnImage u n l) n 0 0 ^ 2 ≤ factor * autoEnergy (columnImage u n l) n := by
  obtain ⟨w', h', hwf, hs, hget⟩ := pcAuto_spec u n hn l
  obtain rfl : w = w' := by rw [h] at h'; exact Except.ok.inj h'
  unfold pcTest
  rw [decide_eq_true_iff, hget _ _ (Nat.div_lt_self hn one_lt_two |>.trans_le le_rfl)
    (Nat.div_lt_self hn one_lt_two), sub_self]
  have : (w.data.map fun z => z ^ 2).sum = autoEnergy (columnImage u n l) n := by
    rw [data_eq_map_get hwf, List.map_map, hs, sum_allIdx_two]
    unfold autoEnergy
    refine Finset.sum_congr rfl fun i hi => Finset.sum_congr rfl fun j hj => ?_
    rw [Finset.mem_range] at hi hj
    simp only [Function.comp]
    rw [hget i j hi hj]
  rw [this]

/-- C98: left singular vectors whose length is not a perfect square are rejected. -/
theorem C98_non_square_rejected {M : ℕ} (u : Matrix (Fin M) (Fin r) ℝ) (factor : ℝ) (h : ¬ ∃ n, n * n = M) :
    findNPc u factor = .error .valueError := by
  unfold findNPc
  rw [if_pos fun hc => h ⟨_, hc⟩]

open Classical in
/-- C98: `find_n_pc(u, factor)` counts the columns whose squared autocorrelation at lag zero is at most
`factor` times the energy of their autocorrelation. -/
theorem C98_counts_columns (n : ℕ) (hn : 0 < n) (u : Matrix (Fin (n * n)) (Fin r) ℝ) (factor : ℝ) :
    findNPc u factor = .ok (Finset.univ.filter fun l : Fin r =>
      autocorr (columnImage u n l) n 0 0 ^ 2 ≤ factor * autoEnergy (columnImage u n l) n).card := by
  unfold findNPc
  have hsq : Nat.sqrt (n * n) = n := Nat.sqrt_eq n
  rw [if_neg (by rw [hsq]; simp)]
  rw [hsq]
  have hex := fun l => (pcAuto_spec u n hn l)
  choose g hg using hex
  rw [mapM_ok (List.finRange r) _ g fun l _ => (hg l).1]
  show Except.ok _ = Except.ok _
  congr 1
  rw [List.filter_map, List.length_map, ← List.toFinset_card_of_nodup ((List.nodup_finRange r).filter _)]
  congr 1
  ext l
  simp only [List.mem_toFinset, List.mem_filter, List.mem_finRange, true_and, Finset.mem_filter,
    Finset.mem_univ, Function.comp]
  exact pcTest_spec u n hn l factor (hg l).1

/-- C98: the value tested is the squared norm of the column. -/
theorem C98_lag_zero_is_squared_norm (n : ℕ) (u : Matrix (Fin (n * n)) (Fin r) ℝ) (l : Fin r) :
    autocorr (columnImage u n l) n 0 0 = ∑ i, u i l ^ 2 := by
  unfold autocorr
  have h1 : ∀ a ∈ Finset.range n, ∀ b ∈ Finset.range n,
      columnImage u n l a b * kernelValue (columnImage u n l) n n (a + 0) (b + 0)
        = columnImage u n l a b ^ 2 := by
    intro a ha b hb
    rw [Finset.mem_range] at ha hb
    unfold kernelValue
    rw [if_pos (by omega), sq]
    simp
  rw [Finset.sum_congr rfl fun a ha => Finset.sum_congr rfl (h1 a ha)]
  rw [Finset.sum_range]
  simp_rw [Finset.sum_range]
  rw [← Finset.sum_product' (s := Finset.univ) (t := Finset.univ)
    (f := fun (a b : Fin n) => columnImage u n l a b ^ 2), Finset.univ_product_univ,
    ← finProdFinEquiv.symm.sum_comp]
  refine Finset.sum_congr rfl fun i _ => ?_
  have hi : ((finProdFinEquiv.symm i).1 : ℕ) * n + (finProdFinEquiv.symm i).2 = i := by
    have := congrArg Fin.val (finProdFinEquiv.apply_symm_apply i)
    rw [finProdFinEquiv_apply_val] at this
    rw [mul_comm, add_comm]; exact this
  unfold columnImage
  rw [dif_pos (by rw [hi]; exact i.2)]
  congr 2
  exact Fin.ext hi

theorem autoEnergy_ge (f : ℕ → ℕ → ℝ) (n : ℕ) (hn : 0 < n) : autocorr f n 0 0 ^ 2 ≤ autoEnergy f n := by
  unfold autoEnergy
  have h1 := Finset.single_le_sum (f := fun i : ℕ => ∑ j ∈ Finset.range n,
    autocorr f n ((n / 2 : ℕ) - i) ((n / 2 : ℕ) - j) ^ 2)
    (fun i _ => Finset.sum_nonneg fun j _ => sq_nonneg _)
    (Finset.mem_range.2 (Nat.div_lt_self hn one_lt_two) : n / 2 ∈ Finset.range n)
  have h2 := Finset.single_le_sum (f := fun j : ℕ => autocorr f n ((n / 2 : ℕ) - (n / 2 : ℕ)) ((n / 2 : ℕ) - j) ^ 2)
    (fun j _ => sq_nonneg _) (Finset.mem_range.2 (Nat.div_lt_self hn one_lt_two) : n / 2 ∈ Finset.range n)
  simp only [sub_self] at h1 h2
  exact h2.trans h1

/-- C98: the count is at most the number of columns, grows with the factor, and is the number of columns as
soon as the factor reaches one. -/
theorem C98_monotone_and_bounded (n : ℕ) (hn : 0 < n) (u : Matrix (Fin (n * n)) (Fin r) ℝ) (f g : ℝ)
    (hfg : f ≤ g) : ∃ k k', findNPc u f = .ok k ∧ findNPc u g = .ok k' ∧ k ≤ k' ∧ k' ≤ r ∧
      (1 ≤ g → k' = r) := by
  classical
  have hnn : ∀ l, 0 ≤ autoEnergy (columnImage u n l) n := fun l =>
    (sq_nonneg _).trans (autoEnergy_ge _ n hn)
  refine ⟨_, _, C98_counts_columns n hn u f, C98_counts_columns n hn u g, ?_, ?_, ?_⟩
  · apply Finset.card_le_card
    intro l hl
    rw [Finset.mem_filter] at hl ⊢
    exact ⟨hl.1, hl.2.trans (mul_le_mul_of_nonneg_right hfg (hnn l))⟩
  · exact (Finset.card_filter_le _ _).trans (by simp)
  · intro h1
    rw [Finset.filter_true_of_mem]
    · simp
    · intro l _
      exact (autoEnergy_ge _ n hn).trans (le_mul_of_one_le_left (hnn l) h1)

/-- C98 (refutation of "the count is the number of significant components"): for one-pixel images every
non-zero column is rejected by the default factor `1/10`, so the count is zero. -/
theorem C98_can_be_zero (u : Matrix (Fin (1 * 1)) (Fin r) ℝ) (hu : ∀ l, u 0 l ≠ 0) :
    findNPc u (1 / 10) = .ok 0 := by
  classical
  rw [C98_counts_columns 1 one_pos u (1 / 10)]
  congr 1
  rw [Finset.card_eq_zero, Finset.filter_eq_empty_iff]
  intro l _ h
  have e : autoEnergy (columnImage u 1 l) 1 = autocorr (columnImage u 1 l) 1 0 0 ^ 2 := by
    simp [autoEnergy]
  rw [e, C98_lag_zero_is_squared_norm 1 u l] at h
  have hpos : 0 < (∑ i, u i l ^ 2) ^ 2 := by
    apply pow_pos
    exact Finset.sum_pos' (fun i _ => sq_nonneg _) ⟨0, Finset.mem_univ _, by have := hu l; positivity⟩
  linarith

/-- One-pixel images with columns 1 and 2 meet the hypothesis. -/
example : ∃ u : Matrix (Fin (1 * 1)) (Fin 2) ℝ, ∀ l, u 0 l ≠ 0 :=
  ⟨Matrix.of fun _ l => (l : ℝ) + 1, fun l => by simp only [Matrix.of_apply]; positivity⟩

end Verif
