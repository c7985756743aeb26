import Verif.Model.Owl
import Verif.Lemmas.Owl
import Mathlib.Tactic.NormNum
import Mathlib.Data.Fin.VecNotation
import Mathlib.Data.List.GetD
import Mathlib.Algebra.BigOperators.Fin

/-!
# The ordered weighted l1 norm (C32)
-/

set_option linter.unusedSectionVars false

namespace Verif
open Spec Owl

variable {n : ℕ} {𝕜 : Type} [RCLike 𝕜]

/-- `argsort` sorts: the entries read in the order of the returned positions are non-decreasing. -/
def CorrectArgsort (argsort : (Fin n → ℝ) → Equiv.Perm (Fin n)) : Prop :=
  ∀ v : Fin n → ℝ, Monotone fun i => v (argsort v i)

/-- The weights of an object of length `n`, as a vector. -/
def weightVec (n : ℕ) (w : List ℝ) : Fin n → ℝ := fun i => w.getD i 0

theorem mem_diffs {l : List ℝ} {d : ℝ} : d ∈ diffs l ↔ ∃ (i : ℕ) (h : i + 1 < l.length), d = l[i + 1] - l[i] := by
  unfold diffs
  rw [List.mem_iff_getElem]
  constructor
  · rintro ⟨i, hi, rfl⟩
    simp only [List.length_zipWith, List.length_tail] at hi
    exact ⟨i, by omega, by simp⟩
  · rintro ⟨i, hi, rfl⟩
    exact ⟨i, by simp; omega, by simp⟩

/-- C32: one-dimensional weights are accepted exactly if there are at least two of them, they are
non-increasing and none is negative; otherwise `ValueError` is raised. -/
theorem C32_weights_validated (l : List ℝ) :
    (2 ≤ l.length ∧ l.Pairwise (· ≥ ·) ∧ (∀ w ∈ l, 0 ≤ w) → init true (.vec l) = .ok l) ∧
    (¬ (2 ≤ l.length ∧ l.Pairwise (· ≥ ·) ∧ ∀ w ∈ l, 0 ≤ w) → init true (.vec l) = .error .valueError) := by
  have hnil : diffs l = [] ↔ l.length < 2 := by
    rw [← List.length_eq_zero_iff, diffs, List.length_zipWith, List.length_tail]; omega
  have hdec : (¬ ∃ d ∈ diffs l, 0 < d) ↔ l.Pairwise (· ≥ ·) := by
    rw [← List.isChain_iff_pairwise, List.isChain_iff_getElem]
    constructor
    · intro h i hi
      by_contra hc
      exact h ⟨_, mem_diffs.2 ⟨i, hi, rfl⟩, by linarith⟩
    · rintro h ⟨d, hd, hpos⟩
      obtain ⟨i, hi, rfl⟩ := mem_diffs.1 hd
      have := h i hi
      linarith
  constructor
  · rintro ⟨h1, h2, h3⟩
    unfold init
    change (if ¬ true = true then _ else if diffs l = [] then _ else if ∃ d ∈ diffs l, 0 < d then _ else
      if ∃ w ∈ l, w < 0 then _ else Except.ok l) = _
    rw [if_neg (by simp), if_neg (by rw [hnil]; omega), if_neg (hdec.2 h2), if_neg]
    rintro ⟨w, hw, hneg⟩
    exact absurd (h3 w hw) (not_le.2 hneg)
  · intro h
    unfold init
    change (if ¬ true = true then _ else if diffs l = [] then _ else if ∃ d ∈ diffs l, 0 < d then _ else
      if ∃ w ∈ l, w < 0 then _ else Except.ok l) = _
    rw [if_neg (by simp)]
    by_cases c1 : diffs l = []
    · rw [if_pos c1]
    · rw [if_neg c1]
      by_cases c2 : ∃ d ∈ diffs l, 0 < d
      · rw [if_pos c2]
      · rw [if_neg c2]
        by_cases c3 : ∃ w ∈ l, w < 0
        · rw [if_pos c3]
        · exfalso
          refine h ⟨by rw [hnil] at c1; omega, hdec.1 c2, fun w hw => ?_⟩
          by_contra hc
          exact c3 ⟨w, hw, not_le.1 hc⟩

/-- C32 (refutation for two-dimensional weights): only the rows are checked, so the flattened weights of an
accepted object need not be non-increasing. -/
theorem C32_two_dimensional_weights_not_checked :
    init true (.mat [[1, 0], [5, 0]]) = .ok [1, 0, 5, 0] ∧ ¬ ([1, 0, 5, 0] : List ℝ).Pairwise (· ≥ ·) := by
  constructor
  · have hd : (WeightsArg.mat [[1, 0], [5, 0]]).diff = [0 - 1, 0 - 5] := rfl
    have hf : (WeightsArg.mat [[1, 0], [5, 0]]).flatten = [1, 0, 5, 0] := rfl
    unfold init
    rw [if_neg (by simp), if_neg (by rw [hd]; simp), if_neg (by rw [hd]; simp),
      if_neg (by rw [hf]; simp), hf]
  · simp

/-- C32: data whose length differs from the number of weights are rejected by `op` and `cost`. -/
theorem C32_length_mismatch_rejected (argsort : (Fin n → ℝ) → Equiv.Perm (Fin n))
    (iso : (Fin n → ℝ) → Fin n → ℝ) (w : List ℝ) (x : Fin n → 𝕜) (c : ℝ) (h : w.length ≠ n) :
    Owl.op argsort iso w x c = .error .valueError ∧ cost w x = .error .valueError := by
  simp [Owl.op, cost, h]

theorem sign_mul_norm (x : 𝕜) : Owl.sign x * (‖x‖ : 𝕜) = x := by
  unfold Owl.sign
  split_ifs with h
  · rw [norm_eq_zero.1 h]; simp
  · rw [div_mul_cancel₀]; exact_mod_cast h

theorem norm_sign {x : 𝕜} (h : x ≠ 0) : ‖Owl.sign x‖ = 1 := by
  unfold Owl.sign
  have h0 : ‖x‖ ≠ 0 := norm_ne_zero_iff.2 h
  rw [if_neg h0, norm_div, RCLike.norm_ofReal, abs_of_nonneg (norm_nonneg x), div_self h0]

/-- C32: for every admissible weight vector and non-negative factor `c`, `op(x, c)` is the unique minimiser of
`½‖u - x‖² + c · Ω(u)`, where `Ω` is the ordered weighted l1 norm; ties in the sorting do not matter. -/
theorem C32_op_is_prox_of_owl_norm {argsort : (Fin n → ℝ) → Equiv.Perm (Fin n)} (ha : CorrectArgsort argsort)
    {iso : (Fin n → ℝ) → Fin n → ℝ} (hiso : ∀ y, IsMonotoneFit y (iso y)) (w : List ℝ) (hl : w.length = n)
    (hdec : w.Pairwise (· ≥ ·)) (hnn : ∀ a ∈ w, 0 ≤ a) (x : Fin n → 𝕜) (c : ℝ) (hc : 0 ≤ c) :
    ∃ p, Owl.op argsort iso w x c = .ok p ∧ IsUniqueProx (fun u => c * owl (weightVec n w) u) x p := by
  have hw0 : ∀ i, 0 ≤ weightVec n w i := by
    intro i
    unfold weightVec
    rw [List.getD_eq_getElem _ _ (by rw [hl]; exact i.2)]
    exact hnn _ (List.getElem_mem _)
  have hwa : Antitone (weightVec n w) := by
    intro i j hij
    unfold weightVec
    rw [List.getD_eq_getElem w _ (hl ▸ i.2 : (i : ℕ) < w.length), List.getD_eq_getElem w _ (hl ▸ j.2 : (j : ℕ) < w.length)]
    rcases eq_or_lt_of_le hij with h | h
    · subst h; exact le_rfl
    · exact List.pairwise_iff_getElem.1 hdec i j _ _ h
  set σ := revPerm (argsort fun j => ‖x j‖) with hσ
  set y : Fin n → ℝ := fun i => ‖x (σ i)‖ with hy
  set z := iso (fun i => y i - weightVec n w i * c) with hz
  have hfit : IsMonotoneFit (fun i => y i - weightVec n w i * c) z := hiso _
  have hya : Antitone y := by
    intro i j hij
    exact (show Monotone fun i => ‖x (argsort (fun j => ‖x j‖) i)‖ from ha fun j => ‖x j‖) (Fin.rev_le_rev.2 hij)
  have hzero : ∀ i, y i = 0 → z i = 0 := by
    intro i hi
    apply monotoneFit_tail_zero hfit i
    intro j hij
    have h1 : y j ≤ 0 := hi ▸ hya hij
    have h2 := mul_nonneg (hw0 j) hc
    linarith
  set p : Fin n → 𝕜 := fun j => Owl.sign (x j) * (z (σ.symm j) : 𝕜) with hp
  have hop : Owl.op argsort iso w x c = .ok p := by
    unfold Owl.op
    rw [if_neg (by simpa using hl)]
    rfl
  -- moduli and distances of the result
  have hpn : ∀ i, ‖p (σ i)‖ = z i := by
    intro i
    simp only [hp, norm_mul, Equiv.symm_apply_apply, RCLike.norm_ofReal, abs_of_nonneg (hfit.2.1 i)]
    by_cases h : x (σ i) = 0
    · rw [hzero i (by simp [hy, h])]; simp
    · rw [norm_sign h, one_mul]
  have hpd : ∀ i, ‖x (σ i) - p (σ i)‖ ^ 2 = (z i - y i) ^ 2 := by
    intro i
    have e : x (σ i) - p (σ i) = Owl.sign (x (σ i)) * ((y i - z i : ℝ) : 𝕜) := by
      conv_lhs => rw [← sign_mul_norm (x (σ i))]
      simp only [hp, Equiv.symm_apply_apply]
      push_cast
      rw [mul_sub]
    rw [e, norm_mul, RCLike.norm_ofReal, mul_pow, sq_abs]
    by_cases h : x (σ i) = 0
    · have h0 : y i = 0 := by simp [hy, h]
      rw [hzero i h0, h0]; simp
    · rw [norm_sign h]; ring
  have hhalf : ∀ u : Fin n → 𝕜, halfSqDist x u = 1 / 2 * ∑ i, ‖x (σ i) - u (σ i)‖ ^ 2 := fun u => by
    unfold halfSqDist; rw [← Equiv.sum_comp σ fun i => ‖x i - u i‖ ^ 2]
  have hprox : IsProx (fun u => c * owl (weightVec n w) u) x p := by
    intro u
    have hdu : ∑ i, (decreasing (fun j => ‖u j‖) i - y i) ^ 2 ≤ ∑ i, ‖x (σ i) - u (σ i)‖ ^ 2 := by
      refine (sum_sq_decreasing_le (fun j => ‖u j‖) y hya σ).trans (Finset.sum_le_sum fun i _ => ?_)
      have h := abs_norm_sub_norm_le (u (σ i)) (x (σ i))
      rw [norm_sub_rev] at h
      calc (‖u (σ i)‖ - y i) ^ 2 = |‖u (σ i)‖ - ‖x (σ i)‖| ^ 2 := by rw [sq_abs]
        _ ≤ _ := pow_le_pow_left₀ (abs_nonneg _) h 2
    have hmin := hfit.2.2 (decreasing fun j => ‖u j‖) (decreasing_antitone _) fun i => norm_nonneg _
    have expand : ∀ v : Fin n → ℝ, ∑ i, (v i - (y i - weightVec n w i * c)) ^ 2
        = ∑ i, (v i - y i) ^ 2 + 2 * c * ∑ i, weightVec n w i * v i
          + ∑ i, ((weightVec n w i * c) ^ 2 - 2 * (y i * (weightVec n w i * c))) := by
      intro v
      rw [Finset.mul_sum, ← Finset.sum_add_distrib, ← Finset.sum_add_distrib]
      exact Finset.sum_congr rfl fun i _ => by ring
    rw [expand, expand] at hmin
    have howl : owl (weightVec n w) p = ∑ i, weightVec n w i * z i := by
      rw [owl_eq (weightVec n w) p σ]
      · exact Finset.sum_congr rfl fun i _ => by rw [hpn]
      · intro i j hij
        simp only [hpn]
        exact hfit.1 hij
    have howlu : owl (weightVec n w) u = ∑ i, weightVec n w i * decreasing (fun j => ‖u j‖) i := rfl
    rw [hhalf p, hhalf u, Finset.sum_congr rfl fun i _ => hpd i]
    simp only [howl, howlu]
    linarith
  refine ⟨p, hop, hprox, fun q hq => isProx_unique_of_midpoint _ ?_ hprox hq⟩
  intro u v
  have h1 : owl (weightVec n w) (fun i => (u i + v i) / 2) ≤ (owl (weightVec n w) u + owl (weightVec n w) v) / 2 := by
    have h2 := owl_smul (weightVec n w) (1 / 2 : 𝕜) fun i => u i + v i
    have h3 := owl_add_le (weightVec n w) hwa hw0 u v
    have e : (fun i => (1 / 2 : 𝕜) * (u i + v i)) = fun i => (u i + v i) / 2 := by funext i; ring
    have e2 : ‖(1 / 2 : 𝕜)‖ = 1 / 2 := by simp
    rw [e, e2] at h2
    rw [h2]; linarith
  have := mul_le_mul_of_nonneg_left h1 hc
  linarith

/-- C32: what `cost` computes: the weighted sum of the moduli in *non-decreasing* order. -/
theorem C32_cost_value (w : List ℝ) (hl : w.length = n) (x : Fin n → 𝕜) (σ : Equiv.Perm (Fin n))
    (hσ : Monotone fun i => ‖x (σ i)‖) :
    cost w x = .ok (∑ i, weightVec n w i * ‖x (σ i)‖) := by
  unfold cost
  rw [if_neg (by simpa using hl)]
  refine congrArg Except.ok (Finset.sum_congr rfl fun i _ => ?_)
  have h1 := Tuple.monotone_sort fun i : Fin n => ‖x i.rev‖
  have h2 : Monotone ((fun j => ‖x j‖) ∘ ((Tuple.sort fun i : Fin n => ‖x i.rev‖).trans Fin.revPerm :
      Equiv.Perm (Fin n))) := h1
  have := congrFun (Tuple.unique_monotone h2 (show Monotone ((fun j => ‖x j‖) ∘ σ) from hσ)) i
  exact congrArg (weightVec n w i * ·) this

/-- C32 (refutation of "cost is the OWL norm", with the exact relation): `cost` never exceeds the OWL norm; it
is the smallest, while the norm is the largest, of all weighted sums over the orderings of the data. -/
theorem C32_cost_is_smallest_owl_is_largest (w : List ℝ) (hl : w.length = n) (hdec : w.Pairwise (· ≥ ·))
    (x : Fin n → 𝕜) :
    ∃ v, cost w x = .ok v ∧ v ≤ owl (weightVec n w) x ∧
      ∀ π : Equiv.Perm (Fin n), v ≤ ∑ i, weightVec n w i * ‖x (π i)‖ ∧
        ∑ i, weightVec n w i * ‖x (π i)‖ ≤ owl (weightVec n w) x := by
  have hwa : Antitone (weightVec n w) := by
    intro i j hij
    unfold weightVec
    rw [List.getD_eq_getElem w _ (hl ▸ i.2 : (i : ℕ) < w.length), List.getD_eq_getElem w _ (hl ▸ j.2 : (j : ℕ) < w.length)]
    rcases eq_or_lt_of_le hij with h | h
    · subst h; exact le_rfl
    · exact List.pairwise_iff_getElem.1 hdec i j _ _ h
  have hv := C32_cost_value w hl x (Tuple.sort fun j => ‖x j‖) (Tuple.monotone_sort fun j => ‖x j‖)
  have hle : ∀ π : Equiv.Perm (Fin n), ∑ i, weightVec n w i * ‖x (Tuple.sort (fun j => ‖x j‖) i)‖ ≤
      ∑ i, weightVec n w i * ‖x (π i)‖ := by
    intro π
    have := decreasing_le_sum_mul (weightVec n w) (fun j => ‖x j‖) hwa π
    simpa [decreasing] using this
  exact ⟨_, hv, (hle 1).trans (le_owl _ hwa x 1), fun π => ⟨hle π, le_owl _ hwa x π⟩⟩

/-- C32 (part): cost and norm agree when the weights are all equal (the plain weighted l1 norm). -/
theorem C32_cost_is_owl_norm_partial (w : List ℝ) (hl : w.length = n) (a : ℝ) (hw : ∀ b ∈ w, b = a)
    (x : Fin n → 𝕜) : cost w x = .ok (owl (weightVec n w) x) := by
  have hc : ∀ i, weightVec n w i = a := by
    intro i
    unfold weightVec
    rw [List.getD_eq_getElem _ _ (by rw [hl]; exact i.2)]
    exact hw _ (List.getElem_mem _)
  rw [C32_cost_value w hl x (Tuple.sort fun j => ‖x j‖) (Tuple.monotone_sort fun j => ‖x j‖)]
  obtain ⟨τ, hτ⟩ := owl_attained (weightVec n w) x
  rw [hτ]
  congr 1
  simp only [hc, ← Finset.mul_sum]
  congr 1
  rw [Equiv.sum_comp (Tuple.sort fun j => ‖x j‖) fun j => ‖x j‖, Equiv.sum_comp τ fun j => ‖x j‖]

/-- C32 (refutation, the example of the documentation): weights `4,3,2,1,0` and data `0,5,10,15,20` give the
cost 50; the OWL norm is 150. -/
theorem C32_documented_example_is_not_the_norm :
    cost [4, 3, 2, 1, 0] (![0, 5, 10, 15, 20] : Fin 5 → ℝ) = .ok 50 ∧
    owl (weightVec 5 [4, 3, 2, 1, 0]) (![0, 5, 10, 15, 20] : Fin 5 → ℝ) = 150 := by
  have hmono : Monotone fun i => ‖(![0, 5, 10, 15, 20] : Fin 5 → ℝ) ((1 : Equiv.Perm (Fin 5)) i)‖ := by
    rw [Fin.monotone_iff_le_succ]
    intro i
    fin_cases i <;> simp <;> norm_num
  constructor
  · rw [C32_cost_value (n := 5) [4, 3, 2, 1, 0] rfl _ 1 hmono]
    congr 1
    simp [Fin.sum_univ_succ, weightVec]
    norm_num
  · rw [owl_eq _ _ Fin.revPerm]
    · simp [Fin.sum_univ_succ, weightVec]
      norm_num
    · intro i j hij
      have := hmono (Fin.rev_le_rev.2 hij)
      simpa using this

/-- C32 (refutation): `op` is therefore not the proximity operator of `cost`: with weights `1, 0` at `(2, 2)`,
every correct sort and fit give a point that does not minimise `½‖u - x‖² + cost(u)`. -/
theorem C32_op_is_not_prox_of_cost {argsort : (Fin 2 → ℝ) → Equiv.Perm (Fin 2)} (ha : CorrectArgsort argsort)
    {iso : (Fin 2 → ℝ) → Fin 2 → ℝ} (hiso : ∀ y, IsMonotoneFit y (iso y)) :
    ∃ p vp vu, Owl.op argsort iso [1, 0] (![2, 2] : Fin 2 → ℝ) 1 = .ok p ∧ cost [1, 0] p = .ok vp ∧
      cost [1, 0] (![1, 2] : Fin 2 → ℝ) = .ok vu ∧
      halfSqDist ![2, 2] (![1, 2] : Fin 2 → ℝ) + vu < halfSqDist ![2, 2] p + vp := by
  obtain ⟨p, hop, hprox⟩ := C32_op_is_prox_of_owl_norm ha hiso [1, 0] rfl (by simp) (by simp)
    (![2, 2] : Fin 2 → ℝ) 1 zero_le_one
  -- the minimiser of the convex problem is (3/2, 3/2)
  have hw : weightVec 2 [1, 0] = ![1, 0] := by
    funext i; fin_cases i <;> rfl
  have howl : ∀ u : Fin 2 → ℝ, |u 0| ≤ owl (weightVec 2 [1, 0]) u ∧ |u 1| ≤ owl (weightVec 2 [1, 0]) u := by
    intro u
    have hwa : Antitone (weightVec 2 [1, 0]) := by
      rw [hw, Fin.antitone_iff_succ_le]; intro i; fin_cases i; simp
    have h1 := le_owl (weightVec 2 [1, 0]) hwa u 1
    have h2 := le_owl (weightVec 2 [1, 0]) hwa u (Equiv.swap 0 1)
    rw [hw] at h1 h2 ⊢
    simp [Fin.sum_univ_two] at h1 h2
    exact ⟨h1, h2⟩
  have hval : owl (weightVec 2 [1, 0]) (![3 / 2, 3 / 2] : Fin 2 → ℝ) = 3 / 2 := by
    rw [owl_eq _ _ 1, hw]
    · simp [Fin.sum_univ_two]; norm_num
    · intro i j _; fin_cases i <;> fin_cases j <;> simp
  have hcand : IsProx (fun u => 1 * owl (weightVec 2 [1, 0]) u) (![2, 2] : Fin 2 → ℝ) ![3 / 2, 3 / 2] := by
    intro u
    simp only [hval, halfSqDist, Fin.sum_univ_two]
    obtain ⟨h1, h2⟩ := howl u
    have h3 := (le_abs_self (u 0)).trans h1
    have h4 := (le_abs_self (u 1)).trans h2
    simp only [Matrix.cons_val_zero, Matrix.cons_val_one, Real.norm_eq_abs, sq_abs]
    nlinarith [sq_nonneg (u 0 - 3 / 2), sq_nonneg (u 1 - 3 / 2)]
  have hp := hprox.2 _ hcand
  refine ⟨p, 3 / 2, 1, hop, ?_, ?_, ?_⟩
  · rw [← hp, C32_cost_value (n := 2) [1, 0] rfl _ 1, hw]
    · simp [Fin.sum_univ_two]; norm_num
    · intro i j _; fin_cases i <;> fin_cases j <;> simp
  · rw [C32_cost_value (n := 2) [1, 0] rfl _ 1, hw]
    · simp [Fin.sum_univ_two]
    · rw [Fin.monotone_iff_le_succ]; intro i; fin_cases i; simp
  · rw [← hp]
    simp [halfSqDist, Fin.sum_univ_two]
    norm_num

/-- The hypotheses of the prox theorem are met by the weights of the documentation, with some sorting routine
and some regression routine. -/
example : ∃ (argsort : (Fin 5 → ℝ) → Equiv.Perm (Fin 5)) (iso : (Fin 5 → ℝ) → Fin 5 → ℝ),
    CorrectArgsort argsort ∧ (∀ y, IsMonotoneFit y (iso y)) ∧
    init true (.vec [4, 3, 2, 1, 0]) = .ok [4, 3, 2, 1, 0] := by
  obtain ⟨iso, h⟩ := exists_monotoneFit 5
  refine ⟨Tuple.sort, iso, fun v => Tuple.monotone_sort v, h, (C32_weights_validated _).1 ⟨by simp, ?_, ?_⟩⟩
  · simp; norm_num
  · simp

end Verif
