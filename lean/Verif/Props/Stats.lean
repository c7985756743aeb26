import Verif.Lemmas.Median
import Mathlib.Data.Complex.Basic
import Mathlib.Algebra.Order.BigOperators.Ring.Finset
import Mathlib.Data.Fintype.BigOperators

/-!
# C63: transformation laws and robustness of the statistics

C84: the normalised Gaussian kernel.
-/

open scoped BigOperators

namespace Verif

open Spec Stats

/-! ## Median absolute deviation -/

/-- `mad` is the median of the absolute deviations from the median, with the median defined by
counting; it is NaN exactly for an empty array. -/
theorem C63_mad_is_median_of_deviations (l : List ℝ) (d : ℝ) :
    (mad l = .fin d ↔ ∃ m, IsMedian l m ∧ IsMedian (l.map fun x => |x - m|) d) ∧
    (mad l = .nan ↔ l = []) := by
  have key : ∀ l : List ℝ, l ≠ [] → ∃ m, median l = .fin m ∧ IsMedian l m := fun l h =>
    median_isMedian h
  refine ⟨⟨fun h => ?_, ?_⟩, ⟨fun h => ?_, ?_⟩⟩
  · by_cases hl : l = []
    · subst hl; simp [mad, median] at h
    · obtain ⟨m, e, hm⟩ := key l hl
      refine ⟨m, hm, ?_⟩
      rw [mad, e] at h
      exact (median_eq_iff _ _).1 h
  · rintro ⟨m, hm, hd⟩
    rw [mad, (median_eq_iff _ _).2 hm]
    exact (median_eq_iff _ _).2 hd
  · by_contra hl
    obtain ⟨m, e, hm⟩ := key l hl
    obtain ⟨d, e', -⟩ := key (l.map fun x => |x - m|) (by simpa using hl)
    rw [mad, e] at h
    simp only at h
    rw [e'] at h
    cases h
  · rintro rfl
    simp [mad, median]

/-- Non-trivial instance: the documented example `mad([0..8]) = 2`. -/
example : mad [0, 1, 2, 3, 4, 5, 6, 7, 8] = .fin 2 := by
  have e : median [0, 1, 2, 3, 4, 5, 6, 7, 8] = Ext.fin (4 : ℝ) := by
    norm_num [median, List.insertionSort, List.orderedInsert]
  rw [mad, e]
  norm_num [median, List.insertionSort, List.orderedInsert, abs_of_nonneg, abs_of_neg]

theorem mad_affine (a b : ℝ) (l : List ℝ) {d : ℝ} (h : mad l = .fin d) :
    mad (l.map fun x => a * x + b) = .fin (|a| * d) := by
  obtain ⟨m, hm, hd⟩ := (C63_mad_is_median_of_deviations l d).1.1 h
  by_cases ha : a = 0
  · subst ha
    have hl : l ≠ [] := by
      rintro rfl
      simp [mad, median] at h
    refine ((C63_mad_is_median_of_deviations _ _).1).2 ⟨b, ?_, ?_⟩
    · exact isMedian_const _ (by simpa using hl) b (by simp)
    · exact isMedian_const _ (by simpa using hl) _ (by simp)
  · refine ((C63_mad_is_median_of_deviations _ _).1).2 ⟨a * m + b, isMedian_affine a b ha hm, ?_⟩
    have := isMedian_affine |a| 0 (abs_ne_zero.2 ha) hd
    rw [add_zero] at this
    convert this using 1
    rw [List.map_map, List.map_map]
    apply List.map_congr_left
    intro x _
    simp only [Function.comp]
    rw [add_zero, ← abs_mul]
    congr 1
    ring

/-- `mad(a x + b) = |a| mad(x)` and `sigma_mad(a x + b) = |a| sigma_mad(x)`: location invariance and
absolute homogeneity, for all data and all `a`, `b` (also `a = 0` and negative `a`). -/
theorem C63_mad_affine (a b : ℝ) (l : List ℝ) (d : ℝ) (h : mad l = .fin d) :
    mad (l.map fun x => a * x + b) = .fin (|a| * d) ∧
    sigmaMad (l.map fun x => a * x + b) = .fin (|a| * (1.4826 * d)) ∧
    sigmaMad l = .fin (1.4826 * d) := by
  have e := mad_affine a b l h
  refine ⟨e, ?_, ?_⟩
  · rw [sigmaMad, e]
    simp only [Ext.scalePos]
    congr 1; ring
  · rw [sigmaMad, h]; rfl

/-- The order of the data does not matter. -/
theorem C63_mad_perm {l l' : List ℝ} (h : l.Perm l') : mad l = mad l' := by
  have hs : ∀ {l l' : List ℝ}, l.Perm l' → median l = median l' := by
    intro l l' h
    unfold median
    have : l.insertionSort (· ≤ ·) = l'.insertionSort (· ≤ ·) :=
      List.Perm.eq_of_pairwise (fun a b _ _ h1 h2 => le_antisymm h1 h2)
        (List.pairwise_insertionSort _ _) (List.pairwise_insertionSort _ _)
        (((List.perm_insertionSort _ _).trans h).trans (List.perm_insertionSort _ _).symm)
    simp only [this, h.length_eq]
  unfold mad
  rw [hs h]
  cases median l' with
  | fin m => exact hs (h.map _)
  | posInf => rfl
  | negInf => rfl
  | nan => rfl

/-- Robustness: whatever the other entries are, the median absolute deviation is bounded by the
width of any interval that holds a strict majority of the data (so noise is estimated correctly as
long as fewer than half of the samples are outliers). -/
theorem C63_mad_robust (l : List ℝ) (a b : ℝ)
    (h : l.length < 2 * howMany l fun x => a ≤ x ∧ x ≤ b) :
    ∃ d, mad l = .fin d ∧ 0 ≤ d ∧ d ≤ b - a := by
  have hl : l ≠ [] := by
    rintro rfl
    simp [howMany] at h
  obtain ⟨m, e, hm⟩ := median_isMedian hl
  obtain ⟨ha, hb⟩ := isMedian_majority hm h
  obtain ⟨d, e', hd⟩ := median_isMedian (l := l.map fun x => |x - m|) (by simpa using hl)
  have := isMedian_majority (a := 0) (b := b - a) hd (by
    rw [howMany_map, List.length_map]
    refine h.trans_le ?_
    gcongr
    apply howMany_mono
    rintro x - ⟨h1, h2⟩
    refine ⟨abs_nonneg _, ?_⟩
    rw [abs_le]; constructor <;> linarith)
  exact ⟨d, by rw [mad, e]; exact e', this.1, this.2⟩

/-- Non-trivial instance: one outlier among three samples. -/
example (x : ℝ) : ∃ d, mad [1, x, 2] = .fin d ∧ 0 ≤ d ∧ d ≤ 2 - 1 := by
  apply C63_mad_robust
  have : 2 ≤ howMany [1, x, 2] fun y => (1 : ℝ) ≤ y ∧ y ≤ 2 := by
    have e : ∀ a : ℝ, 1 ≤ a ∧ a ≤ 2 → howMany [a] (fun y => (1 : ℝ) ≤ y ∧ y ≤ 2) = 1 := fun a ha => by
      rw [howMany_all (by simpa using ha)]; rfl
    rw [show [1, x, 2] = [1] ++ ([x] ++ [(2 : ℝ)]) from rfl, howMany_append, howMany_append,
      e 1 (by norm_num), e 2 (by norm_num)]
    omega
  simp only [List.length_cons, List.length_nil]
  omega

/-! ## Mean squared error -/

variable {ι : Type} [Fintype ι]

theorem mean_eq [Nonempty ι] (x : ι → ℝ) : mean x = .fin ((∑ i, x i) / Fintype.card ι) := by
  have h : (Fintype.card ι : ℝ) ≠ 0 := by exact_mod_cast Fintype.card_ne_zero
  simp [mean, Ext.div, h]

/-- `mse` is the mean of the squared differences: symmetric, non-negative, zero exactly for equal
arrays, and NaN exactly for empty ones. -/
theorem C63_mse (x y : ι → ℝ) :
    mse x y = mse y x ∧
    (Nonempty ι → ∃ v, mse x y = .fin v ∧ v * Fintype.card ι = ∑ i, (x i - y i) ^ 2 ∧ 0 ≤ v ∧
      (v = 0 ↔ x = y)) ∧
    (IsEmpty ι → mse x y = .nan) := by
  refine ⟨?_, fun hne => ?_, fun he => ?_⟩
  · unfold mse
    congr 1; funext i; ring
  · have h : (0 : ℝ) < Fintype.card ι := by exact_mod_cast Fintype.card_pos
    have hs : 0 ≤ ∑ i, (x i - y i) ^ 2 := Finset.sum_nonneg fun i _ => sq_nonneg _
    refine ⟨_, mean_eq _, by field_simp, by positivity, ?_⟩
    rw [div_eq_zero_iff, Finset.sum_eq_zero_iff_of_nonneg fun i _ => sq_nonneg _]
    constructor
    · rintro (h' | h')
      · funext i
        have := h' i (Finset.mem_univ i)
        exact sub_eq_zero.1 (pow_eq_zero_iff two_ne_zero |>.1 this)
      · exact absurd h' h.ne'
    · rintro rfl
      simp
  · simp [mse, mean, Ext.div, Ext.infOf]

/-- Non-trivial instance: the documented example `mse(arange(9).reshape(3, 3), same + 2) = 4`. -/
example : mse (fun p : Fin 3 × Fin 3 => (3 * p.1.val + p.2.val : ℝ))
    (fun p => 3 * p.1.val + p.2.val + 2) = .fin 4 := by
  unfold mse
  rw [mean_eq]
  norm_num

/-- For complex data the same expression is not an error measure: `mean((x - y) ** 2)` can be negative,
and zero for different images. -/
theorem C63_mse_complex_not_an_error :
    (∃ x y : Fin 1 → ℂ, mseComplex x y = -1) ∧ ∃ x y : Fin 2 → ℂ, x ≠ y ∧ mseComplex x y = 0 := by
  refine ⟨⟨fun _ => 0, fun _ => Complex.I, by simp [mseComplex]⟩,
    ⟨![1, Complex.I], ![0, 0], fun h => ?_, by simp [mseComplex]⟩⟩
  simpa using congrFun h 0

/-! ## Peak signal-to-noise ratio -/

variable {n : ℕ} {κ : Type} [Fintype κ]

/-- The `wiki` ratio is `20 log10(max) - 10 log10(mse)` with the mean squared error as above; it is
`+∞` exactly when the images are equal. -/
theorem C63_psnr_wiki [Nonempty (Fin n × κ)] (x y : Fin n → κ → ℝ) {M : ℝ} (hM : 0 < M) :
    ∃ v, psnr x y "wiki" M = .ok v ∧
      (v = .posInf ↔ x = y) ∧
      (x ≠ y → v = .fin (10 * Real.logb 10
        (M ^ 2 / ((∑ i, ∑ j, (x i j - y i j) ^ 2) / (n * Fintype.card κ))))) := by
  set S := ∑ p : Fin n × κ, (x p.1 p.2 - y p.1 p.2) ^ 2 with hS
  have hcard : (0 : ℝ) < Fintype.card (Fin n × κ) := by exact_mod_cast Fintype.card_pos
  have hc : (Fintype.card (Fin n × κ) : ℝ) = n * Fintype.card κ := by
    rw [Fintype.card_prod, Fintype.card_fin]; push_cast; ring
  have hsum : ∑ i, ∑ j, (x i j - y i j) ^ 2 = S := by rw [hS, Fintype.sum_prod_type]
  have hS0 : 0 ≤ S := Finset.sum_nonneg fun i _ => sq_nonneg _
  have hiff : S = 0 ↔ x = y := by
    rw [hS, Finset.sum_eq_zero_iff_of_nonneg fun i _ => sq_nonneg _]
    constructor
    · intro h
      funext i j
      exact sub_eq_zero.1 (pow_eq_zero_iff two_ne_zero |>.1 (h (i, j) (Finset.mem_univ _)))
    · rintro rfl; simp
  have hm : mse (fun p : Fin n × κ => x p.1 p.2) (fun p => y p.1 p.2) =
      .fin (S / (n * Fintype.card κ)) := by
    rw [mse, mean_eq, ← hS, hc]
  rw [hsum]
  refine ⟨_, by rw [psnr, if_neg (by decide), if_pos rfl, hm], ?_, ?_⟩
  · rw [← hiff]
    by_cases h0 : S = 0
    · simp [h0, Ext.log10, Ext.scalePos, Ext.sub, Ext.neg, Ext.add, hM.not_gt, hM.ne']
    · have hpos : 0 < S / (n * Fintype.card κ) := by
        rw [← hc]; exact div_pos (lt_of_le_of_ne hS0 (Ne.symm h0)) hcard
      simp [h0, Ext.log10, Ext.scalePos, Ext.sub, Ext.neg, Ext.add, hM.not_gt, hM.ne', hpos.not_gt,
        hpos.ne']
  · intro hne
    have h0 : S ≠ 0 := fun h => hne (hiff.1 h)
    have hpos : 0 < S / (n * Fintype.card κ) := by
      rw [← hc]; exact div_pos (lt_of_le_of_ne hS0 (Ne.symm h0)) hcard
    simp only [Ext.log10, if_neg hM.not_gt, if_neg hM.ne', if_neg hpos.not_gt, if_neg hpos.ne',
      Ext.scalePos, Ext.sub, Ext.neg, Ext.add]
    congr 1
    rw [Real.logb_div (by positivity) hpos.ne', Real.logb_pow]
    push_cast; ring

theorem arrMax_eq [Nonempty ι] (x : ι → ℝ) :
    arrMax x = .ok (Finset.univ.sup' Finset.univ_nonempty x) := by
  simp [arrMax]

theorem arrMin_eq [Nonempty ι] (x : ι → ℝ) :
    arrMin x = .ok (Finset.univ.inf' Finset.univ_nonempty x) := by
  simp [arrMin]

/-- For square images the two methods agree once `max_pix` is the intensity range of the first image
(for other shapes they differ by a constant). -/
theorem C63_psnr_methods_agree_on_square_images {n : ℕ} [Nonempty (Fin n)] (x y : Fin n → Fin n → ℝ)
    (hi lo : ℝ) (hhi : arrMax (fun p : Fin n × Fin n => x p.1 p.2) = .ok hi)
    (hlo : arrMin (fun p : Fin n × Fin n => x p.1 p.2) = .ok lo) (hr : lo < hi) (M : ℝ) :
    psnr x y "starck" M = psnr x y "wiki" (hi - lo) := by
  have hn0 : (0 : ℝ) < n := by
    have : 0 < n := by
      obtain ⟨i⟩ := ‹Nonempty (Fin n)›
      exact lt_of_le_of_lt (Nat.zero_le _) i.2
    exact_mod_cast this
  have hd : 0 < hi - lo := sub_pos.2 hr
  obtain ⟨v, hv, h1, h2⟩ := C63_psnr_wiki x y hd
  rw [hv]
  rw [psnr, if_pos rfl, hhi, hlo]
  simp only [bind, Except.bind]
  congr 1
  set S := ∑ p : Fin n × Fin n, (x p.1 p.2 - y p.1 p.2) ^ 2 with hS
  have hsum : ∑ i, ∑ j, (x i j - y i j) ^ 2 = S := by rw [hS, Fintype.sum_prod_type]
  have hS0 : 0 ≤ S := Finset.sum_nonneg fun i _ => sq_nonneg _
  rw [abs_of_pos hd]
  have hnum : 0 < (n : ℝ) * (hi - lo) := mul_pos hn0 hd
  by_cases hxy : x = y
  · have : S = 0 := by rw [hS, hxy]; simp
    rw [h1.2 hxy, this, Real.sqrt_zero]
    simp [Ext.div, Ext.infOf, hnum.ne', hnum, Ext.log10, Ext.scalePos]
  · rw [h2 hxy, hsum, Fintype.card_fin]
    have hpos : 0 < S := by
      refine lt_of_le_of_ne hS0 fun h => hxy ?_
      have h := h.symm
      rw [hS, Finset.sum_eq_zero_iff_of_nonneg fun i _ => sq_nonneg _] at h
      funext i j
      exact sub_eq_zero.1 (pow_eq_zero_iff two_ne_zero |>.1 (h (i, j) (Finset.mem_univ _)))
    have hs := Real.sqrt_pos.2 hpos
    have hq : 0 < (n : ℝ) * (hi - lo) / Real.sqrt S := div_pos hnum hs
    simp only [Ext.div, if_neg hs.ne', Ext.log10, if_neg hq.not_gt, if_neg hq.ne', Ext.scalePos]
    congr 1
    have e : (hi - lo) ^ 2 / (S / (n * n)) = ((n : ℝ) * (hi - lo) / Real.sqrt S) ^ 2 := by
      rw [div_pow, Real.sq_sqrt hS0]
      field_simp
    rw [e, Real.logb_pow]
    push_cast; ring

/-- Non-trivial instance: a 2 × 2 image with intensities 0 and 1. -/
example : ∃ x : Fin 2 → Fin 2 → ℝ, ∃ hi lo : ℝ,
    arrMax (fun p : Fin 2 × Fin 2 => x p.1 p.2) = .ok hi ∧
    arrMin (fun p : Fin 2 × Fin 2 => x p.1 p.2) = .ok lo ∧ lo < hi := by
  refine ⟨fun i _ => i.val, _, _, arrMax_eq _, arrMin_eq _, ?_⟩
  calc _ ≤ (0 : ℝ) := Finset.inf'_le_of_le _ (Finset.mem_univ ((0 : Fin 2), (0 : Fin 2))) (by simp)
    _ < 1 := one_pos
    _ ≤ _ := Finset.le_sup'_of_le _ (Finset.mem_univ ((1 : Fin 2), (0 : Fin 2))) (by simp)

/-- Any other method name raises, and so does an image without pixels under the default method. -/
theorem C63_psnr_invalid (x y : Fin n → κ → ℝ) (method : String) (M : ℝ) :
    ((method ≠ "starck" ∧ method ≠ "wiki") → psnr x y method M = .error .valueError) ∧
    (IsEmpty (Fin n × κ) → psnr x y "starck" M = .error .valueError) := by
  refine ⟨fun ⟨h1, h2⟩ => by rw [psnr, if_neg h1, if_neg h2], fun h => ?_⟩
  rw [psnr, if_pos rfl]
  have : ¬ (Finset.univ : Finset (Fin n × κ)).Nonempty := by
    rintro ⟨p, -⟩
    exact h.false p
  simp only [arrMax, dif_neg this]
  rfl

/-- `psnr_stack` applies the metric to the per-slice ratios, in order; it fails exactly when an input
is not 3D or a slice fails. -/
theorem C63_psnr_stack {R : Type} (xs ys : List (Fin n → κ → ℝ)) (metric : List (Ext ℝ) → R)
    (method : String) (d1 d2 : ℕ) (r : R) :
    psnrStack d1 d2 xs ys metric method = .ok r ↔
      d1 = 3 ∧ d2 = 3 ∧ ∃ v, List.Forall₂ (fun p e => psnr p.1 p.2 method 255 = .ok e) (xs.zip ys) v ∧
        metric v = r := by
  have key : ∀ (l : List ((Fin n → κ → ℝ) × (Fin n → κ → ℝ))) (v : List (Ext ℝ)),
      (l.mapM fun p => psnr p.1 p.2 method 255) = (.ok v : Py _) ↔
        List.Forall₂ (fun p e => psnr p.1 p.2 method 255 = .ok e) l v := by
    intro l
    induction l with
    | nil =>
      intro v
      simp only [List.mapM_nil, List.forall₂_nil_left_iff]
      constructor
      · intro h; cases h; rfl
      · rintro rfl; rfl
    | cons a t ih =>
      intro v
      rw [List.mapM_cons, List.forall₂_cons_left_iff]
      cases ha : psnr a.1 a.2 method 255 with
      | error e =>
        constructor
        · intro h; cases h
        · rintro ⟨b, u, h, -⟩; cases h
      | ok b =>
        simp only [bind, Except.bind]
        cases ht : (t.mapM fun p => psnr p.1 p.2 method 255 : Py _) with
        | error e =>
          constructor
          · intro h; cases h
          · rintro ⟨b', u, -, h, -⟩
            rw [← ih, ht] at h; cases h
        | ok w =>
          have hw := (ih w).1 ht
          constructor
          · intro h
            cases h
            exact ⟨b, w, rfl, hw, rfl⟩
          · rintro ⟨b', u, h, h', rfl⟩
            cases h
            rw [← ih, ht] at h'
            cases h'
            rfl
  unfold psnrStack
  by_cases hd : d1 ≠ 3 ∨ d2 ≠ 3
  · rw [if_pos hd]
    constructor
    · intro h; cases h
    · rintro ⟨h1, h2, -⟩; omega
  · rw [if_neg hd]
    push Not at hd
    cases h : ((xs.zip ys).mapM fun p => psnr p.1 p.2 method 255 : Py _) with
    | error e =>
      constructor
      · intro h'; cases h'
      · rintro ⟨-, -, v, hv, -⟩
        rw [← key, h] at hv; cases hv
    | ok w =>
      constructor
      · intro h'; cases h'
        exact ⟨hd.1, hd.2, w, (key _ _).1 h, rfl⟩
      · rintro ⟨-, -, v, hv, rfl⟩
        rw [← key, h] at hv; cases hv
        rfl

/-- The failures of `psnr_stack` on the shape or the method are `ValueError`s. -/
theorem C63_psnr_stack_value_error {R : Type} (xs ys : List (Fin n → κ → ℝ)) (metric : List (Ext ℝ) → R)
    (method : String) (d1 d2 : ℕ)
    (h : d1 ≠ 3 ∨ d2 ≠ 3 ∨ (method ≠ "starck" ∧ method ≠ "wiki" ∧ xs ≠ [] ∧ ys ≠ [])) :
    psnrStack d1 d2 xs ys metric method = .error .valueError := by
  unfold psnrStack
  by_cases hd : d1 ≠ 3 ∨ d2 ≠ 3
  · rw [if_pos hd]
  · rw [if_neg hd]
    obtain ⟨h1, h2, h3, h4⟩ : method ≠ "starck" ∧ method ≠ "wiki" ∧ xs ≠ [] ∧ ys ≠ [] := by tauto
    obtain ⟨x, xs, rfl⟩ := List.exists_cons_of_ne_nil h3
    obtain ⟨y, ys, rfl⟩ := List.exists_cons_of_ne_nil h4
    rw [List.zip_cons_cons, List.mapM_cons, psnr, if_neg h1, if_neg h2]
    rfl

/-- Images without a partner are silently ignored: stacks of different lengths do not raise. -/
theorem C63_psnr_stack_ignores_unpaired {R : Type} (xs ys extra : List (Fin n → κ → ℝ))
    (h : xs.length = ys.length) (metric : List (Ext ℝ) → R) (method : String) :
    psnrStack 3 3 (xs ++ extra) ys metric method = psnrStack 3 3 xs ys metric method ∧
    psnrStack 3 3 xs (ys ++ extra) metric method = psnrStack 3 3 xs ys metric method := by
  have e1 : (xs ++ extra).zip ys = xs.zip ys := by
    have := List.zip_append (l₁ := xs) (l₂ := ys) (r₁ := extra) (r₂ := []) h
    simpa using this
  have e2 : xs.zip (ys ++ extra) = xs.zip ys := by
    have := List.zip_append (l₁ := xs) (l₂ := ys) (r₁ := []) (r₂ := extra) h
    simpa using this
  simp only [psnrStack, e1, e2, and_self]

/-! ## Gaussian kernel -/

/-- With `norm='max'` every value of a positive kernel lies in `(0, 1]` and the largest is exactly 1;
with `norm='sum'` and an astropy older than 5.2 the values sum to 1; newer versions return astropy's
kernel as it is; other norms raise. -/
theorem C84_gaussian_kernel [Nonempty ι] (k : ι → ℝ) (hk : ∀ i, 0 < k i) :
    (∀ old, ∃ v : ι → ℝ, gaussianKernel k "max" old = .ok (fun i => .fin (v i)) ∧
      (∀ i, 0 < v i ∧ v i ≤ 1) ∧ (∃ i, v i = 1) ∧ ∀ i j, v i * k j = v j * k i) ∧
    (∃ v : ι → ℝ, gaussianKernel k "sum" true = .ok (fun i => .fin (v i)) ∧
      ∑ i, v i = 1 ∧ ∀ i j, v i * k j = v j * k i) ∧
    gaussianKernel k "sum" false = .ok (fun i => .fin (k i)) ∧
    ∀ norm old, norm ≠ "max" → norm ≠ "sum" → gaussianKernel k norm old = .error .valueError := by
  refine ⟨fun old => ?_, ?_, ?_, ?_⟩
  · obtain ⟨i0, -, hi0⟩ := Finset.exists_mem_eq_sup' (Finset.univ_nonempty (α := ι)) k
    have hpos : 0 < Finset.univ.sup' Finset.univ_nonempty k := by rw [hi0]; exact hk i0
    refine ⟨fun i => k i / Finset.univ.sup' Finset.univ_nonempty k, ?_, fun i => ⟨?_, ?_⟩, ⟨i0, ?_⟩,
      fun i j => ?_⟩
    · rw [gaussianKernel, if_neg (by decide), if_pos rfl, arrMax_eq]
      simp only [bind, Except.bind, Ext.div, if_neg hpos.ne']
    · exact div_pos (hk i) hpos
    · rw [div_le_one hpos]; exact Finset.le_sup' k (Finset.mem_univ i)
    · simp only; rw [← hi0]; exact div_self hpos.ne'
    · ring
  · have hpos : 0 < ∑ j, k j := Finset.sum_pos (fun i _ => hk i) Finset.univ_nonempty
    refine ⟨fun i => k i / ∑ j, k j, ?_, ?_, fun i j => ?_⟩
    · rw [gaussianKernel, if_neg (by decide), if_neg (by decide)]
      simp only [if_true, Ext.div, if_neg hpos.ne']
    · rw [← Finset.sum_div]; exact div_self hpos.ne'
    · ring
  · rw [gaussianKernel, if_neg (by decide), if_neg (by decide)]
    rfl
  · intro norm old h1 h2
    rw [gaussianKernel, if_pos (by simp [h1, h2])]

/-- Non-trivial instance: a positive 3-point kernel. -/
example : ∃ v : Fin 3 → ℝ, gaussianKernel ![1, 2, 1] "sum" true = .ok (fun i => .fin (v i)) ∧
    ∑ i, v i = 1 := by
  obtain ⟨v, h1, h2, -⟩ := (C84_gaussian_kernel (ι := Fin 3) ![1, 2, 1]
    (by intro i; fin_cases i <;> norm_num)).2.1
  exact ⟨v, h1, h2⟩

end Verif
