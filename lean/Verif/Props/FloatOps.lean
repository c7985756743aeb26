import Verif.Model.FloatOps

/-!
# C131: signs, ranges and zeros survive floating-point rounding

For every rounding function (`Verif.Rounding`: monotone, odd, idempotent, with `1/2`, `1`, `2` representable); `binary64`
is one.  `R.fl x = x` says that `x` is a floating-point number.
-/

namespace Verif
open FloatOps
open Noise (eps64)
open Prox (eps32)

section
variable (R : Rounding)

/-! ## Thresholding -/

theorem fl_around_zero (d : ℕ) : aroundF R d 0 = 0 := by
  have h0 : rint (0 : ℝ) = 0 := by exact_mod_cast rint_intCast (K := ℝ) 0
  simp only [aroundF, zero_mul, R.zero, h0, Int.cast_zero, zero_div]

theorem fl_around_mono (d : ℕ) {x y : ℝ} (h : x ≤ y) : aroundF R d x ≤ aroundF R d y := by
  have h10 : (0 : ℝ) < 10 ^ d := by positivity
  refine R.mono (div_le_div_of_nonneg_right ?_ h10.le)
  exact_mod_cast rint_mono (R.mono (mul_le_mul_of_nonneg_right h h10.le))

theorem fl_around_neg (d : ℕ) (x : ℝ) : aroundF R d (-x) = -aroundF R d x := by
  simp only [aroundF]
  rw [neg_mul, R.neg, rint_neg_of, Int.cast_neg, neg_div, R.neg]

theorem fl_around_abs (d : ℕ) (x : ℝ) : |aroundF R d x| = aroundF R d |x| := by
  rcases le_total 0 x with h | h
  · have := fl_around_mono R d h
    rw [fl_around_zero] at this
    rw [abs_of_nonneg h, abs_of_nonneg this]
  · have := fl_around_mono R d h
    rw [fl_around_zero] at this
    rw [abs_of_nonpos h, abs_of_nonpos this, fl_around_neg]

theorem eps64_pos : 0 < eps64 := by unfold eps64; positivity

theorem fl_softFactor_nonneg (t r : ℝ) : 0 ≤ softFactor R t r := le_max_right _ _

theorem fl_softFactor_le_one (t r : ℝ) (ht : 0 ≤ t) : softFactor R t r ≤ 1 := by
  have hd : 0 < max eps64 r := lt_of_lt_of_le eps64_pos (le_max_left _ _)
  refine max_le ?_ zero_le_one
  have h1 : 0 ≤ R.fl (t / max eps64 r) := R.nonneg (by positivity)
  have h2 := R.mono (show 1 - R.fl (t / max eps64 r) ≤ 1 by linarith)
  rwa [R.one] at h2

theorem fl_softFactor_mono {t t' r r' : ℝ} (ht : 0 ≤ t') (h : t' ≤ t) (hr : r ≤ r') :
    softFactor R t r ≤ softFactor R t' r' := by
  have hd : 0 < max eps64 r := lt_of_lt_of_le eps64_pos (le_max_left _ _)
  refine max_le_max (R.mono (sub_le_sub_left (R.mono ?_) 1)) le_rfl
  exact div_le_div₀ (ht.trans h) h hd (max_le_max le_rfl hr)

theorem fl_soft_abs (t x : ℝ) : |soft R t x| = aroundF R 15 (R.fl (softFactor R t |x| * |x|)) := by
  rw [soft, fl_around_abs, R.abs, abs_mul, abs_of_nonneg (fl_softFactor_nonneg R t _)]

/-- C131, soft thresholding in floating-point arithmetic: entries up to the threshold become exactly zero, signs are kept,
the result never exceeds the input rounded to 15 decimals, it does not grow with the threshold, does not shrink with the
magnitude of the input, and is odd. -/
theorem C131_soft (t x : ℝ) (ht : 0 ≤ t) (hx : R.fl x = x) :
    (|x| ≤ t → soft R t x = 0) ∧ (0 ≤ x → 0 ≤ soft R t x) ∧ (x ≤ 0 → soft R t x ≤ 0) ∧
    |soft R t x| ≤ |aroundF R 15 x| ∧ (∀ t', t ≤ t' → |soft R t' x| ≤ |soft R t x|) ∧
    (∀ x', |x| ≤ |x'| → |soft R t x| ≤ |soft R t x'|) ∧ soft R t (-x) = -soft R t x := by
  have hm := fl_softFactor_nonneg R t |x|
  have h1 := fl_softFactor_le_one R t |x| ht
  have hax : R.fl |x| = |x| := by rw [← R.abs, hx]
  have hle : R.fl (softFactor R t |x| * |x|) ≤ |x| := by
    have := R.mono (mul_le_of_le_one_left (abs_nonneg x) h1)
    rwa [hax] at this
  refine ⟨fun h => ?_, fun h => ?_, fun h => ?_, ?_, fun t' h => ?_, fun x' h => ?_, ?_⟩
  · rcases le_or_gt eps64 t with he | he
    · have hd : 0 < max eps64 |x| := lt_of_lt_of_le eps64_pos (le_max_left _ _)
      have h2 : 1 ≤ t / max eps64 |x| := by rw [le_div_iff₀ hd, one_mul]; exact max_le he h
      have h3 := R.mono h2
      rw [R.one] at h3
      have h4 : softFactor R t |x| = 0 := max_eq_right (R.nonpos (by linarith))
      rw [soft, h4, zero_mul, R.zero, fl_around_zero]
    · have h2 : |soft R t x| = 0 := by
        rw [fl_soft_abs]
        set z := R.fl (softFactor R t |x| * |x|) with hz
        have hz0 : 0 ≤ z := R.nonneg (mul_nonneg hm (abs_nonneg _))
        have h3 : z * 10 ^ 15 ≤ 1 / 2 := by
          have : z ≤ 2⁻¹ ^ 52 := hle.trans (h.trans he.le)
          calc z * 10 ^ 15 ≤ 2⁻¹ ^ 52 * 10 ^ 15 := mul_le_mul_of_nonneg_right this (by positivity)
            _ ≤ 1 / 2 := by norm_num
        have h4 := R.mono h3
        rw [R.half] at h4
        have h5 : rint (R.fl (z * 10 ^ 15)) = 0 := by
          rw [rint_eq_zero_iff, abs_of_nonneg (R.nonneg (by positivity))]; exact h4
        rw [aroundF, h5, Int.cast_zero, zero_div, R.zero]
      exact abs_eq_zero.1 h2
  · have := fl_around_mono R 15 (R.nonneg (mul_nonneg hm h))
    rwa [fl_around_zero] at this
  · have := fl_around_mono R 15 (R.nonpos (mul_nonpos_of_nonneg_of_nonpos hm h))
    rwa [fl_around_zero] at this
  · rw [fl_soft_abs, fl_around_abs]
    exact fl_around_mono R 15 hle
  · rw [fl_soft_abs, fl_soft_abs]
    exact fl_around_mono R 15 (R.mono (mul_le_mul_of_nonneg_right (fl_softFactor_mono R ht h le_rfl) (abs_nonneg _)))
  · rw [fl_soft_abs, fl_soft_abs]
    exact fl_around_mono R 15 (R.mono (mul_le_mul (fl_softFactor_mono R ht le_rfl h) h (abs_nonneg _)
      (fl_softFactor_nonneg R _ _)))
  · rw [soft, soft, abs_neg, mul_neg, R.neg, fl_around_neg]

/-- C131, hard thresholding and positivity: no rounding at all, the entry or exactly zero. -/
theorem C131_hard_and_positive (t x : ℝ) (hx : R.fl x = x) :
    (|x| ≥ t → hard R t x = x) ∧ (|x| < t → hard R t x = 0) ∧ pos R x = max x 0 := by
  refine ⟨fun h => ?_, fun h => ?_, ?_⟩
  · rw [hard, if_pos h, mul_one, hx]
  · rw [hard, if_neg (not_le.2 h), mul_zero, R.zero]
  · rcases le_or_gt x 0 with h | h
    · rw [pos, if_neg (not_lt.2 h), mul_zero, R.zero, max_eq_right h]
    · rw [pos, if_pos h, mul_one, hx, max_eq_left h.le]

/-- Division by a rounded denominator `≥ 1` shrinks. -/
theorem fl_div_shrinks (x d : ℝ) (hx : R.fl x = x) (hd : 1 ≤ d) :
    |R.fl (x / R.fl d)| ≤ |x| ∧ (0 ≤ x → 0 ≤ R.fl (x / R.fl d)) ∧ (x ≤ 0 → R.fl (x / R.fl d) ≤ 0) := by
  have h1 := R.mono hd
  rw [R.one] at h1
  have h0 : 0 < R.fl d := by linarith
  refine ⟨?_, fun h => R.nonneg (by positivity), fun h => R.nonpos (div_nonpos_of_nonpos_of_nonneg h h0.le)⟩
  rw [R.abs, abs_div, abs_of_pos h0]
  have := R.mono (div_le_self (abs_nonneg x) h1)
  rwa [← R.abs x, hx] at this

/-- C131, `Ridge`, `ElasticNet` and `GroupLASSO` with non-negative parameters: magnitudes never grow, signs are kept, and
entries (groups) up to the threshold become exactly zero. -/
theorem C131_shrinkage (w a b c n x : ℝ) (hw : 0 ≤ w) (ha : 0 ≤ a) (hb : 0 ≤ b) (hc : 0 ≤ c) (hx : R.fl x = x) :
    (|ridge R w c x| ≤ |x| ∧ (0 ≤ x → 0 ≤ ridge R w c x) ∧ (x ≤ 0 → ridge R w c x ≤ 0)) ∧
    (|elastic R a b c x| ≤ |aroundF R 15 x| ∧ (0 ≤ x → 0 ≤ elastic R a b c x) ∧ (x ≤ 0 → elastic R a b c x ≤ 0) ∧
      (|x| ≤ R.fl (b * c) → elastic R a b c x = 0)) ∧
    (|group R w c n x| ≤ |x| ∧ (0 ≤ x → 0 ≤ group R w c n x) ∧ (x ≤ 0 → group R w c n x ≤ 0) ∧
      (n ≤ R.fl (w * c) → eps32 ≤ R.fl (w * c) → group R w c n x = 0)) := by
  have hsx : R.fl (soft R (R.fl (b * c)) x) = soft R (R.fl (b * c)) x := R.idem _
  obtain ⟨s1, s2, s3, s4, -⟩ := C131_soft R (R.fl (b * c)) x (R.nonneg (mul_nonneg hb hc)) hx
  have hd1 : 1 ≤ 1 + R.fl (R.fl (w * c) * 2) := by
    have : 0 ≤ R.fl (R.fl (w * c) * 2) := R.nonneg (mul_nonneg (R.nonneg (mul_nonneg hw hc)) zero_le_two)
    linarith
  have hd2 : 1 ≤ R.fl (R.fl (a * 2) * c) + 1 := by
    have : 0 ≤ R.fl (R.fl (a * 2) * c) := R.nonneg (mul_nonneg (R.nonneg (mul_nonneg ha zero_le_two)) hc)
    linarith
  obtain ⟨e1, e2, e3⟩ := fl_div_shrinks R _ _ hsx hd2
  have he : 0 < eps32 := by unfold eps32; positivity
  have hn : 0 < max n eps32 := lt_of_lt_of_le he (le_max_right _ _)
  set m := max 0 (R.fl (1 - R.fl (R.fl (w * c) / max n eps32))) with hm
  have hm0 : 0 ≤ m := le_max_left _ _
  have hwc := R.nonneg (mul_nonneg hw hc)
  have hm1 : m ≤ 1 := by
    refine max_le zero_le_one ?_
    have h1 : 0 ≤ R.fl (R.fl (w * c) / max n eps32) := R.nonneg (by positivity)
    have h2 := R.mono (show 1 - R.fl (R.fl (w * c) / max n eps32) ≤ 1 by linarith)
    rwa [R.one] at h2
  refine ⟨fl_div_shrinks R _ _ hx hd1, ⟨e1.trans s4, fun h => e2 (s2 h), fun h => e3 (s3 h), fun h => ?_⟩,
    ⟨?_, fun h => R.nonneg (mul_nonneg h hm0), fun h => R.nonpos (mul_nonpos_of_nonpos_of_nonneg h hm0), fun h h' => ?_⟩⟩
  · rw [elastic, s1 h, zero_div, R.zero]
  · rw [group, R.abs, abs_mul, abs_of_nonneg hm0]
    have := R.mono (mul_le_of_le_one_right (abs_nonneg x) hm1)
    rwa [← R.abs x, hx] at this
  · have h2 : 1 ≤ R.fl (w * c) / max n eps32 := by rw [le_div_iff₀ hn, one_mul]; exact max_le h h'
    have h3 := R.mono h2
    rw [R.one] at h3
    have h4 : m = 0 := max_eq_left (R.nonpos (by linarith))
    rw [group, ← hm, h4, mul_zero, R.zero]

/-! ## Weights, normalisation, accumulators -/

/-- C131, reweighting: a weight stays non-negative, never grows, is unchanged (bit for bit) by a zero datum, and a larger
datum gives a weight that is not larger. -/
theorem C131_reweight (f w0 w a : ℝ) (hd : 0 < R.fl (f * w0)) (hw : 0 ≤ w) (hfl : R.fl w = w) (ha : 0 ≤ a) :
    0 ≤ cwb R f w0 w a ∧ cwb R f w0 w a ≤ w ∧ cwb R f w0 w 0 = w ∧ R.fl (cwb R f w0 w a) = cwb R f w0 w a ∧
    ∀ a', a ≤ a' → cwb R f w0 w a' ≤ cwb R f w0 w a := by
  have hden : ∀ a, 0 ≤ a → 1 ≤ R.fl (1 + R.fl (a / R.fl (f * w0))) := by
    intro a ha
    have h1 : 0 ≤ R.fl (a / R.fl (f * w0)) := R.nonneg (by positivity)
    have h2 := R.mono (show 1 ≤ 1 + R.fl (a / R.fl (f * w0)) by linarith)
    rwa [R.one] at h2
  have hq : 0 ≤ R.fl (1 / R.fl (1 + R.fl (a / R.fl (f * w0)))) :=
    R.nonneg (div_nonneg zero_le_one (by linarith [hden a ha]))
  refine ⟨R.nonneg (mul_nonneg hw hq), ?_, ?_, R.idem _, fun a' h => ?_⟩
  · have h1 : R.fl (1 / R.fl (1 + R.fl (a / R.fl (f * w0)))) ≤ 1 := by
      have := R.mono (div_le_self zero_le_one (hden a ha))
      rwa [R.one] at this
    have := R.mono (mul_le_of_le_one_right hw h1)
    rwa [hfl] at this
  · rw [cwb, zero_div, R.zero, add_zero, R.one, div_one, R.one, mul_one, hfl]
  · refine R.mono (mul_le_mul_of_nonneg_left (R.mono ?_) hw)
    refine one_div_le_one_div_of_le (by linarith [hden a ha]) (R.mono (add_le_add le_rfl (R.mono ?_)))
    exact div_le_div_of_nonneg_right h hd.le

/-- C131, normalisation of images: the values lie in `[0, 1]`, the smallest pixel becomes exactly 0 and the largest exactly
1, and the order of the pixels is kept. -/
theorem C131_normalised (lo hi x : ℝ) (hd : 0 < R.fl (hi - lo)) (h1 : lo ≤ x) (h2 : x ≤ hi) :
    0 ≤ normalise R lo hi x ∧ normalise R lo hi x ≤ 1 ∧ normalise R lo hi lo = 0 ∧ normalise R lo hi hi = 1 ∧
    ∀ x', x ≤ x' → normalise R lo hi x ≤ normalise R lo hi x' := by
  refine ⟨R.nonneg (div_nonneg (R.nonneg (by linarith)) hd.le), ?_, ?_, ?_, fun x' h => ?_⟩
  · have h3 : R.fl (x - lo) / R.fl (hi - lo) ≤ 1 := by
      rw [div_le_one hd]; exact R.mono (by linarith)
    have := R.mono h3
    rwa [R.one] at this
  · rw [normalise, sub_self, R.zero, zero_div, R.zero]
  · rw [normalise, div_self hd.ne', R.one]
  · exact R.mono (div_le_div_of_nonneg_right (R.mono (by linarith)) hd.le)

/-- C131, the accumulators of AdaGrad and RMSprop and the step derived from them: non-negative, non-decreasing for
AdaGrad, and the step is positive or zero and does not grow with the accumulator. -/
theorem C131_accumulators (s g γ eta eps : ℝ) (hs : 0 ≤ s) (hfl : R.fl s = s) (hg0 : 0 ≤ γ) (hg1 : γ ≤ 1)
    (he : 0 ≤ eta) (hep : 0 < R.fl eps) :
    s ≤ adagrad R s g ∧ 0 ≤ rmsprop R γ s g ∧ 0 ≤ step R eta eps s ∧
    ∀ s', s ≤ s' → step R eta eps s' ≤ step R eta eps s := by
  have hsq : 0 ≤ R.fl (|g| ^ 2) := R.nonneg (by positivity)
  have hep0 : 0 < eps := by
    by_contra h
    exact absurd (R.nonpos (not_lt.1 h)) (not_le.2 hep)
  have hden : ∀ s, 0 < R.fl (R.fl (Real.sqrt s) + eps) := fun s =>
    lt_of_lt_of_le hep (R.mono (by linarith [R.nonneg (Real.sqrt_nonneg s)]))
  refine ⟨?_, R.nonneg (add_nonneg (R.nonneg (mul_nonneg hg0 hs))
    (R.nonneg (mul_nonneg (R.nonneg (by linarith)) hsq))), R.nonneg (div_nonneg he (hden s).le), fun s' h => ?_⟩
  · have := R.mono (show s ≤ s + R.fl (|g| ^ 2) by linarith)
    rwa [hfl] at this
  · refine R.mono (div_le_div_of_nonneg_left he (hden s) (R.mono (add_le_add (R.mono (Real.sqrt_le_sqrt h)) le_rfl)))

/-! ## The algorithm -/

/-- C131, `ForwardBackward` with `Positivity`: with relaxation parameters in `[0, 1]` every iterate of a floating-point run
from a non-negative array is exactly non-negative, whatever the gradient operator and the step sizes. -/
theorem C131_positivity_run {ι : Type} (grad : (ι → ℝ) → ι → ℝ) (beta lam : ℕ → ℝ)
    (hl : ∀ n, 0 ≤ lam n ∧ lam n ≤ 1) (x0 : ι → ℝ) (hx0 : ∀ i, 0 ≤ x0 i) (hfl : ∀ i, R.fl (x0 i) = x0 i) (n : ℕ)
    (i : ι) :
    0 ≤ (fbRun R grad (fun y _ i => pos R (y i)) beta lam (x0, x0) n).1 i ∧
    0 ≤ (fbRun R grad (fun y _ i => pos R (y i)) beta lam (x0, x0) n).2 i := by
  have key : ∀ n, (∀ i, 0 ≤ (fbRun R grad (fun y _ i => pos R (y i)) beta lam (x0, x0) n).1 i ∧
      0 ≤ (fbRun R grad (fun y _ i => pos R (y i)) beta lam (x0, x0) n).2 i) ∧
      ∀ i, R.fl ((fbRun R grad (fun y _ i => pos R (y i)) beta lam (x0, x0) n).1 i)
        = (fbRun R grad (fun y _ i => pos R (y i)) beta lam (x0, x0) n).1 i := by
    intro n
    induction n with
    | zero => exact ⟨fun i => ⟨hx0 i, hx0 i⟩, hfl⟩
    | succ n ih =>
      obtain ⟨ih1, ih2⟩ := ih
      set s := fbRun R grad (fun y _ i => pos R (y i)) beta lam (x0, x0) n with hs
      have hp : ∀ x, 0 ≤ pos R x := by
        intro x
        refine R.nonneg ?_
        split_ifs with h
        · rw [mul_one]; exact le_of_lt h
        · rw [mul_zero]
      refine ⟨fun i => ⟨hp _, ?_⟩, fun i => R.idem _⟩
      change 0 ≤ R.fl (s.1 i + R.fl (lam n * R.fl (pos R _ - s.1 i)))
      set v := pos R (R.fl (s.2 i - R.fl (beta n * grad s.2 i))) with hv
      have hv0 : 0 ≤ v := hp _
      have h1 : -s.1 i ≤ R.fl (v - s.1 i) := by
        have := R.mono (show -s.1 i ≤ v - s.1 i by linarith)
        rwa [R.neg, ih2] at this
      have h2 : -s.1 i ≤ R.fl (lam n * R.fl (v - s.1 i)) := by
        have h3 : -s.1 i ≤ lam n * R.fl (v - s.1 i) := by
          have := mul_le_mul_of_nonneg_left h1 (hl n).1
          nlinarith [(hl n).2, (ih1 i).1]
        have := R.mono h3
        rwa [R.neg, ih2] at this
      exact R.nonneg (by linarith)
  exact (key n).1 i

/-- C131, `ForwardBackward` with `Positivity` and any relaxation (momentum included): the solution after every update is
exactly non-negative, whatever the start. -/
theorem C131_positivity_any_relaxation {ι : Type} (grad : (ι → ℝ) → ι → ℝ) (beta lam : ℕ → ℝ) (s : (ι → ℝ) × (ι → ℝ))
    (n : ℕ) (i : ι) : 0 ≤ (fbRun R grad (fun y _ i => pos R (y i)) beta lam s (n + 1)).1 i := by
  refine R.nonneg ?_
  dsimp only
  split_ifs with h
  · rw [mul_one]; exact le_of_lt h
  · rw [mul_zero]

/-! ## Momentum -/

theorem fl_lam_range (t t' : ℝ) (ht : R.fl t = t) (h : t ≤ t') (h1 : 1 ≤ t) : 1 ≤ lam R t t' ∧ lam R t t' ≤ 2 := by
  have h0 : 0 < t' := by linarith
  have hn : 0 ≤ R.fl (t - 1) := R.nonneg (by linarith)
  have hq : 0 ≤ R.fl (R.fl (t - 1) / t') := R.nonneg (by positivity)
  constructor
  · have := R.mono (show 1 ≤ 1 + R.fl (R.fl (t - 1) / t') by linarith)
    rwa [R.one] at this
  · have h2 : R.fl (t - 1) ≤ t := by
      have := R.mono (show t - 1 ≤ t by linarith)
      rwa [ht] at this
    have h3 : R.fl (R.fl (t - 1) / t') ≤ 1 := by
      have := R.mono (show R.fl (t - 1) / t' ≤ 1 by rw [div_le_one h0]; linarith)
      rwa [R.one] at this
    have := R.mono (show 1 + R.fl (R.fl (t - 1) / t') ≤ 2 by linarith)
    rwa [R.two] at this

/-- C131, momentum of the Chambolle-Dossal mode: the sequence `t` never decreases, and the relaxation parameters never
exceed 2. -/
theorem C131_momentum_cd (a : ℝ) (ha : 0 < a) (n : ℕ) :
    tCD R a n ≤ tCD R a (n + 1) ∧ (0 < tCD R a (n + 1) → lam R (tCD R a n) (tCD R a (n + 1)) ≤ 2) := by
  have hmono : tCD R a n ≤ tCD R a (n + 1) := by
    refine R.mono (div_le_div_of_nonneg_right (R.mono (sub_le_sub_right (R.mono ?_) 1)) ha.le)
    push_cast; linarith
  refine ⟨hmono, fun h => ?_⟩
  have h2 : R.fl (tCD R a n - 1) ≤ tCD R a n := by
    have := R.mono (show tCD R a n - 1 ≤ tCD R a n by linarith)
    rwa [show R.fl (tCD R a n) = tCD R a n from R.idem _] at this
  have h3 : R.fl (R.fl (tCD R a n - 1) / tCD R a (n + 1)) ≤ 1 := by
    have := R.mono (show R.fl (tCD R a n - 1) / tCD R a (n + 1) ≤ 1 by rw [div_le_one h]; linarith)
    rwa [R.one] at this
  have := R.mono (show 1 + R.fl (R.fl (tCD R a n - 1) / tCD R a (n + 1)) ≤ 2 by linarith)
  rwa [R.two] at this

/-- C131, the Chambolle-Dossal sequence: as long as `n + a` and `n + a - 1` are floating-point numbers (any integers of
moderate size), `t` at update `n` is the rounded `(n + a - 1) / a`; at update 1 it is 1. -/
theorem C131_momentum_cd_value (a : ℝ) (ha : 0 < a) (n : ℕ) (h1 : R.fl (n + a) = n + a)
    (h2 : R.fl (n + a - 1) = n + a - 1) :
    tCD R a n = R.fl ((n + a - 1) / a) ∧ (n = 1 → tCD R a n = 1) := by
  have e : tCD R a n = R.fl ((n + a - 1) / a) := by rw [tCD, h1, h2]
  refine ⟨e, fun hn => ?_⟩
  subst hn
  rw [e, show (((1 : ℕ) : ℝ) + a - 1) / a = 1 by push_cast; field_simp; ring, R.one]

/-- The default sequence `t` of regular FISTA (`p = q = 1`, `r = 4`, start 1). -/
noncomputable def tFloat (R : Rounding) : ℕ → ℝ
  | 0 => 1
  | n + 1 => tNext R 1 1 4 (tFloat R n)

/-- Bounds of the rounded half of the square root. -/
theorem half_bounds (u t h s q : ℝ) (hu0 : 0 ≤ u) (hu : u ≤ 1 / 64) (h1 : 1 ≤ t) (hut : u * t ≤ 1 / 16)
    (hlow : 2 * t * (1 - u) ^ 2 ≤ q) (hup : q ≤ (1 + u) ^ 2 * (2 * t + 1)) (l4 : (1 - u) * q ≤ s) (u4 : s ≤ (1 + u) * q)
    (l5 : (1 - u) * (s / 2) ≤ h) (u5 : h ≤ (1 + u) * (s / 2)) : t - 1 / 2 ≤ h ∧ h ≤ t + 3 / 2 := by
  have hv : 0 < 1 - u := by linarith
  constructor
  · have b1 : (1 - u) * (2 * t * (1 - u) ^ 2) ≤ s := (mul_le_mul_of_nonneg_left hlow hv.le).trans l4
    have b2 : (1 - u) * ((1 - u) * (2 * t * (1 - u) ^ 2)) ≤ (1 - u) * s := mul_le_mul_of_nonneg_left b1 hv.le
    have b3 : (1 - u) ^ 4 * t ≤ h := by
      have e : (1 - u) ^ 4 * t = (1 - u) * ((1 - u) * (2 * t * (1 - u) ^ 2)) / 2 := by ring
      rw [e]
      linarith
    have b4 : 1 - 4 * u ≤ (1 - u) ^ 4 := by
      have := one_add_mul_le_pow (show (-2 : ℝ) ≤ -u by linarith) 4
      have e : (1 + -u) = 1 - u := by ring
      rw [e] at this
      norm_num at this
      linarith
    have b5 := mul_le_mul_of_nonneg_right b4 (show 0 ≤ t by linarith)
    linarith [b5.trans b3]
  · have b1 : s ≤ (1 + u) ^ 3 * (2 * t + 1) := by
      calc s ≤ (1 + u) * q := u4
        _ ≤ (1 + u) * ((1 + u) ^ 2 * (2 * t + 1)) := mul_le_mul_of_nonneg_left hup (by linarith)
        _ = _ := by ring
    have b2 : h ≤ (1 + u) ^ 4 * (t + 1 / 2) := by
      calc h ≤ (1 + u) * (s / 2) := u5
        _ ≤ (1 + u) * (((1 + u) ^ 3 * (2 * t + 1)) / 2) :=
          mul_le_mul_of_nonneg_left (div_le_div_of_nonneg_right b1 (by norm_num)) (by linarith)
        _ = _ := by ring
    have b3 : (1 + u) ^ 4 ≤ 1 + 5 * u := by
      have c1 : u ^ 2 ≤ u / 64 := by rw [pow_two, div_eq_mul_inv]; exact mul_le_mul_of_nonneg_left (by linarith) hu0
      have c2 : u ^ 3 ≤ u ^ 2 := pow_le_pow_of_le_one hu0 (by linarith) (by norm_num)
      have c3 : u ^ 4 ≤ u ^ 2 := pow_le_pow_of_le_one hu0 (by linarith) (by norm_num)
      have e : (1 + u) ^ 4 = 1 + 4 * u + 6 * u ^ 2 + 4 * u ^ 3 + u ^ 4 := by ring
      rw [e]
      linarith
    have b4 := mul_le_mul_of_nonneg_right b3 (show 0 ≤ t + 1 / 2 by linarith)
    have b5 : (1 + 5 * u) * (t + 1 / 2) = t + 1 / 2 + 5 * (u * t) + 5 / 2 * u := by ring
    linarith

theorem tNext_bounds (u : ℝ) (hu0 : 0 ≤ u) (hu : u ≤ 1 / 64)
    (hacc : ∀ x, 1 / 4 ≤ x → |R.fl x - x| ≤ u * x) (t : ℝ) (ht : R.fl t = t) (h1 : 1 ≤ t) (h2 : 16 * u * t ≤ 1) :
    t ≤ tNext R 1 1 4 t ∧ tNext R 1 1 4 t ≤ t + 3 := by
  have lo : ∀ x, 1 / 4 ≤ x → (1 - u) * x ≤ R.fl x := fun x hx => by linarith [(abs_le.1 (hacc x hx)).1]
  have up : ∀ x, 1 / 4 ≤ x → R.fl x ≤ (1 + u) * x := fun x hx => by linarith [(abs_le.1 (hacc x hx)).2]
  have hv : 0 < 1 - u := by linarith
  set a1 := R.fl (t ^ 2) with ha1
  have ht2 : 1 ≤ t ^ 2 := by nlinarith
  have l1 := lo (t ^ 2) (by linarith)
  have u1 := up (t ^ 2) (by linarith)
  have q1 : 1 / 2 ≤ a1 := by nlinarith
  set a2 := R.fl (4 * a1) with ha2
  have l2 := lo (4 * a1) (by linarith)
  have u2 := up (4 * a1) (by linarith)
  have q2 : 1 ≤ a2 := by nlinarith
  set a3 := R.fl (a2 + 1) with ha3
  have l3 := lo (a2 + 1) (by linarith)
  have u3 := up (a2 + 1) (by linarith)
  have q3 : 1 ≤ a3 := by nlinarith
  -- lower bound of the square root
  have hlow : 2 * t * (1 - u) ^ 2 ≤ Real.sqrt a3 := by
    apply Real.le_sqrt_of_sq_le
    have e1 : (1 - u) ^ 3 * (4 * t ^ 2) ≤ a3 := by
      have b1 : (1 - u) * (4 * ((1 - u) * t ^ 2)) ≤ a2 := by nlinarith
      have b2 : (1 - u) * ((1 - u) * (4 * ((1 - u) * t ^ 2))) ≤ (1 - u) * a2 := mul_le_mul_of_nonneg_left b1 hv.le
      nlinarith
    have e2 : (1 - u) ^ 4 ≤ (1 - u) ^ 3 := pow_le_pow_of_le_one hv.le (by linarith) (by norm_num)
    have e3 := mul_le_mul_of_nonneg_right e2 (show 0 ≤ 4 * t ^ 2 by positivity)
    nlinarith
  -- upper bound
  have hup : Real.sqrt a3 ≤ (1 + u) ^ 2 * (2 * t + 1) := by
    apply Real.sqrt_le_iff.2 ⟨by positivity, ?_⟩
    have e1 : a3 ≤ (1 + u) ^ 3 * (4 * t ^ 2 + 1) := by
      have b1 : a2 ≤ (1 + u) * (4 * ((1 + u) * t ^ 2)) := by nlinarith
      have b2 : a2 + 1 ≤ (1 + u) ^ 2 * (4 * t ^ 2 + 1) := by nlinarith
      calc a3 ≤ (1 + u) * (a2 + 1) := u3
        _ ≤ (1 + u) * ((1 + u) ^ 2 * (4 * t ^ 2 + 1)) := mul_le_mul_of_nonneg_left b2 (by linarith)
        _ = _ := by ring
    have e2 : (1 + u) ^ 3 ≤ (1 + u) ^ 4 := pow_le_pow_right₀ (by linarith) (by norm_num)
    calc a3 ≤ (1 + u) ^ 3 * (4 * t ^ 2 + 1) := e1
      _ ≤ (1 + u) ^ 4 * (2 * t + 1) ^ 2 := mul_le_mul e2 (by nlinarith) (by positivity) (by positivity)
      _ = _ := by ring
  have hs1 : 1 ≤ Real.sqrt a3 := Real.one_le_sqrt.2 q3
  set s := R.fl (Real.sqrt a3) with hs
  have l4 := lo (Real.sqrt a3) (by linarith)
  have u4 := up (Real.sqrt a3) (by linarith)
  have q4 : 1 / 2 ≤ s := by nlinarith
  set h := R.fl (s * 0.5) with hh
  have l5 := lo (s * 0.5) (by norm_num; linarith)
  have u5 := up (s * 0.5) (by norm_num; linarith)
  have hut : u * t ≤ 1 / 16 := by linarith
  have e5 : s * 0.5 = s / 2 := by norm_num; ring
  rw [e5] at l5 u5
  obtain ⟨hlow2, hup2⟩ := half_bounds u t h s _ hu0 hu h1 hut hlow hup l4 u4 (by rw [hh, e5]; exact l5)
    (by rw [hh, e5]; exact u5)
  constructor
  · have := R.mono (show t ≤ 1 + h by linarith)
    rwa [ht] at this
  · have b1 : tNext R 1 1 4 t ≤ (1 + u) * (1 + h) := up (1 + h) (by linarith)
    have b2 : u * h ≤ u * (t + 3 / 2) := mul_le_mul_of_nonneg_left hup2 hu0
    linarith

/-- C131, momentum of the default FISTA sequence: with relative rounding error `u` (`2⁻⁵³` in double precision) the
sequence `t` is at least 1 and does not decrease, and the relaxation parameters lie in `[1, 2]`, for the first
`1/(48 u) - 1/3` updates (more than `10¹⁴` in double precision). -/
theorem C131_momentum_regular (u : ℝ) (hu0 : 0 ≤ u) (hu : u ≤ 1 / 64)
    (hacc : ∀ x, 1 / 4 ≤ x → |R.fl x - x| ≤ u * x) (n : ℕ) (hn : 16 * u * (1 + 3 * n) ≤ 1) :
    1 ≤ tFloat R n ∧ tFloat R n ≤ tFloat R (n + 1) ∧ 1 ≤ lam R (tFloat R n) (tFloat R (n + 1)) ∧
    lam R (tFloat R n) (tFloat R (n + 1)) ≤ 2 := by
  have key : ∀ k ≤ n, R.fl (tFloat R k) = tFloat R k ∧ 1 ≤ tFloat R k ∧ tFloat R k ≤ 1 + 3 * k := by
    intro k
    induction k with
    | zero => intro _; exact ⟨R.one, le_rfl, by simp [tFloat]⟩
    | succ k ih =>
      intro hk
      obtain ⟨i1, i2, i3⟩ := ih (by omega)
      have hkn : (k : ℝ) ≤ n := by exact_mod_cast (by omega : k ≤ n)
      have hb : 16 * u * tFloat R k ≤ 1 := by
        refine le_trans (mul_le_mul_of_nonneg_left (i3.trans ?_) (by linarith)) hn
        linarith
      obtain ⟨j1, j2⟩ := tNext_bounds R u hu0 hu hacc _ i1 i2 hb
      refine ⟨R.idem _, i2.trans j1, ?_⟩
      change tNext R 1 1 4 (tFloat R k) ≤ _
      push_cast
      linarith
  obtain ⟨i1, i2, i3⟩ := key n le_rfl
  have hb : 16 * u * tFloat R n ≤ 1 := le_trans (mul_le_mul_of_nonneg_left i3 (by linarith)) hn
  obtain ⟨j1, -⟩ := tNext_bounds R u hu0 hu hacc _ i1 i2 hb
  exact ⟨i2, j1, fl_lam_range R _ _ i1 j1 i2⟩

end

/-! ## The hypotheses are met -/

theorem binary64_accurate (x : ℝ) (hx : 1 / 4 ≤ x) : |binary64.fl x - x| ≤ 2⁻¹ ^ 53 * x := by
  refine (Float64.fl_error x).trans ?_
  rw [abs_of_pos (by linarith)]
  refine max_le le_rfl ?_
  have h1 : (2⁻¹ : ℝ) ^ 1075 ≤ 2⁻¹ ^ 55 := pow_le_pow_of_le_one (by norm_num) (by norm_num) (by norm_num)
  have h2 : (2⁻¹ : ℝ) ^ 55 = 2⁻¹ ^ 53 * (1 / 4) := by norm_num
  rw [h2] at h1
  exact h1.trans (mul_le_mul_of_nonneg_left hx (by positivity))

/-- `3/4` is a double, and soft thresholding by `1` gives zero. -/
example : soft binary64 1 (3 / 4) = 0 := by
  have hx : binary64.fl (3 / 4) = 3 / 4 := by
    have := Float64.fixed_of_lt 3 (-2) (by norm_num) (by norm_num)
    rw [show ((3 : ℤ) : ℝ) * 2 ^ (-2 : ℤ) = 3 / 4 by norm_num] at this
    exact this
  exact (C131_soft binary64 1 (3 / 4) zero_le_one hx).1 (by norm_num [abs_of_pos])

/-- Ten thousand milliard updates in double precision. -/
example := C131_momentum_regular binary64 (2⁻¹ ^ 53) (by positivity) (by norm_num) binary64_accurate (10 ^ 13) (by norm_num)

example (grad : (Fin 3 → ℝ) → Fin 3 → ℝ) (n : ℕ) (i : Fin 3) := C131_positivity_run binary64 grad (fun _ => 1 / 10)
  (fun _ => 1) (fun _ => ⟨zero_le_one, le_rfl⟩) (fun _ => 1) (fun _ => zero_le_one) (fun _ => binary64.one) n i

example (grad : (Fin 3 → ℝ) → Fin 3 → ℝ) (n : ℕ) (i : Fin 3) := C131_positivity_any_relaxation binary64 grad
  (fun _ => 1 / 10) (fun _ => 2) (fun _ => -1, fun _ => 3) n i

example := C131_momentum_cd binary64 3 (by norm_num) 7
example := C131_hard_and_positive binary64 1 2 binary64.two
example := C131_reweight binary64 1 1 1 2 (by rw [mul_one, binary64.one]; exact one_pos) zero_le_one binary64.one zero_le_two
example := C131_normalised binary64 0 2 1 (by rw [sub_zero, binary64.two]; exact two_pos) zero_le_one one_le_two
example := C131_accumulators binary64 1 3 (1 / 2) 1 1 zero_le_one binary64.one (by norm_num) (by norm_num) zero_le_one
  (by rw [binary64.one]; exact one_pos)
example := C131_shrinkage binary64 1 1 1 1 1 2 zero_le_one zero_le_one zero_le_one zero_le_one binary64.two

end Verif
