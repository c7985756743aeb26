import Verif.Model.Metrics
import Verif.Props.Stats
import Mathlib.Data.Fin.VecNotation

/-!
# C64: the image metrics and affine intensity changes; C85: masked metrics
-/

open scoped BigOperators

namespace Verif

open Metrics

variable {ι : Type} [Fintype ι]

/-- Evaluation of expressions in literal vectors. -/
local macro "vnum" : tactic =>
  `(tactic| ((try simp [Fin.sum_univ_three, Ext.div, Ext.infOf, Ext.log10, Ext.scalePos]) <;>
    (try norm_num [Ext.div, Ext.infOf, Ext.log10, Ext.scalePos])))

/-! ## Normalisation -/

theorem arrMin_of (x : ι → ℝ) (i0 : ι) (h : ∀ i, x i0 ≤ x i) : Stats.arrMin x = .ok (x i0) := by
  have : Nonempty ι := ⟨i0⟩
  rw [arrMin_eq]
  congr 1
  exact le_antisymm (Finset.inf'_le _ (Finset.mem_univ _)) (Finset.le_inf' _ _ fun i _ => h i)

theorem arrMax_of (x : ι → ℝ) (i0 : ι) (h : ∀ i, x i ≤ x i0) : Stats.arrMax x = .ok (x i0) := by
  have : Nonempty ι := ⟨i0⟩
  rw [arrMax_eq]
  congr 1
  exact le_antisymm (Finset.sup'_le _ _ fun i _ => h i) (Finset.le_sup' x (Finset.mem_univ _))

theorem minMax_of (x : ι → ℝ) (i0 i1 : ι) (h0 : ∀ i, x i0 ≤ x i) (h1 : ∀ i, x i ≤ x i1) :
    minMaxNormalize (some x) =
      .ok (if x i1 - x i0 = 0 then none else some fun i => (x i - x i0) / (x i1 - x i0)) := by
  rw [minMaxNormalize, arrMin_of x i0 h0, arrMax_of x i1 h1]
  rfl

theorem exists_extrema [Nonempty ι] (x : ι → ℝ) :
    ∃ i0 i1, (∀ i, x i0 ≤ x i) ∧ ∀ i, x i ≤ x i1 := by
  obtain ⟨i0, -, h0⟩ := Finset.exists_min_image Finset.univ x Finset.univ_nonempty
  obtain ⟨i1, -, h1⟩ := Finset.exists_max_image Finset.univ x Finset.univ_nonempty
  exact ⟨i0, i1, fun i => h0 i (Finset.mem_univ i), fun i => h1 i (Finset.mem_univ i)⟩

/-- `min_max_normalize` maps every non-constant image onto `[0, 1]`, attaining both ends and keeping
proportions; a constant image becomes NaN everywhere; an empty one raises. -/
theorem C64_normalised_range (x : ι → ℝ) :
    ((∃ i j, x i ≠ x j) → ∃ y : ι → ℝ, minMaxNormalize (some x) = .ok (some y) ∧
      (∀ i, 0 ≤ y i ∧ y i ≤ 1) ∧ (∃ i, y i = 0) ∧ (∃ i, y i = 1) ∧
      ∃ a b : ℝ, 0 < a ∧ ∀ i, x i = a * y i + b) ∧
    (Nonempty ι → (∀ i j, x i = x j) → minMaxNormalize (some x) = .ok none) ∧
    (IsEmpty ι → minMaxNormalize (some x) = .error .valueError) := by
  refine ⟨?_, ?_, ?_⟩
  · rintro ⟨p, q, hpq⟩
    have : Nonempty ι := ⟨p⟩
    obtain ⟨i0, i1, h0, h1⟩ := exists_extrema x
    have hlt : 0 < x i1 - x i0 := by
      rcases lt_or_gt_of_ne hpq with h | h
      · have := h0 p; have := h1 q; linarith
      · have := h0 q; have := h1 p; linarith
    refine ⟨fun i => (x i - x i0) / (x i1 - x i0), by rw [minMax_of x i0 i1 h0 h1, if_neg hlt.ne'],
      fun i => ⟨?_, ?_⟩, ⟨i0, by simp⟩, ⟨i1, div_self hlt.ne'⟩, x i1 - x i0, x i0, hlt, fun i => ?_⟩
    · exact div_nonneg (sub_nonneg.2 (h0 i)) hlt.le
    · rw [div_le_one hlt]; linarith [h1 i]
    · field_simp; ring
  · intro hne hc
    obtain ⟨i⟩ := hne
    rw [minMax_of x i i (fun j => (hc i j).le) (fun j => (hc j i).le)]
    simp
  · intro he
    have : ¬ (Finset.univ : Finset ι).Nonempty := by
      rintro ⟨p, -⟩
      exact he.false p
    simp only [minMaxNormalize, Stats.arrMin, dif_neg this]
    rfl

example : ∃ i j : Fin 2, (![3, 5] : Fin 2 → ℝ) i ≠ ![3, 5] j := ⟨0, 1, by vnum⟩

theorem normalize_affine (x y : ι → ℝ) (a b : ℝ) (ha : 0 < a) (h : ∀ i, y i = a * x i + b) :
    minMaxNormalize (some y) = minMaxNormalize (some x) := by
  rcases isEmpty_or_nonempty ι with he | hne
  · rw [(C64_normalised_range x).2.2 he, (C64_normalised_range y).2.2 he]
  · obtain ⟨i0, i1, h0, h1⟩ := exists_extrema x
    rw [minMax_of x i0 i1 h0 h1, minMax_of y i0 i1
      (fun i => by rw [h, h]; have := mul_le_mul_of_nonneg_left (h0 i) ha.le; linarith)
      (fun i => by rw [h, h]; have := mul_le_mul_of_nonneg_left (h1 i) ha.le; linarith)]
    have e : y i1 - y i0 = a * (x i1 - x i0) := by rw [h, h]; ring
    have e' : y i1 - y i0 = 0 ↔ x i1 - x i0 = 0 := by rw [e]; simp [ha.ne']
    by_cases hc : x i1 - x i0 = 0
    · rw [if_pos hc, if_pos (e'.2 hc)]
    · rw [if_neg hc, if_neg fun h => hc (e'.1 h)]
      congr 2
      funext i
      rw [e, h, h]
      have ha' := ha.ne'
      field_simp
      ring

theorem normalize_idem (x : ι → ℝ) (y : Img ι ℝ) (h : minMaxNormalize (some x) = .ok y) :
    minMaxNormalize (magnitude y) = .ok y := by
  rcases isEmpty_or_nonempty ι with he | hne
  · rw [(C64_normalised_range x).2.2 he] at h; cases h
  · by_cases hc : ∃ i j, x i ≠ x j
    · obtain ⟨z, hz, hr, ⟨i0, h0⟩, ⟨i1, h1⟩, -⟩ := (C64_normalised_range x).1 hc
      rw [hz] at h; cases h
      have e : magnitude (some z) = some z := by
        simp only [magnitude, Option.map_some]
        congr 1; funext i
        rw [Real.norm_eq_abs, abs_of_nonneg (hr i).1]
      rw [e, minMax_of z i0 i1 (fun i => by rw [h0]; exact (hr i).1) (fun i => by rw [h1]; exact (hr i).2),
        h0, h1]
      simp
    · push Not at hc
      rw [(C64_normalised_range x).2.1 hne hc] at h
      cases h
      simp [magnitude, minMaxNormalize]

/-! ## Affine changes -/

/-- All five metrics depend only on the magnitudes of the two images, and do not change when either
image's magnitudes undergo any increasing affine change `m ↦ a m + b` — for every mask. -/
theorem C64_affine_invariant {𝕜 : Type} [Norm 𝕜] (t t' r r' : ι → 𝕜) (a b c d : ℝ) (ha : 0 < a)
    (hc : 0 < c) (ht : ∀ i, ‖t' i‖ = a * ‖t i‖ + b) (hr : ∀ i, ‖r' i‖ = c * ‖r i‖ + d) (mask : Mask ι)
    (compareSsim : Img ι ℝ → Img ι ℝ → Ext ℝ × Img ι ℝ) :
    mse (some t') (some r') mask = mse (some t) (some r) mask ∧
    psnr (some t') (some r') mask = psnr (some t) (some r) mask ∧
    snr (some t') (some r') mask = snr (some t) (some r) mask ∧
    nrmse (some t') (some r') mask = nrmse (some t) (some r) mask ∧
    ssim compareSsim (some t') (some r') mask = ssim compareSsim (some t) (some r) mask := by
  have e : preprocess (some t') (some r') mask = preprocess (some t) (some r) mask := by
    simp only [preprocess, magnitude, Option.map_some]
    rw [normalize_affine _ _ a b ha ht, normalize_affine _ _ c d hc hr]
  simp only [mse, psnr, snr, nrmse, ssim, e, and_self]

/-- For images with non-negative intensities: any gain `a > 0` and offset `b ≥ 0` of the test image
leaves the error unchanged. -/
theorem C64_affine_invariant_nonneg (t r : ι → ℝ) (a b : ℝ) (ha : 0 < a) (hb : 0 ≤ b)
    (ht : ∀ i, 0 ≤ t i) (mask : Mask ι) :
    mse (some fun i => a * t i + b) (some r) mask = mse (some t) (some r) mask ∧
    psnr (some fun i => a * t i + b) (some r) mask = psnr (some t) (some r) mask ∧
    snr (some fun i => a * t i + b) (some r) mask = snr (some t) (some r) mask ∧
    nrmse (some fun i => a * t i + b) (some r) mask = nrmse (some t) (some r) mask := by
  have := C64_affine_invariant t (fun i => a * t i + b) r r a b 1 0 ha one_pos
    (fun i => by
      rw [Real.norm_eq_abs, Real.norm_eq_abs, abs_of_nonneg (ht i), abs_of_nonneg]
      have := mul_nonneg ha.le (ht i); linarith) (fun i => by ring) mask
    (fun _ _ => (.nan, none))
  exact ⟨this.1, this.2.1, this.2.2.1, this.2.2.2.1⟩

example : ∃ t : Fin 2 → ℝ, (∀ i, 0 ≤ t i) ∧ ∃ i j, t i ≠ t j :=
  ⟨![0, 1], by intro i; fin_cases i <;> vnum, 0, 1, by vnum⟩

/-- With negative intensities it fails: shifting `[-1, 0, 1]` by one changes its error against
`[1, 0, 1]` from 0 to 5/12, because magnitudes are taken before normalising. -/
theorem C64_signed_images_not_invariant :
    mse (some (![-1, 0, 1] : Fin 3 → ℝ)) (some ![1, 0, 1]) .absent = .ok (.fin 0) ∧
    mse (some fun i => (![-1, 0, 1] : Fin 3 → ℝ) i + 1) (some ![1, 0, 1]) .absent =
      .ok (.fin (5 / 12)) := by
  have n1 : minMaxNormalize (magnitude (some (![-1, 0, 1] : Fin 3 → ℝ))) =
      .ok (some ![1, 0, 1]) := by
    rw [magnitude, Option.map_some, minMax_of _ 1 2 (by intro i; fin_cases i <;> vnum)
      (by intro i; fin_cases i <;> vnum)]
    vnum
    funext i; fin_cases i <;> vnum
  have n2 : minMaxNormalize (magnitude (some (![1, 0, 1] : Fin 3 → ℝ))) = .ok (some ![1, 0, 1]) := by
    rw [magnitude, Option.map_some, minMax_of _ 1 2 (by intro i; fin_cases i <;> vnum)
      (by intro i; fin_cases i <;> vnum)]
    vnum
    funext i; fin_cases i <;> vnum
  have n3 : minMaxNormalize (magnitude (some fun i => (![-1, 0, 1] : Fin 3 → ℝ) i + 1)) =
      .ok (some ![0, 1 / 2, 1]) := by
    rw [magnitude, Option.map_some, minMax_of _ 0 2 (by intro i; fin_cases i <;> vnum)
      (by intro i; fin_cases i <;> vnum)]
    vnum
    funext i; fin_cases i <;> vnum
  constructor
  · simp only [mse, preprocess, n1, n2, bind, Except.bind, applyMask, imgSub, meanSquare]
    rw [mean_eq]
    vnum
  · simp only [mse, preprocess, n3, n2, bind, Except.bind, applyMask, imgSub, meanSquare]
    rw [mean_eq]
    vnum

/-! ## What the metrics compute -/

theorem meanSquare_eq [Nonempty ι] (x : ι → ℝ) : meanSquare (some x) = .fin (Spec.ms x) := by
  rw [meanSquare, mean_eq, Spec.ms]

theorem ms_nonneg (x : ι → ℝ) : 0 ≤ Spec.ms x :=
  div_nonneg (Finset.sum_nonneg fun _ _ => sq_nonneg _) (Nat.cast_nonneg _)

theorem ms_eq_zero [Nonempty ι] (x : ι → ℝ) : Spec.ms x = 0 ↔ ∀ i, x i = 0 := by
  have h : (Fintype.card ι : ℝ) ≠ 0 := by exact_mod_cast Fintype.card_ne_zero
  rw [Spec.ms, div_eq_zero_iff, Finset.sum_eq_zero_iff_of_nonneg fun i _ => sq_nonneg _]
  simp [h]

/-- Without a mask, for non-constant images with normalised magnitudes `T` and `R`:
`mse = mean((T-R)²)`; `psnr = -10 log10 mse`; `snr = 10 log10(mean T² / mse)`;
`nrmse = sqrt(mse) / sqrt(mean T²)`; and `psnr`, `snr` are `+∞` exactly when `T = R`. -/
theorem C64_unmasked_formulas {𝕜 : Type} [Norm 𝕜] (t r : ι → 𝕜) (T R : ι → ℝ)
    (hT : minMaxNormalize (some fun i => ‖t i‖) = .ok (some T))
    (hR : minMaxNormalize (some fun i => ‖r i‖) = .ok (some R)) :
    mse (some t) (some r) .absent = .ok (.fin (Spec.ms (T - R))) ∧
    (T ≠ R → psnr (some t) (some r) .absent = .ok (.fin (-(10 * Real.logb 10 (Spec.ms (T - R))))) ∧
      snr (some t) (some r) .absent =
        .ok (.fin (10 * Real.logb 10 (Spec.ms T / Spec.ms (T - R))))) ∧
    (T = R → psnr (some t) (some r) .absent = .ok .posInf ∧ snr (some t) (some r) .absent = .ok .posInf) ∧
    nrmse (some t) (some r) .absent = .ok (.fin (Real.sqrt (Spec.ms (T - R)) / Real.sqrt (Spec.ms T))) ∧
    0 < Spec.ms T := by
  have hne : Nonempty ι := by
    by_contra h
    rw [not_nonempty_iff] at h
    rw [(C64_normalised_range _).2.2 h] at hT; cases hT
  have hTp : ∃ y : ι → ℝ, (some y = some T) ∧ (∀ i, 0 ≤ y i ∧ y i ≤ 1) ∧ ∃ i, y i = 1 := by
    by_cases hc : ∃ i j, ‖t i‖ ≠ ‖t j‖
    · obtain ⟨y, h1, h2, -, h4, -⟩ := (C64_normalised_range fun i => ‖t i‖).1 hc
      rw [h1] at hT
      exact ⟨y, by injection hT, h2, h4⟩
    · push Not at hc
      rw [(C64_normalised_range fun i => ‖t i‖).2.1 hne hc] at hT; cases hT
  obtain ⟨y, hy, hy01, i1, hi1⟩ := hTp
  cases hy
  have hmsT : 0 < Spec.ms T := lt_of_le_of_ne (ms_nonneg T) fun h => by
    have := (ms_eq_zero T).1 h.symm i1
    rw [hi1] at this; exact one_ne_zero this
  have hmax : maxAbs (some T) = .ok (.fin 1) := by
    rw [maxAbs, arrMax_of _ i1 (fun i => by
      rw [hi1, abs_one, abs_of_nonneg (hy01 i).1]; exact (hy01 i).2)]
    simp only [bind, Except.bind, hi1, abs_one]
  have p1 : preprocess (some t) (some r) .absent = .ok (some T, some R, none) := by
    simp only [preprocess, magnitude, Option.map_some, hT, hR, bind, Except.bind]
  have p2 : preprocess (some T) (some R) .absent = .ok (some T, some R, none) := by
    have h1 := normalize_idem _ _ hT
    have h2 := normalize_idem _ _ hR
    simp only [preprocess, h1, h2, bind, Except.bind]
  have m2 : mse (some T) (some R) .absent = .ok (.fin (Spec.ms (T - R))) := by
    simp only [mse, p2, bind, Except.bind, applyMask, imgSub]
    rw [meanSquare_eq]; rfl
  have m1 : mse (some t) (some r) .absent = .ok (.fin (Spec.ms (T - R))) := by
    simp only [mse, p1, bind, Except.bind, applyMask, imgSub]
    rw [meanSquare_eq]; rfl
  refine ⟨m1, fun hTR => ?_, fun hTR => ?_, ?_, hmsT⟩
  · have hd : 0 < Spec.ms (T - R) := lt_of_le_of_ne (ms_nonneg _) fun h => hTR <| by
      funext i
      exact sub_eq_zero.1 ((ms_eq_zero (T - R)).1 h.symm i)
    constructor
    · simp only [psnr, p1, bind, Except.bind, applyMask, hmax, m2, Ext.div, if_neg hd.ne']
      have : 0 < 1 / Spec.ms (T - R) := by positivity
      simp only [Ext.log10, if_neg this.not_gt, if_neg this.ne', Ext.scalePos]
      rw [one_div, Real.logb_inv]
      congr 2; ring
    · simp only [snr, p1, bind, Except.bind, applyMask, m2]
      rw [meanSquare_eq]
      have : 0 < Spec.ms T / Spec.ms (T - R) := by positivity
      simp only [Ext.div, if_neg hd.ne', Ext.log10, if_neg this.not_gt, if_neg this.ne', Ext.scalePos]
  · subst hTR
    have hz : Spec.ms (T - T) = 0 := (ms_eq_zero _).2 (by simp)
    rw [hz] at m2
    constructor
    · simp [psnr, p1, bind, Except.bind, applyMask, hmax, m2, Ext.div, Ext.infOf, Ext.log10,
        Ext.scalePos]
    · simp only [snr, p1, bind, Except.bind, applyMask, m2]
      rw [meanSquare_eq]
      simp [Ext.div, Ext.infOf, hmsT.ne', hmsT, Ext.log10, Ext.scalePos]
  · simp only [nrmse, p1, bind, Except.bind, applyMask, m2]
    rw [meanSquare_eq]
    simp only [Ext.sqrt, if_neg (ms_nonneg _).not_gt, Ext.div, if_neg (Real.sqrt_pos.2 hmsT).ne']

example : minMaxNormalize (some fun i => ‖(![2, 4] : Fin 2 → ℝ) i‖) = .ok (some ![0, 1]) := by
  rw [minMax_of _ 0 1 (by intro i; fin_cases i <;> vnum) (by intro i; fin_cases i <;> vnum)]
  vnum
  funext i; fin_cases i <;> vnum

/-- If either image has constant magnitude, every metric but `ssim` is NaN, with or without a mask. -/
theorem C64_constant_image_is_nan {𝕜 : Type} [Norm 𝕜] [Nonempty ι] (t r : ι → 𝕜)
    (h : (∀ i j, ‖t i‖ = ‖t j‖) ∨ ∀ i j, ‖r i‖ = ‖r j‖) (mask : Mask ι) (hm : mask ≠ .other) :
    mse (some t) (some r) mask = .ok .nan ∧ psnr (some t) (some r) mask = .ok .nan ∧
    snr (some t) (some r) mask = .ok .nan ∧ nrmse (some t) (some r) mask = .ok .nan := by
  have tot : ∀ x : ι → ℝ, ∃ y, minMaxNormalize (some x) = .ok y := fun x => by
    by_cases hc : ∃ i j, x i ≠ x j
    · obtain ⟨y, hy, -⟩ := (C64_normalised_range x).1 hc
      exact ⟨_, hy⟩
    · push Not at hc
      exact ⟨_, (C64_normalised_range x).2.1 ‹_› hc⟩
  have totI : ∀ x : Img ι ℝ, ∃ y, minMaxNormalize x = .ok y ∧ (x = none → y = none) := fun x => by
    cases x with
    | none => exact ⟨none, by simp [minMaxNormalize], fun _ => rfl⟩
    | some x => obtain ⟨y, hy⟩ := tot x; exact ⟨y, hy, fun h => by cases h⟩
  obtain ⟨T, hT⟩ := tot fun i => ‖t i‖
  obtain ⟨R, hR⟩ := tot fun i => ‖r i‖
  have hnone : T = none ∨ R = none := by
    rcases h with h | h
    · left
      rw [(C64_normalised_range fun i => ‖t i‖).2.1 ‹_› h] at hT
      cases hT; rfl
    · right
      rw [(C64_normalised_range fun i => ‖r i‖).2.1 ‹_› h] at hR
      cases hR; rfl
  have sub_none : ∀ a b : Img ι ℝ, a = none ∨ b = none → imgSub a b = none := by
    rintro a b (rfl | rfl)
    · cases b <;> rfl
    · cases a <;> rfl
  have mask_none : ∀ (m : Option (ι → ℝ)) (a : Img ι ℝ), a = none → applyMask m a = none := by
    rintro m a rfl
    cases m <;> rfl
  have inner : ∀ a b : Img ι ℝ, a = none ∨ b = none → mse a b .absent = .ok .nan := by
    intro a b hab
    obtain ⟨a', ha, ha'⟩ := totI (magnitude a)
    obtain ⟨b', hb, hb'⟩ := totI (magnitude b)
    have : a' = none ∨ b' = none := by
      rcases hab with rfl | rfl
      · exact Or.inl (ha' rfl)
      · exact Or.inr (hb' rfl)
    simp only [mse, preprocess, ha, hb, bind, Except.bind, applyMask, sub_none _ _ this, meanSquare]
  obtain ⟨m, hp⟩ : ∃ m, preprocess (some t) (some r) mask = .ok (T, R, m) := by
    have e : ∀ x : ι → 𝕜, magnitude (some x) = some fun i => ‖x i‖ := fun _ => rfl
    cases mask with
    | absent => exact ⟨none, by simp only [preprocess, e, hT, hR, bind, Except.bind]⟩
    | arr m => exact ⟨some m, by simp only [preprocess, e, hT, hR, bind, Except.bind]⟩
    | other => exact absurd rfl hm
  have ht' : T = none → applyMask m T = none := mask_none m T
  have hr' : R = none → applyMask m R = none := mask_none m R
  have hmask : applyMask m T = none ∨ applyMask m R = none := hnone.imp ht' hr'
  have hmaskT : applyMask m T = none ∨ R = none := hnone.imp ht' id
  have num : ∃ v, maxAbs (applyMask m T) = .ok v := by
    cases applyMask m T with
    | none => exact ⟨_, rfl⟩
    | some x =>
      obtain ⟨i0, i1, -, h1⟩ := exists_extrema fun i => |x i|
      exact ⟨_, by rw [maxAbs, arrMax_of _ i1 h1]; rfl⟩
  obtain ⟨v, hv⟩ := num
  have divn : ∀ v : Ext ℝ, Ext.div v .nan = .nan := fun v => by cases v <;> rfl
  have divn' : ∀ v : Ext ℝ, Ext.div .nan v = .nan := fun v => by cases v <;> rfl
  refine ⟨?_, ?_, ?_, ?_⟩
  · simp only [mse, hp, bind, Except.bind, sub_none _ _ hmask, meanSquare]
  · simp only [psnr, hp, bind, Except.bind, hv, inner _ _ hmask, divn, Ext.log10, Ext.scalePos]
  · simp only [snr, hp, bind, Except.bind, inner _ _ hmaskT, divn, Ext.log10, Ext.scalePos]
  · simp only [nrmse, hp, bind, Except.bind, inner _ _ hmask, Ext.sqrt, divn']

/-- The similarity index: the external routine is given the normalised magnitudes; without a mask its mean value is
returned, with a mask the mean of its map weighted by the mask (a mask summing to zero gives NaN or an infinity). -/
theorem C64_ssim_formula {𝕜 : Type} [Norm 𝕜] (t r : ι → 𝕜) (T R : ι → ℝ)
    (hT : minMaxNormalize (some fun i => ‖t i‖) = .ok (some T))
    (hR : minMaxNormalize (some fun i => ‖r i‖) = .ok (some R))
    (compareSsim : Img ι ℝ → Img ι ℝ → Ext ℝ × Img ι ℝ) (v : ι → ℝ) (a : Ext ℝ)
    (hc : compareSsim (some T) (some R) = (a, some v)) :
    ssim compareSsim (some t) (some r) .absent = .ok a ∧
    (∀ m : ι → ℝ, ∑ i, m i ≠ 0 →
      ssim compareSsim (some t) (some r) (.arr m) = .ok (.fin ((∑ i, m i * v i) / ∑ i, m i))) := by
  have hT' : minMaxNormalize (magnitude (some t)) = .ok (some T) := hT
  have hR' : minMaxNormalize (magnitude (some r)) = .ok (some R) := hR
  refine ⟨?_, fun m hm => ?_⟩
  · simp [ssim, preprocess, hT', hR', bind, Except.bind, hc]
  · simp [ssim, preprocess, hT', hR', bind, Except.bind, hc, Ext.div, hm]

/-- C64: empty images raise `ValueError` in every metric, whatever the mask (the minimum of an empty array). -/
theorem C64_empty_images {𝕜 : Type} [Norm 𝕜] [IsEmpty ι] (t r : Img ι 𝕜) (mask : Mask ι)
    (compareSsim : Img ι ℝ → Img ι ℝ → Ext ℝ × Img ι ℝ) :
    mse t r mask = .error .valueError ∧ psnr t r mask = .error .valueError ∧ snr t r mask = .error .valueError ∧
    nrmse t r mask = .error .valueError ∧ ssim compareSsim t r mask = .error .valueError := by
  have h : minMaxNormalize (magnitude t) = .error .valueError := by
    cases t with
    | none => simp [magnitude, minMaxNormalize]
    | some x => exact (C64_normalised_range _).2.2 inferInstance
  refine ⟨?_, ?_, ?_, ?_, ?_⟩ <;> simp only [mse, psnr, snr, nrmse, ssim, preprocess, h] <;> rfl

/-- A mask that is neither `None` nor an array is rejected by every metric. -/
theorem C64_bad_mask {𝕜 : Type} [Norm 𝕜] [Nonempty ι] (t r : ι → 𝕜)
    (compareSsim : Img ι ℝ → Img ι ℝ → Ext ℝ × Img ι ℝ) :
    mse (some t) (some r) .other = .error .valueError ∧
    psnr (some t) (some r) .other = .error .valueError ∧
    snr (some t) (some r) .other = .error .valueError ∧
    nrmse (some t) (some r) .other = .error .valueError ∧
    ssim compareSsim (some t) (some r) .other = .error .valueError := by
  have tot : ∀ x : ι → ℝ, ∃ y, minMaxNormalize (some x) = .ok y := fun x => by
    obtain ⟨i0, i1, h0, h1⟩ := exists_extrema x
    exact ⟨_, minMax_of x i0 i1 h0 h1⟩
  obtain ⟨T, hT⟩ := tot fun i => ‖t i‖
  obtain ⟨R, hR⟩ := tot fun i => ‖r i‖
  have hp : preprocess (some t) (some r) .other = .error .valueError := by
    simp only [preprocess, magnitude, Option.map_some, hT, hR, bind, Except.bind]
  simp only [mse, psnr, snr, nrmse, ssim, hp, bind, Except.bind, and_self]

/-! ## Masks (C85) -/

theorem eval3 (x : Fin 3 → ℝ) (m : Fin 3 → ℝ) (i0 i1 : Fin 3) (h0 : ∀ i, x i0 ≤ x i)
    (h1 : ∀ i, x i ≤ x i1) (hp : ∀ i, 0 ≤ x i) (hne : x i1 - x i0 ≠ 0)
    (hm : ∀ i, m i = (x i - x i0) / (x i1 - x i0)) :
    minMaxNormalize (magnitude (some x)) = .ok (some m) := by
  have e : magnitude (some x) = some x := by
    simp only [magnitude, Option.map_some]
    congr 1; funext i
    rw [Real.norm_eq_abs, abs_of_nonneg (hp i)]
  rw [e, minMax_of x i0 i1 h0 h1, if_neg hne]
  congr 2
  funext i; exact (hm i).symm

/-- The masked pixels do matter.  The images `[0,1,1]` and `[0,1,2]` differ only in the pixel the mask
hides, but their masked errors against the same reference differ, because normalisation uses every
pixel. -/
theorem C85_masked_pixels_matter :
    mse (some (![0, 1, 1] : Fin 3 → ℝ)) (some ![0, 0, 1]) (.arr ![1, 1, 0]) = .ok (.fin (1 / 3)) ∧
    mse (some (![0, 1, 2] : Fin 3 → ℝ)) (some ![0, 0, 1]) (.arr ![1, 1, 0]) = .ok (.fin (1 / 12)) := by
  have n1 := eval3 ![0, 1, 1] ![0, 1, 1] 0 2 (by intro i; fin_cases i <;> vnum)
    (by intro i; fin_cases i <;> vnum) (by intro i; fin_cases i <;> vnum) (by vnum)
    (by intro i; fin_cases i <;> vnum)
  have n2 := eval3 ![0, 0, 1] ![0, 0, 1] 0 2 (by intro i; fin_cases i <;> vnum)
    (by intro i; fin_cases i <;> vnum) (by intro i; fin_cases i <;> vnum) (by vnum)
    (by intro i; fin_cases i <;> vnum)
  have n3 := eval3 ![0, 1, 2] ![0, 1 / 2, 1] 0 2 (by intro i; fin_cases i <;> vnum)
    (by intro i; fin_cases i <;> vnum) (by intro i; fin_cases i <;> vnum) (by vnum)
    (by intro i; fin_cases i <;> vnum)
  constructor
  · simp only [mse, preprocess, n1, n2, bind, Except.bind, applyMask, Option.map_some, imgSub,
      meanSquare]
    rw [mean_eq]
    vnum
  · simp only [mse, preprocess, n3, n2, bind, Except.bind, applyMask, Option.map_some, imgSub,
      meanSquare]
    rw [mean_eq]
    vnum

/-- The masked signal-to-noise ratio also looks at the hidden pixels of the reference even when the
normalisations do not change: only the test image is masked. -/
theorem C85_snr_reference_not_masked :
    ∃ r r' : Fin 3 → ℝ, (∀ i, i ≠ 2 → r i = r' i) ∧
      Stats.arrMin r = Stats.arrMin r' ∧ Stats.arrMax r = Stats.arrMax r' ∧
      snr (some (![0, 1, 1] : Fin 3 → ℝ)) (some r) (.arr ![1, 1, 0]) = .ok .posInf ∧
      snr (some (![0, 1, 1] : Fin 3 → ℝ)) (some r') (.arr ![1, 1, 0]) = .ok (.fin 0) := by
  refine ⟨![0, 1, 0], ![0, 1, 1], ?_, ?_, ?_, ?_, ?_⟩
  · intro i hi; fin_cases i <;> simp_all
  · rw [arrMin_of _ 0 (by intro i; fin_cases i <;> vnum),
      arrMin_of _ 0 (by intro i; fin_cases i <;> vnum)]; rfl
  · rw [arrMax_of _ 1 (by intro i; fin_cases i <;> vnum),
      arrMax_of _ 1 (by intro i; fin_cases i <;> vnum)]; rfl
  all_goals
    have n1 := eval3 ![0, 1, 1] ![0, 1, 1] 0 2 (by intro i; fin_cases i <;> vnum)
      (by intro i; fin_cases i <;> vnum) (by intro i; fin_cases i <;> vnum) (by vnum)
      (by intro i; fin_cases i <;> vnum)
    have n2 := eval3 ![0, 1, 0] ![0, 1, 0] 0 1 (by intro i; fin_cases i <;> vnum)
      (by intro i; fin_cases i <;> vnum) (by intro i; fin_cases i <;> vnum) (by vnum)
      (by intro i; fin_cases i <;> vnum)
    have em : (fun i => (![1, 1, 0] : Fin 3 → ℝ) i * (![0, 1, 1] : Fin 3 → ℝ) i) = ![0, 1, 0] := by
      funext i; fin_cases i <;> vnum
    simp only [snr, preprocess, mse, n1, n2, bind, Except.bind, applyMask, Option.map_some, em, imgSub,
      meanSquare]
    rw [mean_eq, mean_eq]
    vnum

/-- What does hold: two pairs of images with the same minimum and maximum magnitudes that agree where
the mask is non-zero have the same masked `mse`, `psnr` and `nrmse`.  (Missing: images whose extrema
lie in the masked region, and `snr`.) -/
theorem C85_masked_pixels_partial {𝕜 : Type} [Norm 𝕜] (t t' r r' : ι → 𝕜) (m : ι → ℝ)
    (ht : ∀ i, m i ≠ 0 → ‖t i‖ = ‖t' i‖) (hr : ∀ i, m i ≠ 0 → ‖r i‖ = ‖r' i‖)
    (h1 : Stats.arrMin (fun i => ‖t i‖) = Stats.arrMin fun i => ‖t' i‖)
    (h2 : Stats.arrMax (fun i => ‖t i‖) = Stats.arrMax fun i => ‖t' i‖)
    (h3 : Stats.arrMin (fun i => ‖r i‖) = Stats.arrMin fun i => ‖r' i‖)
    (h4 : Stats.arrMax (fun i => ‖r i‖) = Stats.arrMax fun i => ‖r' i‖) :
    mse (some t) (some r) (.arr m) = mse (some t') (some r') (.arr m) ∧
    psnr (some t) (some r) (.arr m) = psnr (some t') (some r') (.arr m) ∧
    nrmse (some t) (some r) (.arr m) = nrmse (some t') (some r') (.arr m) := by
  rcases isEmpty_or_nonempty ι with he | hne
  · have e : t = t' := funext fun i => (he.false i).elim
    have e' : r = r' := funext fun i => (he.false i).elim
    subst e e'
    exact ⟨rfl, rfl, rfl⟩
  have key : ∀ x y : ι → ℝ, (∀ i, m i ≠ 0 → x i = y i) → Stats.arrMin x = Stats.arrMin y →
      Stats.arrMax x = Stats.arrMax y →
      ∃ X Y, minMaxNormalize (some x) = .ok X ∧ minMaxNormalize (some y) = .ok Y ∧
        applyMask (some m) X = applyMask (some m) Y := by
    intro x y hxy e1 e2
    obtain ⟨i0, i1, a0, a1⟩ := exists_extrema x
    obtain ⟨j0, j1, b0, b1⟩ := exists_extrema y
    rw [arrMin_of x i0 a0, arrMin_of y j0 b0] at e1
    rw [arrMax_of x i1 a1, arrMax_of y j1 b1] at e2
    injection e1 with e1
    injection e2 with e2
    refine ⟨_, _, minMax_of x i0 i1 a0 a1, minMax_of y j0 j1 b0 b1, ?_⟩
    rw [← e1, ← e2]
    by_cases hc : x i1 - x i0 = 0
    · rw [if_pos hc, if_pos hc]
    · rw [if_neg hc, if_neg hc]
      simp only [applyMask, Option.map_some]
      congr 1
      funext i
      by_cases hm : m i = 0
      · rw [hm, zero_mul, zero_mul]
      · rw [hxy i hm]
  obtain ⟨T, T', a1, a2, a3⟩ := key _ _ ht h1 h2
  obtain ⟨R, R', b1, b2, b3⟩ := key _ _ hr h3 h4
  have p : preprocess (some t) (some r) (.arr m) = .ok (T, R, some m) := by
    simp only [preprocess, magnitude, Option.map_some, a1, b1, bind, Except.bind]
  have p' : preprocess (some t') (some r') (.arr m) = .ok (T', R', some m) := by
    simp only [preprocess, magnitude, Option.map_some, a2, b2, bind, Except.bind]
  simp only [mse, psnr, nrmse, p, p', bind, Except.bind, a3, b3, and_self]

example : ∃ t t' : Fin 3 → ℝ, t ≠ t' ∧ (∀ i, (![1, 1, 0] : Fin 3 → ℝ) i ≠ 0 → ‖t i‖ = ‖t' i‖) ∧
    Stats.arrMin (fun i => ‖t i‖) = Stats.arrMin (fun i => ‖t' i‖) ∧
    Stats.arrMax (fun i => ‖t i‖) = Stats.arrMax (fun i => ‖t' i‖) := by
  refine ⟨![0, 2, 1], ![0, 2, 2], fun h => ?_, ?_, ?_, ?_⟩
  · have := congrFun h 2; simp at this
  · intro i hi; fin_cases i <;> simp_all
  · rw [arrMin_of _ 0 (by intro i; fin_cases i <;> vnum),
      arrMin_of _ 0 (by intro i; fin_cases i <;> vnum)]; vnum
  · rw [arrMax_of _ 1 (by intro i; fin_cases i <;> vnum),
      arrMax_of _ 1 (by intro i; fin_cases i <;> vnum)]; vnum

/-- The masked peak ratio is not computed from the masked error: `mse` normalises the masked images a
second time.  Here the masked error is 1/6 and the masked peak 1/2, so the ratio would be
`10 log10 3`; the code returns `10 log10 (3/4)`, as the second normalisation stretches the error to
2/3. -/
theorem C85_psnr_renormalises :
    psnr (some (![0, 1, 2] : Fin 3 → ℝ)) (some ![1, 0, 2]) (.arr ![1, 1, 0]) =
      .ok (.fin (10 * Real.logb 10 (3 / 4))) ∧
    mse (some (![0, 1, 2] : Fin 3 → ℝ)) (some ![1, 0, 2]) (.arr ![1, 1, 0]) = .ok (.fin (1 / 6)) := by
  have n1 := eval3 ![0, 1, 2] ![0, 1 / 2, 1] 0 2 (by intro i; fin_cases i <;> vnum)
    (by intro i; fin_cases i <;> vnum) (by intro i; fin_cases i <;> vnum) (by vnum)
    (by intro i; fin_cases i <;> vnum)
  have n2 := eval3 ![1, 0, 2] ![1 / 2, 0, 1] 1 2 (by intro i; fin_cases i <;> vnum)
    (by intro i; fin_cases i <;> vnum) (by intro i; fin_cases i <;> vnum) (by vnum)
    (by intro i; fin_cases i <;> vnum)
  have e1 : (fun i => (![1, 1, 0] : Fin 3 → ℝ) i * (![0, 1 / 2, 1] : Fin 3 → ℝ) i) = ![0, 1 / 2, 0] := by
    funext i; fin_cases i <;> vnum
  have e2 : (fun i => (![1, 1, 0] : Fin 3 → ℝ) i * (![1 / 2, 0, 1] : Fin 3 → ℝ) i) = ![1 / 2, 0, 0] := by
    funext i; fin_cases i <;> vnum
  have n3 := eval3 ![0, 1 / 2, 0] ![0, 1, 0] 0 1 (by intro i; fin_cases i <;> vnum)
    (by intro i; fin_cases i <;> vnum) (by intro i; fin_cases i <;> vnum) (by vnum)
    (by intro i; fin_cases i <;> vnum)
  have n4 := eval3 ![1 / 2, 0, 0] ![1, 0, 0] 1 0 (by intro i; fin_cases i <;> vnum)
    (by intro i; fin_cases i <;> vnum) (by intro i; fin_cases i <;> vnum) (by vnum)
    (by intro i; fin_cases i <;> vnum)
  have mx : maxAbs (some (![0, 1 / 2, 0] : Fin 3 → ℝ)) = .ok (.fin (1 / 2)) := by
    rw [maxAbs, arrMax_of _ 1 (by intro i; fin_cases i <;> vnum)]
    vnum
    rfl
  refine ⟨?_, ?_⟩
  · simp only [psnr, preprocess, mse, n1, n2, bind, Except.bind, applyMask, Option.map_some, e1, e2,
      n3, n4, mx, imgSub, meanSquare]
    rw [mean_eq]
    vnum
  · simp only [preprocess, mse, n1, n2, bind, Except.bind, applyMask, Option.map_some, e1, e2,
      imgSub, meanSquare]
    rw [mean_eq]
    vnum

end Verif
