import Verif.Props.Reweight
import Verif.Spec.LogSum
import Mathlib.Analysis.SpecificLimits.Basic

/-!
# C148: reweighting follows the reference

Section 4 of the reference recomputes the weights from the latest estimate.  `cwbReweight` multiplies the previous weights
instead.
-/

namespace Verif
open Reweight Spec
variable {ι 𝕜 : Type} [RCLike 𝕜]

theorem cwbFactor_mem {n w a : ℝ} (hn : 0 < n) (hw : 0 < w) (ha : 0 ≤ a) :
    0 < 1 / (1 + a / (n * w)) ∧ 1 / (1 + a / (n * w)) ≤ 1 ∧ (1 / (1 + a / (n * w)) = 1 ↔ a = 0) := by
  have hp : 0 < n * w := mul_pos hn hw
  have h : 0 ≤ a / (n * w) := div_nonneg ha hp.le
  refine ⟨by positivity, by rw [div_le_one (by linarith)]; linarith, ?_⟩
  rw [div_eq_one_iff_eq (by linarith)]
  constructor
  · intro e
    have : a / (n * w) = 0 := by linarith
    rcases div_eq_zero_iff.1 this with h | h
    · exact h
    · exact absurd h hp.ne'
  · rintro rfl
    simp

theorem prod_factors_eq_one {n w : ℝ} (hn : 0 < n) (hw : 0 < w) (l : List ℝ) (hl : ∀ a ∈ l, 0 ≤ a) :
    0 < (l.map fun a => 1 / (1 + a / (n * w))).prod ∧ (l.map fun a => 1 / (1 + a / (n * w))).prod ≤ 1 ∧
      ((l.map fun a => 1 / (1 + a / (n * w))).prod = 1 ↔ ∀ a ∈ l, a = 0) := by
  induction l with
  | nil => simp
  | cons a l ih =>
    obtain ⟨i1, i2, i3⟩ := ih fun b hb => hl b (List.mem_cons_of_mem _ hb)
    obtain ⟨j1, j2, j3⟩ := cwbFactor_mem hn hw (hl a List.mem_cons_self)
    simp only [List.map_cons, List.prod_cons]
    refine ⟨mul_pos j1 i1, mul_le_one₀ j2 i1.le i2, ?_⟩
    constructor
    · intro e
      have e1 : 1 / (1 + a / (n * w)) = 1 := by
        refine le_antisymm j2 ?_
        calc (1 : ℝ) = 1 / (1 + a / (n * w)) * (l.map fun a => 1 / (1 + a / (n * w))).prod := e.symm
          _ ≤ 1 / (1 + a / (n * w)) * 1 := mul_le_mul_of_nonneg_left i2 j1.le
          _ = _ := mul_one _
      rw [e1, one_mul] at e
      intro b hb
      rcases List.mem_cons.1 hb with rfl | hb
      · exact j3.1 e1
      · exact i3.1 e b hb
    · intro h
      rw [j3.2 (h a List.mem_cons_self), i3.2 fun b hb => h b (List.mem_cons_of_mem _ hb), one_mul]

/-- C148: exactly when `reweight` gives the weight of the reference: after any calls with data `xs` (calls that raised do not
count) and a last call with `x`, weight `i` is the one computed from `x` if and only if entry `i` of all earlier data is
zero. -/
theorem C148_agrees_iff (w : ι → ℝ) (sup : Supplied) (n : ℝ) (hw : ∀ i, 0 < w i) (hn : 0 < n) (l : List (Option (ι → 𝕜)))
    (x : ι → 𝕜) (i : ι) :
    (calls (l ++ [some x]) (Reweight.init w sup n)).weights i = referenceWeight n (w i) ‖x i‖ ↔
      ∀ y ∈ l.filterMap id, y i = 0 := by
  rw [C58_closed_form]
  have hm : ((l.filterMap id).map fun y => 1 / (1 + ‖y i‖ / (n * w i)))
      = (((l.filterMap id).map fun y => ‖y i‖).map fun a => 1 / (1 + a / (n * w i))) := by
    rw [List.map_map]
    rfl
  obtain ⟨h1, h2, h3⟩ := prod_factors_eq_one hn (hw i) ((l.filterMap id).map fun y => ‖y i‖) (by
    intro a ha
    obtain ⟨y, -, rfl⟩ := List.mem_map.1 ha
    exact norm_nonneg _)
  obtain ⟨f1, -, -⟩ := cwbFactor_mem hn (hw i) (norm_nonneg (x i))
  simp only [List.filterMap_append, List.map_append, List.prod_append]
  rw [hm]
  have e : (List.map (fun x : ι → 𝕜 => 1 / (1 + ‖x i‖ / (n * w i))) (List.filterMap id [some x])).prod
      = 1 / (1 + ‖x i‖ / (n * w i)) := by simp
  rw [e, referenceWeight]
  have hne : w i * (1 / (1 + ‖x i‖ / (n * w i))) ≠ 0 := (mul_pos (hw i) f1).ne'
  constructor
  · intro h y hy
    have : (((l.filterMap id).map fun y => ‖y i‖).map fun a => 1 / (1 + a / (n * w i))).prod = 1 := by
      refine mul_left_cancel₀ hne ?_
      rw [mul_one, ← mul_one_div (w i)] at *
      linarith
    have := h3.1 this ‖y i‖ (List.mem_map.2 ⟨y, hy, rfl⟩)
    exact norm_eq_zero.1 this
  · intro h
    rw [h3.2 (by
      intro a ha
      obtain ⟨y, hy, rfl⟩ := List.mem_map.1 ha
      rw [h y hy, norm_zero]), one_mul, mul_one_div]

/-- C148 refuted: with the same data `x` again and again the weights of the entries that are not zero tend to zero, whereas
the weight of the reference stays the same positive number. -/
theorem C148_weights_vanish (w : ι → ℝ) (sup : Supplied) (n : ℝ) (hw : ∀ i, 0 < w i) (hn : 0 < n) (x : ι → 𝕜) (i : ι)
    (hx : x i ≠ 0) :
    Filter.Tendsto (fun k => (calls (List.replicate k (some x)) (Reweight.init w sup n)).weights i) Filter.atTop (nhds 0) ∧
      0 < referenceWeight n (w i) ‖x i‖ := by
  have hp : 0 < n * w i := mul_pos hn (hw i)
  obtain ⟨f1, f2, f3⟩ := cwbFactor_mem hn (hw i) (norm_nonneg (x i))
  constructor
  · have e : ∀ k, (calls (List.replicate k (some x)) (Reweight.init w sup n)).weights i
        = w i * (1 / (1 + ‖x i‖ / (n * w i))) ^ k := by
      intro k
      rw [C58_closed_form]
      congr 1
      rw [List.filterMap_replicate_of_some (f := id) (b := x) rfl, List.map_replicate, List.prod_replicate]
    simp only [e]
    have hlt : 1 / (1 + ‖x i‖ / (n * w i)) < 1 :=
      lt_of_le_of_ne f2 fun h => hx (norm_eq_zero.1 (f3.1 h))
    simpa using (tendsto_pow_atTop_nhds_zero_of_lt_one f1.le hlt).const_mul (w i)
  · rw [referenceWeight, ← mul_one_div]
    exact mul_pos (hw i) f1

/-- What the reference is after: the weighted l1 norm with its weights at `x` majorises the log-sum penalty. -/
theorem logSum_majorant {n w : ℝ} (hn : 0 < n) (hw : 0 < w) {a b : ℝ} (ha : 0 ≤ a) (hb : 0 ≤ b) :
    logSum n w b - logSum n w a ≤ referenceWeight n w a * (b - a) := by
  have hp : 0 < n * w := mul_pos hn hw
  have ha' : 0 < 1 + a / (n * w) := by have := div_nonneg ha hp.le; linarith
  have hb' : 0 < 1 + b / (n * w) := by have := div_nonneg hb hp.le; linarith
  have h := Real.log_le_sub_one_of_pos (div_pos hb' ha')
  rw [Real.log_div hb'.ne' ha'.ne'] at h
  have h' := mul_le_mul_of_nonneg_left h (by positivity : 0 ≤ n * w ^ 2)
  have e : n * w ^ 2 * ((1 + b / (n * w)) / (1 + a / (n * w)) - 1) = w / (1 + a / (n * w)) * (b - a) := by
    field_simp
    ring
  rw [e] at h'
  rw [logSum, logSum, referenceWeight]
  linarith

/-- C148, what holds: after the first call, with the data `x`, an estimate `z` whose objective `F` plus weighted l1 norm is not
larger than that of `x` has an `F` plus log-sum penalty that is not larger either: the first reweighting is the step of the
reference.  Missing: the same for later calls, where it fails by `C148_second_reweighting_increases`. -/
theorem C148_first_reweighting_partial [Fintype ι] (w : ι → ℝ) (sup : Supplied) (n : ℝ) (hw : ∀ i, 0 < w i) (hn : 0 < n)
    (F : (ι → 𝕜) → ℝ) (x z : ι → 𝕜)
    (h : F z + ∑ i, (calls [some x] (Reweight.init w sup n)).weights i * ‖z i‖
      ≤ F x + ∑ i, (calls [some x] (Reweight.init w sup n)).weights i * ‖x i‖) :
    F z + ∑ i, logSum n (w i) ‖z i‖ ≤ F x + ∑ i, logSum n (w i) ‖x i‖ := by
  have e : ∀ i, (calls [some x] (Reweight.init w sup n)).weights i = referenceWeight n (w i) ‖x i‖ := fun i =>
    (C148_agrees_iff w sup n hw hn [] x i).2 (by simp)
  simp only [e] at h
  have := Finset.sum_le_sum fun i (_ : i ∈ Finset.univ) =>
    logSum_majorant hn (hw i) (norm_nonneg (x i)) (norm_nonneg (z i))
  simp only [Finset.sum_sub_distrib, mul_sub] at this
  linarith

/-- One entry: the minimiser for the weight of a second reweighting has a larger log-sum objective. -/
theorem logSum_entry {n w a : ℝ} (hn : 0 < n) (hw : 0 < w) (ha : 0 < a) (hl : 2 * (n * w ^ 2) ≤ (n * w + a) ^ 2)
    {W1 W2 : ℝ} (h1 : W1 = referenceWeight n w a) (h21 : W2 < W1) :
    1 / 2 * W1 ^ 2 + logSum n w a < 1 / 2 * W2 ^ 2 + logSum n w (a + (W1 - W2)) := by
  have hp : 0 < n * w := mul_pos hn hw
  set d := W1 - W2 with hd
  have d0 : 0 < d := by linarith
  have hm := logSum_majorant hn hw (a := a + d) (b := a) (by linarith) ha.le
  have e1 : W1 = n * w ^ 2 / (n * w + a) := by
    rw [h1, referenceWeight]
    field_simp
  have e2 : referenceWeight n w (a + d) = n * w ^ 2 / (n * w + (a + d)) := by
    rw [referenceWeight]
    have : n * w + (a + d) ≠ 0 := by positivity
    field_simp
  have hA : 0 < n * w + a := by linarith
  have hB : 0 < n * w + (a + d) := by linarith
  have key : W1 - referenceWeight n w (a + d) < d / 2 := by
    have e : W1 - referenceWeight n w (a + d) = d * (n * w ^ 2 / ((n * w + a) * (n * w + (a + d)))) := by
      rw [e1, e2]
      field_simp
      ring
    have : n * w ^ 2 / ((n * w + a) * (n * w + (a + d))) < 1 / 2 := by
      rw [div_lt_iff₀ (mul_pos hA hB)]
      nlinarith [mul_pos hA d0]
    rw [e]
    nlinarith
  have hr := mul_pos d0 (sub_pos.2 key)
  nlinarith

/-- C148 refuted: reweight twice with the same `x`, any data whose entries are zero or not small against the weights.  There is
an observation `y` for which the denoised image `z`, the minimiser of half the squared distance to `y` plus the weighted l1
norm, has a larger log-sum objective than `x`: the step goes uphill on the objective of the reference. -/
theorem C148_second_reweighting_increases [Fintype ι] (w : ι → ℝ) (sup : Supplied) (n : ℝ) (hw : ∀ i, 0 < w i) (hn : 0 < n)
    (x : ι → 𝕜) (hx : ∀ i, x i = 0 ∨ 2 * (n * w i ^ 2) ≤ (n * w i + ‖x i‖) ^ 2) (h0 : ∃ i, x i ≠ 0) :
    ∃ y z : ι → 𝕜,
      (∀ v : ι → 𝕜,
        ∑ i, 1 / 2 * ‖z i - y i‖ ^ 2 + ∑ i, (calls [some x, some x] (Reweight.init w sup n)).weights i * ‖z i‖
          ≤ ∑ i, 1 / 2 * ‖v i - y i‖ ^ 2 + ∑ i, (calls [some x, some x] (Reweight.init w sup n)).weights i * ‖v i‖) ∧
      ∑ i, 1 / 2 * ‖x i - y i‖ ^ 2 + ∑ i, logSum n (w i) ‖x i‖
        < ∑ i, 1 / 2 * ‖z i - y i‖ ^ 2 + ∑ i, logSum n (w i) ‖z i‖ := by
  classical
  obtain ⟨W2, hW2⟩ : ∃ W2 : ι → ℝ, ∀ i, (calls [some x, some x] (Reweight.init w sup n)).weights i = W2 i := ⟨_, fun _ => rfl⟩
  obtain ⟨W1, hW1⟩ : ∃ W1 : ι → ℝ, ∀ i, W1 i = referenceWeight n (w i) ‖x i‖ := ⟨_, fun _ => rfl⟩
  have eW : ∀ i, W2 i = W1 i * (1 / (1 + ‖x i‖ / (n * w i))) := by
    intro i
    rw [← hW2, hW1, referenceWeight, C58_closed_form, ← mul_one_div (w i)]
    simp [mul_assoc]
  have p1 : ∀ i, 0 < W1 i := fun i => by
    rw [hW1, referenceWeight, ← mul_one_div]
    exact mul_pos (hw i) (cwbFactor_mem hn (hw i) (norm_nonneg _)).1
  have p2 : ∀ i, 0 < W2 i := fun i => by
    rw [eW]
    exact mul_pos (p1 i) (cwbFactor_mem hn (hw i) (norm_nonneg _)).1
  have p12 : ∀ i, x i ≠ 0 → W2 i < W1 i := fun i hi => by
    obtain ⟨-, f2, f3⟩ := cwbFactor_mem hn (hw i) (norm_nonneg (x i))
    have : 1 / (1 + ‖x i‖ / (n * w i)) < 1 := lt_of_le_of_ne f2 fun h => hi (norm_eq_zero.1 (f3.1 h))
    rw [eW]
    nlinarith [p1 i]
  obtain ⟨u, hu⟩ : ∃ u : ι → 𝕜, ∀ i, x i ≠ 0 → ‖u i‖ = 1 ∧ ((‖x i‖ : ℝ) : 𝕜) * u i = x i := by
    refine ⟨fun i => x i / ((‖x i‖ : ℝ) : 𝕜), fun i hi => ?_⟩
    have hn0 : ‖x i‖ ≠ 0 := norm_ne_zero_iff.2 hi
    have hc : ((‖x i‖ : ℝ) : 𝕜) ≠ 0 := by exact_mod_cast hn0
    exact ⟨by rw [norm_div, RCLike.norm_ofReal, abs_norm, div_self hn0], by field_simp⟩
  have nrm : ∀ i, x i ≠ 0 → ∀ r : ℝ, 0 ≤ r → ‖((r : ℝ) : 𝕜) * u i‖ = r := fun i hi r hr => by
    rw [norm_mul, (hu i hi).1, mul_one, RCLike.norm_ofReal, abs_of_nonneg hr]
  let y : ι → 𝕜 := fun i => if x i = 0 then 0 else ((‖x i‖ + W1 i : ℝ) : 𝕜) * u i
  let z : ι → 𝕜 := fun i => if x i = 0 then 0 else ((‖x i‖ + (W1 i - W2 i) : ℝ) : 𝕜) * u i
  have y0 : ∀ i, x i = 0 → y i = 0 := fun i hi => if_pos hi
  have z0 : ∀ i, x i = 0 → z i = 0 := fun i hi => if_pos hi
  have y1 : ∀ i, x i ≠ 0 → y i = ((‖x i‖ + W1 i : ℝ) : 𝕜) * u i := fun i hi => if_neg hi
  have z1 : ∀ i, x i ≠ 0 → z i = ((‖x i‖ + (W1 i - W2 i) : ℝ) : 𝕜) * u i := fun i hi => if_neg hi
  have ny : ∀ i, x i ≠ 0 → ‖y i‖ = ‖x i‖ + W1 i := fun i hi => by
    rw [y1 i hi]
    exact nrm i hi _ (by linarith [p1 i, norm_nonneg (x i)])
  have nz : ∀ i, x i ≠ 0 → ‖z i‖ = ‖x i‖ + (W1 i - W2 i) := fun i hi => by
    rw [z1 i hi]
    exact nrm i hi _ (by linarith [p12 i hi, norm_nonneg (x i)])
  have zy : ∀ i, x i ≠ 0 → ‖z i - y i‖ = W2 i := fun i hi => by
    have : z i - y i = -(((W2 i : ℝ) : 𝕜) * u i) := by
      rw [z1 i hi, y1 i hi]
      push_cast
      ring
    rw [this, norm_neg]
    exact nrm i hi _ (p2 i).le
  have xy : ∀ i, x i ≠ 0 → ‖x i - y i‖ = W1 i := fun i hi => by
    have : x i - y i = -(((W1 i : ℝ) : 𝕜) * u i) := by
      rw [y1 i hi]
      conv_lhs => rw [← (hu i hi).2]
      rw [(hu i hi).2]
      push_cast
      linear_combination -(hu i hi).2
    rw [this, norm_neg]
    exact nrm i hi _ (p1 i).le
  refine ⟨y, z, ?_, ?_⟩
  · intro v
    simp only [hW2]
    rw [← Finset.sum_add_distrib, ← Finset.sum_add_distrib]
    refine Finset.sum_le_sum fun i _ => ?_
    by_cases hi : x i = 0
    · rw [y0 i hi, z0 i hi]
      have := mul_nonneg (p2 i).le (norm_nonneg (v i))
      simp only [sub_zero, norm_zero]
      nlinarith [sq_nonneg ‖v i‖]
    · rw [zy i hi, nz i hi]
      have h := abs_norm_sub_norm_le (v i) (y i)
      have h' : (‖v i‖ - ‖y i‖) ^ 2 ≤ ‖v i - y i‖ ^ 2 := by
        rw [← sq_abs (‖v i‖ - ‖y i‖)]
        exact pow_le_pow_left₀ (abs_nonneg _) h 2
      rw [ny i hi] at h'
      nlinarith [sq_nonneg (‖v i‖ - (‖x i‖ + (W1 i - W2 i)))]
  · rw [← Finset.sum_add_distrib, ← Finset.sum_add_distrib]
    have strict : ∀ i, x i ≠ 0 → 1 / 2 * ‖x i - y i‖ ^ 2 + logSum n (w i) ‖x i‖
        < 1 / 2 * ‖z i - y i‖ ^ 2 + logSum n (w i) ‖z i‖ := fun i hi => by
      rw [xy i hi, zy i hi, nz i hi]
      exact logSum_entry hn (hw i) (norm_pos_iff.2 hi) ((hx i).resolve_left hi) (hW1 i) (p12 i hi)
    obtain ⟨i, hi⟩ := h0
    refine Finset.sum_lt_sum (fun j _ => ?_) ⟨i, Finset.mem_univ i, strict i hi⟩
    by_cases hj : x j = 0
    · rw [y0 j hj, z0 j hj, hj]
    · exact (strict j hj).le

/-- The hypotheses are met: two entries of weight 1 and the default factor, the data `(1, 0)`. -/
example : (∀ i, (![1, 0] : Fin 2 → ℝ) i = 0 ∨ 2 * ((1 : ℝ) * 1 ^ 2) ≤ (1 * 1 + ‖(![1, 0] : Fin 2 → ℝ) i‖) ^ 2) ∧
    ∃ i, (![1, 0] : Fin 2 → ℝ) i ≠ 0 := by
  refine ⟨fun i => ?_, 0, by simp⟩
  fin_cases i
  · right
    norm_num
  · left
    rfl

/-- The hypotheses of the first reweighting are met: `x = 1`, `z = 0` and a constant objective. -/
example : (0 : ℝ) + ∑ i, logSum 1 1 ‖(![0] : Fin 1 → ℝ) i‖ ≤ 0 + ∑ i, logSum 1 1 ‖(![1] : Fin 1 → ℝ) i‖ :=
  C148_first_reweighting_partial (fun _ => 1) .floatArray 1 (fun _ => one_pos) one_pos (fun _ => 0) ![1] ![0] (by
    simp [calls, reweight, Reweight.init])

/-- Data with a zero first entry before: the weight of that entry is the one of the reference. -/
example (x₁ x₂ : Fin 2 → ℝ) (h : x₁ = ![0, 1]) : (calls ([some x₁, none] ++ [some x₂])
      (Reweight.init (fun _ : Fin 2 => (1 : ℝ)) .floatArray 1)).weights 0 = referenceWeight 1 1 ‖x₂ 0‖ :=
  (C148_agrees_iff (fun _ => 1) .floatArray 1 (fun _ => one_pos) one_pos _ x₂ 0).2 (by simp [h])

/-- The weight of an entry equal to 2 vanishes. -/
example : Filter.Tendsto (fun k => (calls (List.replicate k (some fun _ : Fin 2 => (2 : ℝ)))
      (Reweight.init (fun _ : Fin 2 => (1 : ℝ)) .floatArray 1)).weights 0) Filter.atTop (nhds 0) :=
  (C148_weights_vanish (fun _ => 1) .floatArray 1 (fun _ => one_pos) one_pos (fun _ => (2 : ℝ)) 0 two_ne_zero).1

end Verif
