import Verif.Model.Matrix
import Mathlib.Analysis.InnerProductSpace.Symmetric
import Mathlib.Analysis.InnerProductSpace.Basic
import Mathlib.Analysis.Complex.Basic
import Mathlib.Analysis.SpecificLimits.Normed
import Mathlib.Topology.Order.MonotoneConvergence

/-!
# C62, C82, C83: `PowerMethod`
-/

set_option linter.unusedSectionVars false

namespace Verif
open Mat

section
variable {E : Type} [NormedAddCommGroup E] [NormedSpace ℝ E]

theorem unit_norm (y : E) (h : ‖y‖ ≠ 0) : ‖(‖y‖⁻¹ • y)‖ = 1 := by
  rw [norm_smul, norm_inv, norm_norm, inv_mul_cancel₀ h]

theorem powLoop_bound (op : E → E) (L : ℝ) (hop : ∀ x, ‖op x‖ ≤ L * ‖x‖) (tol : ℝ) (n : ℕ) (s : PowSt E)
    (hx : ∀ x, s.xOld = some x → ‖x‖ = 1) (hr : ∀ r, s.newNorm = some r → r ≤ L) :
    ∀ r, (powLoop op tol n s).newNorm = some r → r ≤ L := by
  induction n generalizing s with
  | zero => exact hr
  | succ n ih =>
    have main : ∀ x, s.xOld = some x → ‖op x‖ ≤ L := by
      intro x hxs; have := hop x; rwa [hx x hxs, mul_one] at this
    have next : ∀ x, s.xOld = some x →
        ∀ r, (powLoop op tol n ⟨if ‖op x‖ = 0 then none else some (‖op x‖⁻¹ • op x), some ‖op x‖, some ‖op x‖⟩).newNorm =
          some r → r ≤ L := by
      intro x hxs
      apply ih
      · intro y hy
        simp only at hy
        split at hy
        · cases hy
        · rename_i h0; cases hy; exact unit_norm _ h0
      · intro r hr'; cases hr'; exact main x hxs
    simp only [powLoop]
    split
    · exact ih ⟨none, none, none⟩ (fun x h => by cases h) (fun r h => by cases h)
    · rename_i x hxs
      split
      · exact next x hxs
      · split
        · intro r h; cases h; exact main x hxs
        · exact next x hxs

/-- C62: for every operator that is bounded by `L` (in particular a continuous linear one with `L = ‖T‖`), every
starting array, tolerance, number of iterations and `extra_factor ≥ 0`, the reported spectral radius is at most
`L * extra_factor`. -/
theorem C62_never_overestimates (op : E → E) (L : ℝ) (hop : ∀ x, ‖op x‖ ≤ L * ‖x‖) (x0 : E) (tol : ℝ)
    (maxIter : ℕ) (extra : ℝ) (he : 0 ≤ extra) (r inv : ℝ)
    (h : specRad op x0 tol maxIter extra = .ok (some (r, inv))) : r ≤ L * extra ∧ inv = 1 / r := by
  simp only [specRad] at h
  split at h
  · cases h
  · have h := Except.ok.inj h
    rw [Option.map_eq_some_iff] at h
    obtain ⟨q, hq, e⟩ := h
    cases e
    refine ⟨mul_le_mul_of_nonneg_right ?_ he, rfl⟩
    refine powLoop_bound op L hop tol maxIter _ ?_ ?_ q hq
    · intro x hx
      simp only at hx
      split at hx
      · cases hx
      · rename_i h0; cases hx; exact unit_norm _ h0
    · intro r hr; cases hr

/-- C62: the operator norm of a continuous linear operator. -/
theorem C62_operator_norm (T : E →L[ℝ] E) (x0 : E) (tol : ℝ) (maxIter : ℕ) (r inv : ℝ)
    (h : specRad T x0 tol maxIter 1 = .ok (some (r, inv))) : r ≤ ‖T‖ := by
  simpa using (C62_never_overestimates T ‖T‖ T.le_opNorm x0 tol maxIter 1 zero_le_one r inv h).1

/-- C62: `max_iter = 0` raises `UnboundLocalError`; any other number of iterations returns. -/
theorem C62_returns (op : E → E) (x0 : E) (tol : ℝ) (maxIter : ℕ) (extra : ℝ) :
    (∃ o, specRad op x0 tol maxIter extra = .ok o) ↔ maxIter ≠ 0 := by
  simp only [specRad]
  split
  · rename_i h; simp [h]
  · rename_i h; exact ⟨fun _ => h, fun _ => ⟨_, rfl⟩⟩

/-- C83, refuted: the `rng` argument has no effect: two different seeds, or a seed and none, always give the same
initial array, and with one seed the array still follows the environment's entropy. -/
theorem C83_seed_ignored (g : Rng E) (r r' : Option ℕ) (e : ℕ) : initialX g r e = initialX g r' e ∧
    initialX g r e = g.fresh e := ⟨rfl, rfl⟩

end

/-! ## Without early stopping -/

section
variable {E : Type} [NormedAddCommGroup E] [InnerProductSpace ℝ E]

theorem powLoop_closed (T : E →ₗ[ℝ] E) (x0 : E) (hne : ∀ k, (T ^ k) x0 ≠ 0) (tol : ℝ) (ht : tol ≤ 0)
    (n k : ℕ) (o : ℝ) (r : Option ℝ) :
    (powLoop T tol (n + 1) ⟨some (‖(T ^ k) x0‖⁻¹ • (T ^ k) x0), some o, r⟩).newNorm =
      some (‖(T ^ (k + n + 1)) x0‖ / ‖(T ^ (k + n)) x0‖) := by
  have hstep : ∀ k, T (‖(T ^ k) x0‖⁻¹ • (T ^ k) x0) = ‖(T ^ k) x0‖⁻¹ • (T ^ (k + 1)) x0 := by
    intro k; rw [map_smul, pow_succ', Module.End.mul_apply]
  have hnorm : ∀ k, ‖T (‖(T ^ k) x0‖⁻¹ • (T ^ k) x0)‖ = ‖(T ^ (k + 1)) x0‖ / ‖(T ^ k) x0‖ := by
    intro k; rw [hstep, norm_smul, norm_inv, norm_norm]; ring
  have hpos : ∀ k, 0 < ‖(T ^ k) x0‖ := fun k => norm_pos_iff.2 (hne k)
  induction n generalizing k o r with
  | zero =>
    have h0 : ¬ |‖T (‖(T ^ k) x0‖⁻¹ • (T ^ k) x0)‖ - o| < tol := by
      push Not; exact ht.trans (abs_nonneg _)
    simp only [powLoop, h0, if_false, add_zero]
    rw [hnorm]
  | succ n ih =>
    have h0 : ¬ |‖T (‖(T ^ k) x0‖⁻¹ • (T ^ k) x0)‖ - o| < tol := by
      push Not; exact ht.trans (abs_nonneg _)
    rw [powLoop]
    simp only [h0, if_false]
    have hz : ‖T (‖(T ^ k) x0‖⁻¹ • (T ^ k) x0)‖ ≠ 0 := by
      rw [hnorm]; exact (div_pos (hpos _) (hpos _)).ne'
    have e : ‖T (‖(T ^ k) x0‖⁻¹ • (T ^ k) x0)‖⁻¹ • T (‖(T ^ k) x0‖⁻¹ • (T ^ k) x0) =
        ‖(T ^ (k + 1)) x0‖⁻¹ • (T ^ (k + 1)) x0 := by
      rw [hnorm, hstep, smul_smul]
      congr 1
      field_simp [(hpos k).ne', (hpos (k + 1)).ne']
    simp only [hz, if_false, e]
    rw [ih (k + 1)]
    congr 3 <;> ring_nf

/-- C62: without early stopping (`tolerance ≤ 0`) and as long as no iterate vanishes, the estimate after `n + 1`
iterations is `‖Tⁿ⁺¹x₀‖ / ‖Tⁿx₀‖`. -/
theorem C62_estimate (T : E →ₗ[ℝ] E) (x0 : E) (hne : ∀ k, (T ^ k) x0 ≠ 0) (tol : ℝ) (ht : tol ≤ 0) (n : ℕ) :
    ∃ inv, specRad T x0 tol (n + 1) 1 = .ok (some (‖(T ^ (n + 1)) x0‖ / ‖(T ^ n) x0‖, inv)) := by
  have h0 : ‖x0‖ ≠ 0 := by simpa using hne 0
  have := powLoop_closed T x0 hne tol ht n 0 ‖x0‖ none
  simp only [pow_zero, Module.End.one_apply, zero_add] at this
  refine ⟨1 / (‖(T ^ (n + 1)) x0‖ / ‖(T ^ n) x0‖), ?_⟩
  simp only [specRad, Nat.succ_ne_zero, if_false, h0, this, Option.map_some, mul_one]

/-- C62: for a symmetric operator the estimates never decrease with the number of iterations. -/
theorem C62_estimates_monotone (T : E →ₗ[ℝ] E) (hT : T.IsSymmetric) (x0 : E) (hne : ∀ k, (T ^ k) x0 ≠ 0) :
    Monotone fun n => ‖(T ^ (n + 1)) x0‖ / ‖(T ^ n) x0‖ := by
  apply monotone_nat_of_le_succ
  intro n
  have hpos : ∀ k, 0 < ‖(T ^ k) x0‖ := fun k => norm_pos_iff.2 (hne k)
  rw [div_le_div_iff₀ (hpos _) (hpos _)]
  have e : ‖(T ^ (n + 1)) x0‖ ^ 2 = inner ℝ ((T ^ n) x0) ((T ^ (n + 1 + 1)) x0) := by
    rw [← real_inner_self_eq_norm_sq, pow_succ' T n, pow_succ' T (n + 1)]
    simp only [Module.End.mul_apply]
    rw [hT]
    rw [pow_succ' T n, Module.End.mul_apply]
  calc ‖(T ^ (n + 1)) x0‖ * ‖(T ^ (n + 1)) x0‖ = ‖(T ^ (n + 1)) x0‖ ^ 2 := (sq _).symm
    _ = inner ℝ ((T ^ n) x0) ((T ^ (n + 1 + 1)) x0) := e
    _ ≤ ‖(T ^ n) x0‖ * ‖(T ^ (n + 1 + 1)) x0‖ := real_inner_le_norm _ _
    _ = _ := mul_comm _ _

/-- C62: for a symmetric operator whose norm is attained at an eigenvector `v` (always so in finite dimensions),
and any starting array that is not orthogonal to `v`, the estimates converge to the spectral norm. -/
theorem C62_estimates_converge (T : E →ₗ[ℝ] E) (hT : T.IsSymmetric) (lam : ℝ) (v : E) (hv : T v = lam • v)
    (hl : lam ≠ 0) (hmax : ∀ x, ‖T x‖ ≤ |lam| * ‖x‖) (x0 : E) (hx : inner ℝ x0 v ≠ 0) :
    (∀ k, (T ^ k) x0 ≠ 0) ∧
    Filter.Tendsto (fun n => ‖(T ^ (n + 1)) x0‖ / ‖(T ^ n) x0‖) Filter.atTop (nhds |lam|) := by
  have hin : ∀ k, inner ℝ ((T ^ k) x0) v = lam ^ k * inner ℝ x0 v := by
    intro k
    induction k with
    | zero => simp
    | succ k ih =>
      rw [pow_succ', Module.End.mul_apply, hT, hv, real_inner_smul_right, ih]; ring
  have hne : ∀ k, (T ^ k) x0 ≠ 0 := by
    intro k h
    have := hin k
    rw [h, inner_zero_left] at this
    exact (mul_ne_zero (pow_ne_zero k hl) hx) this.symm
  refine ⟨hne, ?_⟩
  have hpos : ∀ k, 0 < ‖(T ^ k) x0‖ := fun k => norm_pos_iff.2 (hne k)
  have mono := C62_estimates_monotone T hT x0 hne
  apply tendsto_atTop_isLUB mono
  constructor
  · rintro _ ⟨n, rfl⟩
    simp only
    rw [div_le_iff₀ (hpos n), pow_succ', Module.End.mul_apply]
    exact hmax _
  · intro b hb
    by_contra hlt
    push Not at hlt
    have hb' : ∀ n, ‖(T ^ (n + 1)) x0‖ ≤ b * ‖(T ^ n) x0‖ := by
      intro n
      have := hb ⟨n, rfl⟩
      simp only at this
      rwa [div_le_iff₀ (hpos n)] at this
    have hb0 : 0 < b := by
      have h1 := hb' 0
      have h2 := hpos 1
      have h3 := hpos 0
      simp only [zero_add] at h1
      by_contra hneg
      push Not at hneg
      have := mul_nonpos_of_nonpos_of_nonneg hneg h3.le
      linarith
    have hpow : ∀ n, ‖(T ^ n) x0‖ ≤ b ^ n * ‖x0‖ := by
      intro n
      induction n with
      | zero => simp
      | succ n ih =>
        calc ‖(T ^ (n + 1)) x0‖ ≤ b * ‖(T ^ n) x0‖ := hb' n
          _ ≤ b * (b ^ n * ‖x0‖) := mul_le_mul_of_nonneg_left ih hb0.le
          _ = _ := by ring
    have hlow : ∀ n, |lam| ^ n * |inner ℝ x0 v| ≤ b ^ n * (‖x0‖ * ‖v‖) := by
      intro n
      have h1 := abs_real_inner_le_norm ((T ^ n) x0) v
      rw [hin n, abs_mul, abs_pow] at h1
      calc _ ≤ ‖(T ^ n) x0‖ * ‖v‖ := h1
        _ ≤ (b ^ n * ‖x0‖) * ‖v‖ := mul_le_mul_of_nonneg_right (hpow n) (norm_nonneg _)
        _ = _ := by ring
    -- (|lam| / b)^n is unbounded
    have hq : 1 < |lam| / b := (one_lt_div hb0).2 hlt
    have hc : 0 < |inner ℝ x0 v| := abs_pos.2 hx
    obtain ⟨n, hn⟩ := pow_unbounded_of_one_lt (‖x0‖ * ‖v‖ / |inner ℝ x0 v|) hq
    rw [div_lt_iff₀ hc, div_pow, div_mul_eq_mul_div, lt_div_iff₀ (pow_pos hb0 n)] at hn
    have := hlow n
    linarith

end

/-! ## Early stopping -/

/-- C82, refuted: the test for early stopping compares the first estimate with the norm of the *unnormalised* random
array, so it can stop after one iteration far from convergence, at any positive tolerance: for the linear operator
`z ↦ (5/3) Re z` on the plane (spectral norm `5/3`) and the starting array `(3/5, 4/5)` the reported radius is 1. -/
theorem C82_spurious_stop (tol : ℝ) (ht : 0 < tol) (n : ℕ) :
    let op : ℂ → ℂ := fun z => ((5 / 3 * z.re : ℝ) : ℂ)
    specRad op ⟨3 / 5, 4 / 5⟩ tol (n + 1) 1 = .ok (some (1, 1)) ∧
    (∀ z, ‖op z‖ ≤ 5 / 3 * ‖z‖) ∧ ‖op 1‖ = 5 / 3 * ‖(1 : ℂ)‖ := by
  have hn : ‖(⟨3 / 5, 4 / 5⟩ : ℂ)‖ = 1 := by
    rw [Complex.norm_def, Complex.normSq_mk]
    norm_num
  refine ⟨?_, fun z => ?_, by norm_num⟩
  · simp only [specRad, Nat.succ_ne_zero, if_false, hn, one_ne_zero, inv_one, one_smul, powLoop]
    have h1 : ‖((5 / 3 * (3 / 5) : ℝ) : ℂ)‖ = 1 := by norm_num
    rw [h1]
    simp [ht]
  · simp only
    rw [Complex.norm_real, norm_mul]
    have := Complex.abs_re_le_norm z
    have h2 : ‖(5 / 3 : ℝ)‖ = 5 / 3 := by norm_num
    rw [h2, Real.norm_eq_abs]
    linarith

section
variable {E : Type} [NormedAddCommGroup E] [NormedSpace ℝ E]

open Classical in
/-- One pass of the loop that does not stop. -/
noncomputable def powPass (op : E → E) (s : PowSt E) : PowSt E :=
  match s.xOld with
  | none => ⟨none, none, none⟩
  | some x => ⟨if ‖op x‖ = 0 then none else some (‖op x‖⁻¹ • op x), some ‖op x‖, some ‖op x‖⟩

theorem powLoop_zero (op : E → E) (n : ℕ) (s : PowSt E) : powLoop op 0 n s = (powPass op)^[n] s := by
  induction n generalizing s with
  | zero => rfl
  | succ n ih =>
    rw [Function.iterate_succ_apply, ← ih, powLoop]
    cases hx : s.xOld with
    | none => simp only [powPass, hx]
    | some x =>
      cases ho : s.oldNorm with
      | none => simp only [powPass, hx]
      | some o =>
        have : ¬ |‖op x‖ - o| < 0 := by push Not; exact abs_nonneg _
        simp only [powPass, hx, this, if_false]

theorem powLoop_stop (op : E → E) (tol : ℝ) (n : ℕ) (s : PowSt E) :
    ∃ k ≤ n, (powLoop op tol n s).newNorm = ((powPass op)^[k] s).newNorm ∧
      (k = n ∨ (1 ≤ k ∧ ∃ r o, ((powPass op)^[k] s).newNorm = some r ∧ ((powPass op)^[k - 1] s).oldNorm = some o ∧
        |r - o| < tol)) := by
  induction n generalizing s with
  | zero => exact ⟨0, le_rfl, rfl, .inl rfl⟩
  | succ n ih =>
    have go : (powLoop op tol (n + 1) s) = powLoop op tol n (powPass op s) →
        ∃ k ≤ n + 1, (powLoop op tol (n + 1) s).newNorm = ((powPass op)^[k] s).newNorm ∧
      (k = n + 1 ∨ (1 ≤ k ∧ ∃ r o, ((powPass op)^[k] s).newNorm = some r ∧ ((powPass op)^[k - 1] s).oldNorm = some o ∧
        |r - o| < tol)) := by
      intro e
      obtain ⟨k, hk, h1, h2⟩ := ih (powPass op s)
      refine ⟨k + 1, by omega, by rw [e, h1]; rfl, ?_⟩
      rcases h2 with h2 | ⟨h2, r, o, h3, h4, h5⟩
      · exact .inl (by omega)
      · refine .inr ⟨by omega, r, o, h3, ?_, h5⟩
        obtain ⟨j, rfl⟩ : ∃ j, k = j + 1 := ⟨k - 1, by omega⟩
        simpa using h4
    cases hx : s.xOld with
    | none => apply go; simp only [powLoop, powPass, hx]
    | some x =>
      cases ho : s.oldNorm with
      | none => apply go; simp only [powLoop, powPass, hx, ho]
      | some o =>
        by_cases h : |‖op x‖ - o| < tol
        · refine ⟨1, by omega, ?_, .inr ⟨le_rfl, ‖op x‖, o, ?_, ?_, h⟩⟩
          · simp only [powLoop, hx, ho, h, if_true, Function.iterate_one, powPass]
          · simp only [Function.iterate_one, powPass, hx]
          · simpa using ho
        · apply go; simp only [powLoop, powPass, hx, ho, h, if_false]

theorem powPass_norms (op : E → E) (k : ℕ) (s : PowSt E) :
    ((powPass op)^[k + 1] s).oldNorm = ((powPass op)^[k + 1] s).newNorm := by
  rw [Function.iterate_succ_apply']
  generalize (powPass op)^[k] s = t
  simp only [powPass]
  cases t.xOld <;> rfl

/-- C82, partial: the result is the estimate of some iteration `k`, and if the loop stopped before `max_iter`, then
either `k ≥ 2` and it differs by less than the tolerance from the estimate of iteration `k - 1`, or `k = 1` and it
differs by less than the tolerance from the norm of the initial array.  (Missing for the full claim: the second
alternative is possible, `C82_spurious_stop`.)  Estimates of iteration `k` are results of a run of `k` iterations with
tolerance 0, which never stops early. -/
theorem C82_stopping_rule_partial (op : E → E) (x0 : E) (tol : ℝ) (N : ℕ) (o : Option (ℝ × ℝ))
    (h : specRad op x0 tol N 1 = .ok o) :
    ∃ k, 1 ≤ k ∧ k ≤ N ∧ specRad op x0 0 k 1 = .ok o ∧
      (k = N ∨ ∃ r inv, o = some (r, inv) ∧
        ((k = 1 ∧ |r - ‖x0‖| < tol) ∨
          (2 ≤ k ∧ ∃ r' inv', specRad op x0 0 (k - 1) 1 = .ok (some (r', inv')) ∧ |r - r'| < tol))) := by
  simp only [specRad] at h
  split at h
  · cases h
  rename_i hN
  have h := Except.ok.inj h
  set s0 : PowSt E := ⟨if ‖x0‖ = 0 then none else some (‖x0‖⁻¹ • x0), some ‖x0‖, none⟩ with hs0
  obtain ⟨k, hk, h1, h2⟩ := powLoop_stop op tol N s0
  have hk1 : 1 ≤ k := by rcases h2 with h2 | h2 <;> omega
  have est : ∀ j, 1 ≤ j → specRad op x0 0 j 1 =
      .ok ((((powPass op)^[j] s0).newNorm).map fun r => (r * 1, 1 / (r * 1))) := by
    intro j hj
    have hj0 : j ≠ 0 := by omega
    simp only [specRad, hj0, if_false, powLoop_zero]
    rfl
  refine ⟨k, hk1, hk, by rw [est k hk1, ← h1, h], ?_⟩
  rcases h2 with h2 | ⟨_, r, o', h3, h4, h5⟩
  · exact .inl h2
  · right
    refine ⟨r, 1 / r, ?_, ?_⟩
    · rw [← h, h1, h3]; simp
    · by_cases hk2 : k = 1
      · subst hk2
        left
        refine ⟨rfl, ?_⟩
        have : o' = ‖x0‖ := by simpa [hs0] using h4.symm
        rwa [this] at h5
      · right
        obtain ⟨j, rfl⟩ : ∃ j, k = j + 2 := ⟨k - 2, by omega⟩
        refine ⟨by omega, o', 1 / o', ?_, h5⟩
        rw [est _ (by omega)]
        rw [show j + 2 - 1 = j + 1 from rfl, powPass_norms] at h4
        rw [show j + 2 - 1 = j + 1 from rfl, h4]
        simp

end

/-- Non-vacuity: a symmetric operator, its dominant eigenvector and a starting array. -/
example : ∃ (T : ℝ →ₗ[ℝ] ℝ), T.IsSymmetric ∧ T 1 = (3 : ℝ) • 1 ∧ (∀ x, ‖T x‖ ≤ |(3 : ℝ)| * ‖x‖) ∧
    inner ℝ (2 : ℝ) (1 : ℝ) ≠ 0 := by
  refine ⟨(3 : ℝ) • LinearMap.id, fun x y => ?_, by simp, fun x => ?_, by simp⟩
  · simp; ring
  · simp
example : ∃ r inv, specRad (fun x : ℝ => 3 * x) 2 0 1 1 = .ok (some (r, inv)) := by
  refine ⟨3, 1 / 3, ?_⟩
  norm_num [specRad, powLoop]

end Verif
