import Verif.Model.Fista
import Mathlib.Tactic.Linarith
import Mathlib.Tactic.Positivity
import Mathlib.Tactic.FieldSimp
import Mathlib.Tactic.Ring

/-!
# C36–C40: the FISTA parameter sequences
-/

set_option linter.unusedSectionVars false

namespace Verif
open Fista

/-! ## C36 -/

/-- The documented conditions: `a_cd` is absent or greater than 2; a restart strategy is one of the
documented names, used in regular mode, with `xi_restart < 1` and, for greedy, with `min_beta` and
`s_greedy > 1`. -/
def DocumentedFista (strategy : Option String) (minBeta s xi aCd : Option ℝ) : Prop :=
  (∀ a, aCd = some a → 2 < a) ∧
  ∀ name, strategy = some name →
    name ∈ ["adaptive", "adaptive-i", "adaptive-1", "adaptive-ii", "adaptive-2", "greedy"] ∧
    aCd = none ∧ (∃ ξ, xi = some ξ ∧ ξ < 1) ∧
    (name = "greedy" → minBeta ≠ none ∧ ∃ v, s = some v ∧ 1 < v)

theorem checkRestart_ok (name : String) (minBeta s xi : Option ℝ) :
    (∃ r, checkRestart true name minBeta s xi = .ok r) ↔
      (∃ ξ, xi = some ξ ∧ ξ < 1) ∧ (name = "greedy" → minBeta ≠ none ∧ ∃ v, s = some v ∧ 1 < v) := by
  unfold checkRestart
  simp only [Bool.true_eq_false, if_false]
  by_cases hg : name = "greedy"
  · cases minBeta <;> cases s <;> cases xi <;> simp [hg]
    rename_i mb s xi
    by_cases h1 : s ≤ 1
    · simp [h1, not_lt.2 h1]
    · by_cases h2 : 1 ≤ xi
      · simp [h2, not_lt.2 h2, h1]
      · simp [h1, h2, not_le.1 h1, not_le.1 h2]
  · cases xi <;> simp [hg]
    rename_i xi
    by_cases h2 : 1 ≤ xi
    · simp [h2, not_lt.2 h2]
    · simp [h2, not_le.1 h2]

theorem checkRestart_error (b : Bool) (name : String) (minBeta s xi : Option ℝ) (e : PyErr)
    (h : checkRestart b name minBeta s xi = .error e) : e = .valueError := by
  unfold checkRestart at h
  split_ifs at h
  · exact (Except.error.inj h).symm
  · exact (Except.error.inj h).symm
  · cases xi with
    | none => exact (Except.error.inj h).symm
    | some ξ =>
      simp only at h
      split_ifs at h
      · exact (Except.error.inj h).symm
      · cases minBeta <;> cases s <;> simp at h <;> exact h.symm
  · cases xi with
    | none => exact (Except.error.inj h).symm
    | some ξ =>
      simp only at h
      split_ifs at h
      exact (Except.error.inj h).symm

/-- C36: construction succeeds exactly under the documented conditions. -/
theorem C36_accepts_iff (strategy : Option String) (minBeta s xi aCd : Option ℝ) (p q r : ℝ) :
    (∃ f, init strategy minBeta s xi aCd p q r = .ok f) ↔ DocumentedFista strategy minBeta s xi aCd := by
  unfold init DocumentedFista
  cases aCd with
  | none =>
    simp only [initMode, bind, Except.bind]
    cases strategy with
    | none => simp
    | some name =>
      by_cases hn : name ∈ strategies
      · simp only [hn, if_true]
        have := checkRestart_ok name minBeta s xi
        have hn' : name ∈ ["adaptive", "adaptive-i", "adaptive-1", "adaptive-ii", "adaptive-2", "greedy"] := hn
        constructor
        · rintro ⟨f, hf⟩
          refine ⟨by simp, ?_⟩
          rintro _ ⟨⟩
          refine ⟨hn', trivial, this.1 ?_⟩
          cases hc : checkRestart true name minBeta s xi with
          | error e => rw [hc] at hf; cases hf
          | ok r => exact ⟨r, rfl⟩
        · rintro ⟨-, h2⟩
          obtain ⟨-, -, h3⟩ := h2 name rfl
          obtain ⟨r, hr⟩ := this.2 h3
          rw [hr]
          exact ⟨_, rfl⟩
      · simp only [hn, if_false]
        constructor
        · rintro ⟨f, hf⟩; cases hf
        · rintro ⟨-, h2⟩; exact absurd (h2 name rfl).1 hn
  | some a =>
    by_cases ha : a > 2
    · simp only [initMode, ha, if_true, bind, Except.bind]
      cases strategy with
      | none =>
        simp only [Except.ok.injEq, exists_eq', true_iff]
        exact ⟨by rintro _ ⟨⟩; exact ha, by simp⟩
      | some name =>
        by_cases hn : name ∈ strategies
        · simp [hn, checkRestart]
        · simp [hn]
    · simp only [initMode, ha, if_false, bind, Except.bind]
      constructor
      · rintro ⟨f, hf⟩; cases hf
      · rintro ⟨h1, -⟩; exact absurd (h1 a rfl) ha

/-- C36, refuted for unknown strategy names: the exception is a `TypeError`, not the documented
`ValueError`, because building the message fails. -/
theorem C36_unknown_strategy_typeError (name : String) (minBeta s xi aCd : Option ℝ) (p q r : ℝ)
    (hn : name ∉ ["adaptive", "adaptive-i", "adaptive-1", "adaptive-ii", "adaptive-2", "greedy"])
    (ha : ∀ a, aCd = some a → 2 < a) :
    init (some name) minBeta s xi aCd p q r = .error .typeError := by
  have hn' : name ∉ strategies := hn
  unfold init
  cases aCd with
  | none => simp [initMode, bind, Except.bind, hn']
  | some a => simp [initMode, bind, Except.bind, hn', ha a rfl]

/-- C36: every other rejected combination raises `ValueError`.  (Missing for the full claim: unknown
strategy names, see `C36_unknown_strategy_typeError`.) -/
theorem C36_valueError_partial (strategy : Option String) (minBeta s xi aCd : Option ℝ) (p q r : ℝ)
    (hd : ¬ DocumentedFista strategy minBeta s xi aCd)
    (hs : ∀ name, strategy = some name →
      name ∈ ["adaptive", "adaptive-i", "adaptive-1", "adaptive-ii", "adaptive-2", "greedy"]) :
    init strategy minBeta s xi aCd p q r = .error .valueError := by
  have h0 := mt (C36_accepts_iff strategy minBeta s xi aCd p q r).1 hd
  cases hi : init strategy minBeta s xi aCd p q r with
  | ok f => exact absurd ⟨f, hi⟩ h0
  | error e =>
    unfold init at hi
    cases hm : initMode aCd p q r with
    | error e' =>
      rw [hm] at hi
      have : e' = e := Except.error.inj hi
      cases aCd with
      | none => cases hm
      | some a =>
        simp only [initMode] at hm
        split_ifs at hm
        rw [← this, ← Except.error.inj hm]
    | ok m =>
      rw [hm] at hi
      simp only [bind, Except.bind] at hi
      cases strategy with
      | none => cases hi
      | some name =>
        have hn : name ∈ strategies := hs name rfl
        simp only [hn, if_true] at hi
        split at hi
        · rename_i e' heq
          have := checkRestart_error _ _ _ _ _ _ heq
          rw [← Except.error.inj hi, this]
        · cases hi

/-- C36: a new object starts with `t = 1`, no safeguard, and the given mode parameters. -/
theorem C36_initial_state (strategy : Option String) (minBeta s xi aCd : Option ℝ) (p q r : ℝ) (f : Obj)
    (h : init strategy minBeta s xi aCd p q r = .ok f) :
    f.tNow = 1 ∧ f.tPrev = 1 ∧ f.safeguard = false ∧ f.delta0 = none ∧
      (aCd = none → f.mode = .regular p q r) ∧ (∀ a, aCd = some a → f.mode = .cd a 0) ∧
      (strategy = none → f.restart = .none) := by
  unfold init at h
  cases hm : initMode aCd p q r with
  | error e => rw [hm] at h; cases h
  | ok m =>
    rw [hm] at h
    simp only [bind, Except.bind] at h
    split at h
    · cases h
    · rename_i v heq
      rw [← Except.ok.inj h]
      refine ⟨rfl, rfl, rfl, rfl, ?_, ?_, ?_⟩
      · rintro rfl; simp [initMode] at hm; exact hm.symm
      · rintro a rfl
        simp only [initMode] at hm
        split_ifs at hm
        exact (Except.ok.inj hm).symm
      · rintro rfl
        simp at heq; exact heq.symm

/-- The documented conditions are met by the defaults, by a greedy and by a Chambolle-Dossal set-up. -/
example : DocumentedFista none none none none none := ⟨by simp, by simp⟩
example : DocumentedFista (some "greedy") (some 0.1) (some 1.1) (some 0.96) none :=
  ⟨by simp, by rintro _ ⟨⟩; refine ⟨by simp, rfl, ⟨_, rfl, by norm_num⟩, fun _ => ⟨by simp, _, rfl, by norm_num⟩⟩⟩
example : DocumentedFista none none none none (some 3) := ⟨by rintro _ ⟨⟩; norm_num, by simp⟩
/-- A restart in Chambolle-Dossal mode is refused with `ValueError`. -/
example : init (some "adaptive") none none (some 0.9) (some 3) 1 1 4 = .error .valueError :=
  C36_valueError_partial _ _ _ _ _ _ _ _ (by rintro ⟨-, h⟩; exact absurd (h _ rfl).2.1 (by simp))
    (by rintro _ ⟨⟩; simp)

/-! ## C37 -/

/-- The object after `n` calls of `update_lambda`. -/
noncomputable def after (f : Obj) : ℕ → Obj
  | 0 => f
  | n + 1 => (updateLambda (after f n)).2

/-- The value `t` after `n` calls of `update_lambda`. -/
noncomputable def tSeq (f : Obj) (n : ℕ) : ℝ := (after f n).tNow

/-- The relaxation returned by call number `n` (from 0). -/
noncomputable def lambdaSeq (f : Obj) (n : ℕ) : ℝ := (updateLambda (after f n)).1

/-- A fresh object in regular mode without restarts. -/
noncomputable def regularObj (p q r : ℝ) : Obj := ⟨.regular p q r, .none, 1, 1, none, false⟩

/-- A fresh object in Chambolle-Dossal mode. -/
noncomputable def cdObj (a : ℝ) : Obj := ⟨.cd a 0, .none, 1, 1, none, false⟩

/-- C37: these are the objects the constructor builds. -/
theorem C37_constructed (p q r a : ℝ) (ha : 2 < a) :
    init none none none none none p q r = .ok (regularObj p q r) ∧
    init none none none none (some a) p q r = .ok (cdObj a) := by
  constructor
  · rfl
  · simp [init, initMode, ha, bind, Except.bind, cdObj]

theorem after_regular (p q r : ℝ) (n : ℕ) :
    (after (regularObj p q r) n).mode = .regular p q r ∧ (after (regularObj p q r) n).restart = .none := by
  induction n with
  | zero => exact ⟨rfl, rfl⟩
  | succ n ih =>
    obtain ⟨h1, h2⟩ := ih
    simp [after, updateLambda, h1, h2]

theorem tSeq_succ (p q r : ℝ) (n : ℕ) :
    tSeq (regularObj p q r) (n + 1) = p + Real.sqrt (r * tSeq (regularObj p q r) n ^ 2 + q) * 0.5 := by
  obtain ⟨h1, h2⟩ := after_regular p q r n
  simp [tSeq, after, updateLambda, h1, h2]

theorem lambdaSeq_regular (p q r : ℝ) (n : ℕ) :
    lambdaSeq (regularObj p q r) n
      = 1 + (tSeq (regularObj p q r) n - 1) / tSeq (regularObj p q r) (n + 1) := by
  obtain ⟨h1, h2⟩ := after_regular p q r n
  rw [tSeq_succ]
  simp [lambdaSeq, tSeq, updateLambda, h1, h2]

theorem tSeq_zero (p q r : ℝ) : tSeq (regularObj p q r) 0 = 1 := rfl

theorem tSeq_ge_one (p q r : ℝ) (hr : 0 ≤ r) (h1 : 1 ≤ p + Real.sqrt (r + q) / 2) (n : ℕ) :
    1 ≤ tSeq (regularObj p q r) n := by
  induction n with
  | zero => exact le_rfl
  | succ n ih =>
    rw [tSeq_succ]
    have h2 : Real.sqrt (r + q) ≤ Real.sqrt (r * tSeq (regularObj p q r) n ^ 2 + q) := by
      apply Real.sqrt_le_sqrt
      have : r * 1 ≤ r * tSeq (regularObj p q r) n ^ 2 := by
        apply mul_le_mul_of_nonneg_left _ hr
        nlinarith
      linarith
    norm_num
    linarith

/-- C37: if `r ≥ 0` and the first step does not go below one, all `tₙ ≥ 1` and all relaxations are at
least one. -/
theorem C37_lambda_ge_one (p q r : ℝ) (hr : 0 ≤ r) (h1 : 1 ≤ p + Real.sqrt (r + q) / 2) (n : ℕ) :
    1 ≤ tSeq (regularObj p q r) n ∧ 1 ≤ lambdaSeq (regularObj p q r) n := by
  refine ⟨tSeq_ge_one p q r hr h1 n, ?_⟩
  rw [lambdaSeq_regular]
  have := tSeq_ge_one p q r hr h1 n
  have h2 := tSeq_ge_one p q r hr h1 (n + 1)
  have : 0 ≤ (tSeq (regularObj p q r) n - 1) / tSeq (regularObj p q r) (n + 1) :=
    div_nonneg (by linarith) (by linarith)
  linarith

theorem tSeq_add_le (p q r : ℝ) (hp : 0 ≤ p) (hq : 0 ≤ q) (hr : 4 ≤ r) (n : ℕ) :
    1 ≤ tSeq (regularObj p q r) n ∧ tSeq (regularObj p q r) n + p ≤ tSeq (regularObj p q r) (n + 1) := by
  have key : ∀ n, 1 ≤ tSeq (regularObj p q r) n →
      tSeq (regularObj p q r) n + p ≤ tSeq (regularObj p q r) (n + 1) := by
    intro n hn
    rw [tSeq_succ]
    have h2 : 2 * tSeq (regularObj p q r) n ≤ Real.sqrt (r * tSeq (regularObj p q r) n ^ 2 + q) := by
      apply Real.le_sqrt_of_sq_le
      nlinarith [sq_nonneg (tSeq (regularObj p q r) n)]
    norm_num
    linarith
  induction n with
  | zero => exact ⟨le_rfl, key 0 le_rfl⟩
  | succ n ih =>
    have : 1 ≤ tSeq (regularObj p q r) (n + 1) := by linarith [ih.1, ih.2]
    exact ⟨this, key _ this⟩

/-- C37: with `p > 0` and `r ≥ 4`, in particular with the defaults, `tₙ ≥ 1 + n p`: the sequence is
strictly increasing and unbounded, and every relaxation lies in `[1, 2)`. -/
theorem C37_unbounded (p q r : ℝ) (hp : 0 < p) (hq : 0 ≤ q) (hr : 4 ≤ r) (n : ℕ) :
    1 + n * p ≤ tSeq (regularObj p q r) n ∧
    tSeq (regularObj p q r) n < tSeq (regularObj p q r) (n + 1) ∧
    1 ≤ lambdaSeq (regularObj p q r) n ∧ lambdaSeq (regularObj p q r) n < 2 := by
  obtain ⟨h1, h2⟩ := tSeq_add_le p q r hp.le hq hr n
  refine ⟨?_, by linarith, ?_, ?_⟩
  · clear h1 h2
    induction n with
    | zero => simp [tSeq_zero]
    | succ n ih =>
      have := (tSeq_add_le p q r hp.le hq hr n).2
      push_cast
      linarith
  · rw [lambdaSeq_regular]
    have : 0 ≤ (tSeq (regularObj p q r) n - 1) / tSeq (regularObj p q r) (n + 1) :=
      div_nonneg (by linarith) (by linarith)
    linarith
  · rw [lambdaSeq_regular]
    have : (tSeq (regularObj p q r) n - 1) / tSeq (regularObj p q r) (n + 1) < 1 := by
      rw [div_lt_one (by linarith)]
      linarith
    linarith

/-- The default parameters meet the hypotheses of both theorems. -/
example (n : ℕ) : 1 + n * 1 ≤ tSeq (regularObj 1 1 4) n :=
  (C37_unbounded 1 1 4 one_pos zero_le_one le_rfl n).1
example (n : ℕ) : 1 ≤ lambdaSeq (regularObj 1 1 4) n :=
  (C37_lambda_ge_one 1 1 4 (by norm_num) (le_add_of_nonneg_right (by positivity)) n).2

/-- C37: the bound `r ≥ 4` matters: for `0 ≤ r < 4` the sequence stays bounded by any fixed upper
barrier `T` with `p + √(r T² + q)/2 ≤ T`. -/
theorem C37_bounded_below_four (p q r T : ℝ) (hr : 0 ≤ r) (hp : 0 ≤ p) (hT1 : 1 ≤ T)
    (hT : p + Real.sqrt (r * T ^ 2 + q) / 2 ≤ T) (n : ℕ) :
    0 ≤ tSeq (regularObj p q r) n ∧ tSeq (regularObj p q r) n ≤ T := by
  induction n with
  | zero => exact ⟨zero_le_one, hT1⟩
  | succ n ih =>
    rw [tSeq_succ]
    have h2 : Real.sqrt (r * tSeq (regularObj p q r) n ^ 2 + q) ≤ Real.sqrt (r * T ^ 2 + q) := by
      apply Real.sqrt_le_sqrt
      have : tSeq (regularObj p q r) n ^ 2 ≤ T ^ 2 := by nlinarith [ih.1, ih.2]
      nlinarith
    have h3 := Real.sqrt_nonneg (r * tSeq (regularObj p q r) n ^ 2 + q)
    norm_num
    constructor <;> linarith

/-- A barrier exists for `r = 2`, `p = q = 1`: `T = 8`. -/
example : (1 : ℝ) + Real.sqrt (2 * 8 ^ 2 + 1) / 2 ≤ 8 := by
  have : Real.sqrt (2 * 8 ^ 2 + 1) ≤ 14 := by rw [Real.sqrt_le_left (by norm_num)]; norm_num
  generalize Real.sqrt (2 * 8 ^ 2 + 1) = w at *
  linarith

/-! ## C38 -/

/-- The deviation from the acceleration inequality, in closed form. -/
theorem tSeq_gap (p q r : ℝ) (hr : 0 ≤ r) (hq : 0 ≤ q) (n : ℕ) :
    tSeq (regularObj p q r) (n + 1) ^ 2 - tSeq (regularObj p q r) (n + 1) - tSeq (regularObj p q r) n ^ 2
      = (2 * p - 1) * tSeq (regularObj p q r) (n + 1) - p ^ 2
        + ((r - 4) * tSeq (regularObj p q r) n ^ 2 + q) / 4 := by
  have h0 : 0 ≤ r * tSeq (regularObj p q r) n ^ 2 + q := by positivity
  have h1 := Real.sq_sqrt h0
  have h2 := tSeq_succ p q r n
  set t := tSeq (regularObj p q r) n
  set t' := tSeq (regularObj p q r) (n + 1)
  set w := Real.sqrt (r * t ^ 2 + q)
  have h3 : w = 2 * (t' - p) := by rw [h2]; norm_num; ring
  have h4 : 4 * (t' - p) ^ 2 = r * t ^ 2 + q := by rw [← h1, h3]; ring
  linarith [h4]

/-- C38, refuted for the default parameters: `t² - t ≤ t_prev²` fails at every single step. -/
theorem C38_default_violated (n : ℕ) :
    tSeq (regularObj 1 1 4) n ^ 2 < tSeq (regularObj 1 1 4) (n + 1) ^ 2 - tSeq (regularObj 1 1 4) (n + 1) := by
  have h := tSeq_gap 1 1 4 (by norm_num) (by norm_num) n
  have h2 := (C37_unbounded 1 1 4 one_pos zero_le_one le_rfl (n + 1)).1
  have h3 : (0 : ℝ) ≤ n := Nat.cast_nonneg n
  push_cast at h2
  norm_num at h
  linarith

/-- C38, refuted for every `p` in the documented range above one half (with `r = 4`): the inequality fails
at every step from some step on. -/
theorem C38_documented_range_violated (p q : ℝ) (hp : 1 / 2 < p) (hq : 0 ≤ q) :
    ∃ N, ∀ n ≥ N, tSeq (regularObj p q 4) n ^ 2
      < tSeq (regularObj p q 4) (n + 1) ^ 2 - tSeq (regularObj p q 4) (n + 1) := by
  obtain ⟨N, hN⟩ := exists_nat_gt (p / (2 * p - 1))
  refine ⟨N, fun n hn => ?_⟩
  have h := tSeq_gap p q 4 (by norm_num) hq n
  have h2 := (C37_unbounded p q 4 (by linarith) hq le_rfl (n + 1)).1
  have h3 : (N : ℝ) ≤ n := by exact_mod_cast hn
  have h5 : (0 : ℝ) < 2 * p - 1 := by linarith
  have h6 : p < (2 * p - 1) * n := by
    have := (div_lt_iff₀ h5).1 (hN.trans_le h3)
    linarith
  push_cast at h2
  have h7 : p * p < (2 * p - 1) * tSeq (regularObj p q 4) (n + 1) := by
    have : (2 * p - 1) * (1 + (n + 1) * p) ≤ (2 * p - 1) * tSeq (regularObj p q 4) (n + 1) :=
      mul_le_mul_of_nonneg_left h2 h5.le
    have h8 : p * p < (2 * p - 1) * n * p := mul_lt_mul_of_pos_right h6 (by linarith)
    nlinarith
  have : (0 : ℝ) ≤ ((4 - 4) * tSeq (regularObj p q 4) n ^ 2 + q) / 4 := by
    have : (0 : ℝ) ≤ q / 4 := by positivity
    simpa using this
  nlinarith

/-- C38: the inequality holds at every step for `2p ∈ [0,1]`, `q ∈ [0,(2-2p)²]`, `r ∈ [0,4]` (the
documented ranges applied to `2p` instead of `p`), as long as `t` does not drop below one.  (Missing for
the full claim: the rest of the documented range, where it is false.) -/
theorem C38_acceleration_partial (p q r : ℝ) (hp : p ≤ 1 / 2) (hq : 0 ≤ q)
    (hq' : q ≤ (2 - 2 * p) ^ 2) (hr : 0 ≤ r) (hr' : r ≤ 4) (h1 : 1 ≤ p + Real.sqrt (r + q) / 2) (n : ℕ) :
    tSeq (regularObj p q r) (n + 1) ^ 2 - tSeq (regularObj p q r) (n + 1) ≤ tSeq (regularObj p q r) n ^ 2 := by
  have h := tSeq_gap p q r hr hq n
  have h2 := tSeq_ge_one p q r hr h1 (n + 1)
  have h3 : (r - 4) * tSeq (regularObj p q r) n ^ 2 ≤ 0 :=
    mul_nonpos_of_nonpos_of_nonneg (by linarith) (sq_nonneg _)
  nlinarith

/-- The classical FISTA parameters of Beck and Teboulle are `p = 1/2`, `q = 1`, `r = 4` in this code. -/
example (n : ℕ) : tSeq (regularObj (1 / 2) 1 4) (n + 1) ^ 2 - tSeq (regularObj (1 / 2) 1 4) (n + 1)
    ≤ tSeq (regularObj (1 / 2) 1 4) n ^ 2 :=
  C38_acceleration_partial _ _ _ le_rfl (by norm_num) (by norm_num) (by norm_num) le_rfl
    (by
      have : (1 : ℝ) ≤ Real.sqrt (4 + 1) := Real.one_le_sqrt.2 (by norm_num)
      generalize Real.sqrt (4 + 1) = w at *
      linarith) n

/-! ## C39 -/

theorem after_cd (a : ℝ) (n : ℕ) :
    (after (cdObj a) n).mode = .cd a n ∧ (after (cdObj a) n).restart = .none := by
  induction n with
  | zero => exact ⟨rfl, rfl⟩
  | succ n ih =>
    obtain ⟨h1, h2⟩ := ih
    simp [after, updateLambda, h1, h2]

/-- C39: closed form of the Chambolle-Dossal sequence: call `n` (from 0) sets `t` to `(n + a - 1)/a` and
returns `1 + (t_{prev} - 1)/t`. -/
theorem C39_closed_form (a : ℝ) (n : ℕ) :
    tSeq (cdObj a) (n + 1) = (n + a - 1) / a ∧
    lambdaSeq (cdObj a) n = 1 + (tSeq (cdObj a) n - 1) / tSeq (cdObj a) (n + 1) := by
  obtain ⟨h1, h2⟩ := after_cd a n
  simp [tSeq, lambdaSeq, after, updateLambda, h1, h2]

/-- C39: the relaxations in closed form: 1, `1 - 1/a`, and from then on `1 + (n-2)/(n+a-1)`. -/
theorem C39_lambda_closed_form (a : ℝ) (ha : 2 < a) (n : ℕ) :
    lambdaSeq (cdObj a) 0 = 1 ∧ lambdaSeq (cdObj a) (n + 1) = 1 + (n - 1) / (n + a) := by
  constructor
  · rw [(C39_closed_form a 0).2]
    simp [tSeq, after, cdObj]
  · rw [(C39_closed_form a (n + 1)).2, (C39_closed_form a (n + 1)).1, (C39_closed_form a n).1]
    have h1 : a ≠ 0 := by linarith
    have h3 : (0 : ℝ) ≤ n := Nat.cast_nonneg n
    have h2 : (n : ℝ) + a ≠ 0 := by linarith
    push_cast
    have h4 : (n : ℝ) + 1 + a - 1 = n + a := by ring
    rw [h4]
    field_simp
    ring

/-- C39: the sequence lags behind the published one (`t₁ = 1`, relaxations at least 1): the first value of
`t` is `1 - 1/a < 1`, and the second relaxation is `1 - 1/a`, below one: the momentum is reversed once. -/
theorem C39_second_relaxation_below_one (a : ℝ) (ha : 2 < a) :
    tSeq (cdObj a) 1 = 1 - 1 / a ∧ tSeq (cdObj a) 1 < 1 ∧
    lambdaSeq (cdObj a) 1 = 1 - 1 / a ∧ lambdaSeq (cdObj a) 1 < 1 := by
  have h1 : a ≠ 0 := by linarith
  have hpos : 0 < 1 / a := by have : 0 < a := by linarith
                              positivity
  have e1 : tSeq (cdObj a) 1 = 1 - 1 / a := by
    rw [(C39_closed_form a 0).1]; field_simp; push_cast; ring
  have e2 : lambdaSeq (cdObj a) 1 = 1 - 1 / a := by
    rw [(C39_lambda_closed_form a ha 0).2]; simp; field_simp
    ring
  exact ⟨e1, by rw [e1]; linarith, e2, by rw [e2]; linarith⟩

/-- C39: all later relaxations lie in `[1, 2)` and increase towards 2. -/
theorem C39_later_relaxations (a : ℝ) (ha : 2 < a) (n : ℕ) :
    1 ≤ lambdaSeq (cdObj a) (n + 2) ∧ lambdaSeq (cdObj a) (n + 2) < 2 ∧
    lambdaSeq (cdObj a) (n + 2) < lambdaSeq (cdObj a) (n + 3) := by
  rw [(C39_lambda_closed_form a ha (n + 1)).2, (C39_lambda_closed_form a ha (n + 2)).2]
  have h3 : (0 : ℝ) ≤ n := Nat.cast_nonneg n
  push_cast
  have hd : (0 : ℝ) < n + 1 + a := by linarith
  have hd2 : (0 : ℝ) < n + 2 + a := by linarith
  refine ⟨?_, ?_, ?_⟩
  · have : (0 : ℝ) ≤ (n + 1 - 1) / (n + 1 + a) := div_nonneg (by linarith) hd.le
    linarith
  · have : ((n : ℝ) + 1 - 1) / (n + 1 + a) < 1 := by rw [div_lt_one hd]; linarith
    linarith
  · have : ((n : ℝ) + 1 - 1) / (n + 1 + a) < (n + 2 - 1) / (n + 2 + a) := by
      rw [div_lt_div_iff₀ hd hd2]; nlinarith
    linarith

/-- C38 in Chambolle-Dossal mode: the acceleration inequality holds at every step, for every `a > 2`. -/
theorem C38_acceleration_cd (a : ℝ) (ha : 2 < a) (n : ℕ) :
    tSeq (cdObj a) (n + 1) ^ 2 - tSeq (cdObj a) (n + 1) ≤ tSeq (cdObj a) n ^ 2 := by
  have hpos : 0 < a := by linarith
  cases n with
  | zero =>
    have h := C39_second_relaxation_below_one a ha
    have h0 : tSeq (cdObj a) 0 = 1 := rfl
    rw [h0]
    have h1 : 0 ≤ tSeq (cdObj a) 1 := by
      rw [h.1]; have : 1 / a ≤ 1 := by rw [div_le_one hpos]; linarith
      linarith
    nlinarith [h.2.1]
  | succ n =>
    rw [(C39_closed_form a (n + 1)).1, (C39_closed_form a n).1]
    have h3 : (0 : ℝ) ≤ n := Nat.cast_nonneg n
    push_cast
    have e : (((n : ℝ) + 1 + a - 1) / a) ^ 2 - (n + 1 + a - 1) / a
        = ((n + a) ^ 2 - a * (n + a)) / a ^ 2 := by field_simp; ring
    have e2 : (((n : ℝ) + a - 1) / a) ^ 2 = (n + a - 1) ^ 2 / a ^ 2 := by field_simp
    rw [e, e2]
    apply div_le_div_of_nonneg_right _ (by positivity)
    nlinarith

/-! ## C40 -/

section Histories
variable {E : Type*} [NormedAddCommGroup E] [InnerProductSpace ℝ E]

/-- One call on a FISTA object during a run. -/
inductive FistaCall (E : Type*)
  | isRestart (z xn xo : E)
  | updateBeta
  | updateLambda

/-- The object and the step size after a call. -/
noncomputable def callStep (s : Obj × ℝ) : FistaCall E → Obj × ℝ
  | .isRestart z xn xo => ((isRestart s.1 z xn xo).2, s.2)
  | .updateBeta => (s.1, updateBeta s.1 s.2)
  | .updateLambda => ((updateLambda s.1).2, s.2)

/-- The object and the step size after a history of calls, in any order. -/
noncomputable def callRun (f : Obj) (beta : ℝ) (h : List (FistaCall E)) : Obj × ℝ :=
  h.foldl callStep (f, beta)

theorem callStep_restart (s : Obj × ℝ) (c : FistaCall E) : (callStep s c).1.restart = s.1.restart := by
  cases c with
  | isRestart z xn xo =>
    simp only [callStep, isRestart]
    split
    · rfl
    · split_ifs <;> rfl
    · split <;> rfl
  | updateBeta => rfl
  | updateLambda =>
    simp only [callStep, updateLambda]
    split
    · rfl
    · split <;> rfl

theorem callRun_restart (f : Obj) (beta : ℝ) (h : List (FistaCall E)) :
    (callRun f beta h).1.restart = f.restart := by
  unfold callRun
  induction h using List.reverseRecOn with
  | nil => rfl
  | append_singleton h c ih => rw [List.foldl_append, List.foldl_cons, List.foldl_nil, callStep_restart, ih]

/-- C40: with the greedy strategy, a non-negative step size and `xi_restart ≤ 1`: along every history
the step size stays between `min(β₀, min_beta)` and `max(β₀, min_beta)`; started at or above `min_beta` it
never increases, and never falls below `min_beta`. -/
theorem C40_greedy_beta_range (f : Obj) (mb s xi beta : ℝ) (hf : f.restart = .greedy mb s xi)
    (hb : 0 ≤ beta) (hmb : 0 ≤ mb) (hxi : xi ≤ 1) (h : List (FistaCall E)) :
    min beta mb ≤ (callRun f beta h).2 ∧ (callRun f beta h).2 ≤ max beta mb ∧
    ∀ c : FistaCall E, mb ≤ (callRun f beta h).2 →
      mb ≤ (callStep (callRun f beta h) c).2 ∧ (callStep (callRun f beta h) c).2 ≤ (callRun f beta h).2 := by
  have step : ∀ (st : Obj × ℝ) (c : FistaCall E), st.1.restart = .greedy mb s xi → 0 ≤ st.2 →
      (callStep st c).2 = st.2 ∨ (callStep st c).2 = max (st.2 * xi) mb := by
    intro st c hst h0
    cases c with
    | isRestart => exact .inl rfl
    | updateLambda => exact .inl rfl
    | updateBeta =>
      simp only [callStep, updateBeta, hst]
      split_ifs
      · exact .inr rfl
      · exact .inl rfl
  have inv : ∀ h : List (FistaCall E), 0 ≤ (callRun f beta h).2 ∧
      min beta mb ≤ (callRun f beta h).2 ∧ (callRun f beta h).2 ≤ max beta mb := by
    intro h
    induction h using List.reverseRecOn with
    | nil => exact ⟨hb, min_le_left _ _, le_max_left _ _⟩
    | append_singleton h c ih =>
      have hr : (callRun f beta h).1.restart = .greedy mb s xi := by rw [callRun_restart, hf]
      have e : callRun f beta (h ++ [c]) = callStep (callRun f beta h) c := by
        simp [callRun, List.foldl_append]
      rw [e]
      rcases step _ c hr ih.1 with h1 | h1 <;> rw [h1]
      · exact ih
      · refine ⟨hmb.trans (le_max_right _ _), (min_le_right _ _).trans (le_max_right _ _), ?_⟩
        apply max_le _ (le_max_right _ _)
        exact (mul_le_of_le_one_right ih.1 hxi).trans ih.2.2
  refine ⟨(inv h).2.1, (inv h).2.2, fun c hc => ?_⟩
  have hr : (callRun f beta h).1.restart = .greedy mb s xi := by rw [callRun_restart, hf]
  rcases step _ c hr (inv h).1 with h1 | h1 <;> rw [h1]
  · exact ⟨hc, le_rfl⟩
  · exact ⟨le_max_right _ _, max_le (mul_le_of_le_one_right (inv h).1 hxi) hc⟩

/-- C40: with the greedy strategy `update_lambda` returns 2, whatever happened before. -/
theorem C40_greedy_lambda (f : Obj) (mb s xi beta : ℝ) (hf : f.restart = .greedy mb s xi)
    (h : List (FistaCall E)) : (updateLambda (callRun f beta h).1).1 = 2 := by
  have : (callRun f beta h).1.restart = .greedy mb s xi := by rw [callRun_restart, hf]
  simp [updateLambda, this]

/-- C40: with an adaptive strategy the step size never changes, and after any history `r_lazy` is
`r·ξᵏ`, where `k` is the number of restarts; so it never increases for `0 ≤ r`, `0 ≤ ξ ≤ 1`. -/
theorem C40_adaptive_r (f : Obj) (b : Bool) (xi beta p q r : ℝ) (hf : f.restart = .adaptive b xi)
    (hs : f.safeguard = false) (hm : f.mode = .regular p q r) (h : List (FistaCall E)) :
    (callRun f beta h).2 = beta ∧
    ∃ k ≤ h.length, (callRun f beta h).1.mode = .regular p q (r * xi ^ k) ∧
      (0 ≤ r → 0 ≤ xi → xi ≤ 1 → 0 ≤ r * xi ^ k ∧ r * xi ^ k ≤ r) := by
  have inv : (callRun f beta h).1.safeguard = false ∧ (callRun f beta h).2 = beta ∧
      ∃ k ≤ h.length, (callRun f beta h).1.mode = .regular p q (r * xi ^ k) := by
    induction h using List.reverseRecOn with
    | nil => exact ⟨hs, rfl, 0, le_rfl, by simp [callRun, hm]⟩
    | append_singleton h c ih =>
      have hr : (callRun f beta h).1.restart = .adaptive b xi := by rw [callRun_restart, hf]
      have e : callRun f beta (h ++ [c]) = callStep (callRun f beta h) c := by
        simp [callRun, List.foldl_append]
      rw [e, List.length_append, List.length_singleton]
      obtain ⟨h1, h2, k, hk, h3⟩ := ih
      cases c with
      | isRestart z xn xo =>
        simp only [callStep, isRestart, hr]
        by_cases hc : inner ℝ (z - xn) (xn - xo) ≥ 0
        · rw [if_pos hc]
          exact ⟨h1, h2, k + 1, by omega, by simp only [h3]; rw [pow_succ, mul_assoc]⟩
        · rw [if_neg hc]
          exact ⟨h1, h2, k, by omega, h3⟩
      | updateBeta =>
        simp only [callStep, updateBeta, h1]
        exact ⟨trivial, h2, k, by omega, h3⟩
      | updateLambda =>
        simp only [callStep, updateLambda, hr, h3]
        exact ⟨h1, h2, k, by omega, rfl⟩
  obtain ⟨-, h2, k, hk, h3⟩ := inv
  refine ⟨h2, k, hk, h3, fun hr hx hx1 => ⟨by positivity, ?_⟩⟩
  exact mul_le_of_le_one_right hr (pow_le_one₀ hx hx1)

/-- C40: without a restart strategy nothing restarts and the step size never changes. -/
theorem C40_no_strategy (f : Obj) (beta : ℝ) (hf : f.restart = .none) (hs : f.safeguard = false)
    (h : List (FistaCall E)) (z xn xo : E) :
    (callRun f beta h).2 = beta ∧ (isRestart (callRun f beta h).1 z xn xo).1 = false := by
  have hr : (callRun f beta h).1.restart = .none := by rw [callRun_restart, hf]
  refine ⟨?_, by simp [isRestart, hr]⟩
  have inv : (callRun f beta h).1.safeguard = false ∧ (callRun f beta h).2 = beta := by
    clear hr
    induction h using List.reverseRecOn with
    | nil => exact ⟨hs, rfl⟩
    | append_singleton h c ih =>
      have hr : (callRun f beta h).1.restart = .none := by rw [callRun_restart, hf]
      have e : callRun f beta (h ++ [c]) = callStep (callRun f beta h) c := by
        simp [callRun, List.foldl_append]
      rw [e]
      obtain ⟨h1, h2⟩ := ih
      cases c with
      | isRestart z xn xo => simp [callStep, isRestart, hr, h1, h2]
      | updateBeta => simp [callStep, updateBeta, h1, h2]
      | updateLambda =>
        simp only [callStep, updateLambda, hr]
        split <;> exact ⟨h1, h2⟩
  exact inv.2

/-- C40: the constructor accepts a negative `xi_restart`, after which the first restart makes `r_lazy`
negative (and then `update_lambda` takes the root of a negative number for large `t`). -/
theorem C40_negative_xi_accepted (xi p q r : ℝ) (hxi : xi < 0) (hr : 0 < r) (x : E) :
    ∃ f, init (some "adaptive") none none (some xi) none p q r = .ok f ∧
      ∃ r', (isRestart f x x x).2.mode = .regular p q r' ∧ r' < 0 := by
  refine ⟨⟨.regular p q r, .adaptive false xi, 1, 1, none, false⟩, ?_, ?_⟩
  · have : ¬ (xi ≥ 1) := by linarith
    simp [init, initMode, strategies, checkRestart, bind, Except.bind, this]
  · exact ⟨r * xi, by simp [isRestart], mul_neg_of_pos_of_neg hr hxi⟩

end Histories

/-- A greedy object meets the hypotheses; a history with a large step makes the step size shrink. -/
example (h : List (FistaCall ℝ)) :
    (callRun (⟨.regular 1 1 4, .greedy 0.1 1.1 0.96, 1, 1, none, false⟩ : Obj) 1 h).2 ≤ 1 := by
  have := (C40_greedy_beta_range (⟨.regular 1 1 4, .greedy 0.1 1.1 0.96, 1, 1, none, false⟩ : Obj)
    0.1 1.1 0.96 1 rfl (by norm_num) (by norm_num) (by norm_num) h).2.1
  exact this.trans (by norm_num)
example : (callRun (⟨.regular 1 1 4, .greedy 0.1 1.1 0.96, 1, 1, none, false⟩ : Obj) 1
    [.isRestart (0 : ℝ) 1 0, .isRestart (0 : ℝ) 5 0, .updateBeta]).2 = 0.96 := by
  simp [callRun, callStep, isRestart, updateBeta]
  norm_num

end Verif
