import Verif.Model.Admm
import Verif.Spec.Convex
import Mathlib.Tactic.Module

/-!
# C51, C52, C78: `ADMM`, `FastADMM`, `ADMMcostObj`
-/

set_option linter.unusedSectionVars false

namespace Verif
open Admm Spec

section
variable {H V : Type} [NormedAddCommGroup H] [InnerProductSpace ℝ H]

/-- C51, refuted: the multiplier has no influence on the iterates.  For every problem, any two initial
multipliers give the same `u` and `v` after any number of updates. -/
theorem C51_multiplier_has_no_effect (P : Problem H V) (u : H) (v : V) (mu mu' : H) (n : ℕ) :
    (Admm.after P ⟨u, v, mu⟩ n).u = (Admm.after P ⟨u, v, mu'⟩ n).u ∧
    (Admm.after P ⟨u, v, mu⟩ n).v = (Admm.after P ⟨u, v, mu'⟩ n).v := by
  induction n with
  | zero => exact ⟨rfl, rfl⟩
  | succ n ih =>
    simp only [Admm.after, Admm.step]
    rw [ih.1, ih.2]
    exact ⟨rfl, rfl⟩

/-- C51: the multiplier itself is accumulated correctly, `μₙ = μ₀ + ∑ₖ (A uₖ + B vₖ - b)`, so a vanishing
residual makes it stationary.  (Missing for the full claim: its use in the two minimisations.) -/
theorem C51_multiplier_accumulates_partial (P : Problem H V) (s : Admm.St H V) (n : ℕ) :
    (Admm.after P s n).mu = s.mu +
      ((List.range n).map fun k => P.A (Admm.after P s (k + 1)).u + P.B (Admm.after P s (k + 1)).v - P.b).sum := by
  induction n with
  | zero => simp [Admm.after]
  | succ n ih =>
    rw [List.range_succ, List.map_append, List.sum_append, ← add_assoc, ← ih]
    simp [Admm.after, Admm.step]

/-- C51: in particular, when the multiplier stops changing the constraint holds. -/
theorem C51_stationary_multiplier (P : Problem H V) (s : Admm.St H V) :
    (Admm.step P s).mu = s.mu ↔ P.A (Admm.step P s).u + P.B (Admm.step P s).v = P.b := by
  simp only [Admm.step, add_eq_left, sub_eq_zero]

end

/-- C51, refuted on a concrete problem: minimise `½(u-4)² + (3/2)v²` subject to `u - v = 0`, with both
minimisations solved exactly, in the convention `‖A u + obs‖²`, `‖B v + obs‖²` that makes the update ADMM when
`obs` contains the multiplier.  The iterates stay for ever at `u = 8/5`, `v = 4/5`, which violates the
constraint, while the solution is `u = v = 1`. -/
theorem C51_constraint_not_enforced :
    let P : Problem ℝ ℝ := ⟨fun _ obs => (4 - obs) / 2, fun _ obs => obs / 4, id, fun v => -v, 0⟩
    (∀ init obs, Minimises Set.univ (fun u : ℝ => 1 / 2 * (u - 4) ^ 2 + 1 / 2 * ‖P.A u + obs‖ ^ 2) (P.optH init obs)) ∧
    (∀ init obs, Minimises Set.univ (fun v : ℝ => 3 / 2 * v ^ 2 + 1 / 2 * ‖P.B v + obs‖ ^ 2) (P.optG init obs)) ∧
    (∀ u v, P.A u + P.B v = P.b → 1 / 2 * ((1 : ℝ) - 4) ^ 2 + 3 / 2 * 1 ^ 2 ≤ 1 / 2 * (u - 4) ^ 2 + 3 / 2 * v ^ 2) ∧
    ∀ mu n, (Admm.after P ⟨8 / 5, 4 / 5, mu⟩ n).u = 8 / 5 ∧ (Admm.after P ⟨8 / 5, 4 / 5, mu⟩ n).v = 4 / 5 ∧
      P.A (Admm.after P ⟨8 / 5, 4 / 5, mu⟩ n).u + P.B (Admm.after P ⟨8 / 5, 4 / 5, mu⟩ n).v ≠ P.b := by
  refine ⟨fun init obs => ⟨Set.mem_univ _, fun u _ => ?_⟩, fun init obs => ⟨Set.mem_univ _, fun v _ => ?_⟩,
    fun u v h => ?_, fun mu n => ?_⟩
  · simp only [id, Real.norm_eq_abs, sq_abs]
    nlinarith [sq_nonneg (u - (4 - obs) / 2)]
  · simp only [Real.norm_eq_abs, sq_abs]
    nlinarith [sq_nonneg (v - obs / 4)]
  · have h' : u = v := by simp only [id] at h; linarith
    subst h'
    nlinarith [sq_nonneg (u - 1)]
  · have key : (Admm.after (⟨fun _ obs => (4 - obs) / 2, fun _ obs => obs / 4, id, fun v => -v, 0⟩ : Problem ℝ ℝ)
        ⟨8 / 5, 4 / 5, mu⟩ n).u = 8 / 5 ∧
        (Admm.after (⟨fun _ obs => (4 - obs) / 2, fun _ obs => obs / 4, id, fun v => -v, 0⟩ : Problem ℝ ℝ)
        ⟨8 / 5, 4 / 5, mu⟩ n).v = 4 / 5 := by
      induction n with
      | zero => exact ⟨rfl, rfl⟩
      | succ n ih =>
        simp only [Admm.after, Admm.step]
        rw [ih.1, ih.2]
        norm_num
    refine ⟨key.1, key.2, ?_⟩
    simp only
    rw [key.1, key.2]
    norm_num

section
variable {H V : Type} [NormedAddCommGroup H] [InnerProductSpace ℝ H]

/-! ## C52 -/

/-- What FastADMM actually computes for every `eta > 0`: never a restart, and a constant extrapolation
factor `√(1+4α²)/α`.  `(u, v, μ, v̂, μ̂)` after one update. -/
noncomputable def fastRec (P : Problem H H) (alpha : ℝ) (s : H × H × H × H × H) : H × H × H × H × H :=
  let (u, v, mu, vHat, muHat) := s
  let u' := P.optH u (P.B vHat + u - P.b)
  let v' := P.optG vHat (P.A u' + u - P.b)
  let mu' := muHat + (P.A u' + P.B v' - P.b)
  let beta := Real.sqrt (1 + 4 * alpha ^ 2) / alpha
  (u', v', mu', v' + beta • (v' - v), mu' + beta • (mu' - mu))

/-- C52, partial: for every `eta > 0` the iterates follow `fastRec`, from `v = b`. -/
theorem C52_recursion_partial (P : Problem H H) (u v mu : H) (alpha eta tau : ℝ) (he : 0 < eta) (n : ℕ) :
    ∃ t, fastAfter P false (fastInit P u v mu alpha eta tau) n = .ok t ∧
      (t.u, t.v, t.mu, t.vHat.getD t.v, t.muHat.getD t.mu) = (fastRec P alpha)^[n] (u, P.b, mu, P.b, mu) ∧
      t.cOld = none ∧ t.eta = eta ∧ t.alphaOld = alpha := by
  induction n with
  | zero => exact ⟨_, rfl, rfl, rfl, rfl, rfl⟩
  | succ n ih =>
    obtain ⟨t, h1, h2, h3, h4, h5⟩ := ih
    rw [Function.iterate_succ_apply', ← h2]
    simp only [fastAfter, h1, fastStep, below, h3, h4, he, decide_true, if_true]
    refine ⟨_, rfl, ?_, by simp, by simp, by simp [h5]⟩
    simp [fastRec, h5]

/-- C52, refuted: `eta` (as long as it is positive), `tau` and the initial `v` have no effect at all on any
iterate. -/
theorem C52_parameters_have_no_effect (P : Problem H H) (u v v' mu : H) (alpha eta eta' tau tau' : ℝ)
    (he : 0 < eta) (he' : 0 < eta') (n : ℕ) :
    ∃ t t', fastAfter P false (fastInit P u v mu alpha eta tau) n = .ok t ∧
      fastAfter P false (fastInit P u v' mu alpha eta' tau') n = .ok t' ∧
      t.u = t'.u ∧ t.v = t'.v ∧ t.mu = t'.mu := by
  obtain ⟨t, h1, h2, _⟩ := C52_recursion_partial P u v mu alpha eta tau he n
  obtain ⟨t', h1', h2', _⟩ := C52_recursion_partial P u v' mu alpha eta' tau' he' n
  have h := h2.trans h2'.symm
  simp only [Prod.mk.injEq] at h
  exact ⟨t, t', h1, h1', h.1, h.2.1, h.2.2.1⟩

/-- C52: the restart branch is taken only for `eta ≤ 0`; for `eta < 0` the aliasing of `_v_hat` with
`_v_old` makes it plain ADMM started from `v = b` (with the multiplier accumulated). -/
theorem C52_negative_eta_is_plain_admm (P : Problem H H) (u v mu : H) (alpha eta tau : ℝ) (he : eta < 0)
    (n : ℕ) :
    ∃ t, fastAfter P false (fastInit P u v mu alpha eta tau) n = .ok t ∧
      (⟨t.u, t.v, t.mu⟩ : Admm.St H H) = Admm.after P ⟨u, P.b, mu⟩ n ∧
      t.vHat.getD t.v = t.v ∧ t.muHat.getD t.mu = t.mu ∧ t.cOld = none ∧ t.eta = eta := by
  induction n with
  | zero => exact ⟨_, rfl, rfl, rfl, rfl, rfl, rfl⟩
  | succ n ih =>
    obtain ⟨t, h1, h2, h3, h4, h5, h6⟩ := ih
    have hn : ¬ (0 < t.eta) := by rw [h6]; linarith
    have hn0 : t.eta ≠ 0 := by rw [h6]; exact he.ne
    simp only [fastAfter, h1, fastStep, below, h5, hn, decide_false, hn0, h3, h4, Bool.false_eq_true, if_false,
      Admm.after, ← h2]
    exact ⟨_, rfl, rfl, rfl, rfl, rfl, h6⟩

/-- C52: `eta = 0` raises `ZeroDivisionError` in the first update. -/
theorem C52_zero_eta (P : Problem H H) (hc : Bool) (u v mu : H) (alpha tau : ℝ) :
    fastAfter P hc (fastInit P u v mu alpha 0 tau) 1 = .error .zeroDivisionError := by
  simp [fastAfter, fastStep, below, fastInit]

/-- C52: with cost functions the first update raises `AttributeError` (for every `eta ≠ 0`): FastADMM cannot
be used with a cost. -/
theorem C52_cost_functions_unusable (P : Problem H H) (u v mu : H) (alpha eta tau : ℝ) (he : eta ≠ 0) :
    fastAfter P true (fastInit P u v mu alpha eta tau) 1 = .error .attributeError := by
  by_cases h : 0 < eta <;> simp [fastAfter, fastStep, below, fastInit, h, he]

/-! ## C78 -/

/-- C78, refuted: the reported cost contains `τ‖Au+Bv-b‖`, not the documented `τ‖Au+Bv-b‖²`; the two agree
exactly when `τ = 0` or the residual norm is 0 or 1. -/
theorem C78_cost_not_squared (f : H → ℝ) (g : V → ℝ) (P : Problem H V) (tau : ℝ) (u : H) (v : V) :
    Admm.cost f g P tau u v = f u + g v + tau * ‖P.A u + P.B v - P.b‖ ^ 2 ↔
      tau = 0 ∨ ‖P.A u + P.B v - P.b‖ = 0 ∨ ‖P.A u + P.B v - P.b‖ = 1 := by
  simp only [Admm.cost]
  generalize ‖P.A u + P.B v - P.b‖ = r
  constructor
  · intro h
    have h1 : tau * (r * (r - 1)) = 0 := by linarith
    rcases mul_eq_zero.1 h1 with h | h
    · exact .inl h
    · rcases mul_eq_zero.1 h with h | h
      · exact .inr (.inl h)
      · exact .inr (.inr (by linarith))
  · rintro (h | h | h) <;> simp [h]

/-- C78, partial: for feasible pairs the cost is the documented objective. -/
theorem C78_cost_on_feasible_partial (f : H → ℝ) (g : V → ℝ) (P : Problem H V) (tau : ℝ) (u : H) (v : V)
    (h : P.A u + P.B v = P.b) : Admm.cost f g P tau u v = f u + g v := by
  simp [Admm.cost, h]

/-- C78, refuted: options given to `ADMMcostObj` by keyword are not honoured.  With a single option, whatever
its name, the *name* becomes the initial cost and every option keeps its default. -/
theorem C78_options_misrouted (k : String) :
    costOptions [k] = [("initial_cost", .str k), ("tolerance", .default), ("cost_interval", .default),
      ("test_range", .default), ("verbose", .default), ("plot_output", .default)] := rfl

end

/-- Non-vacuity: a run in which the multiplier moves and `u`, `v` do too. -/
example : (Admm.after (⟨fun _ obs => (4 - obs) / 2, fun _ obs => obs / 4, id, fun v => -v, 0⟩ : Problem ℝ ℝ)
    ⟨0, 0, 0⟩ 1).mu = 3 / 2 := by
  simp [Admm.after, Admm.step]; norm_num
example : ∃ f : ℝ → ℝ, ∃ P : Problem ℝ ℝ, Admm.cost f f P 1 2 0 ≠ f 2 + f 0 + 1 * ‖P.A 2 + P.B 0 - P.b‖ ^ 2 := by
  refine ⟨fun _ => 0, ⟨fun _ _ => 0, fun _ _ => 0, id, id, 0⟩, ?_⟩
  rw [Ne, C78_cost_not_squared]
  norm_num
example : ∃ t, fastAfter (⟨fun _ obs => (4 - obs) / 2, fun _ obs => obs / 4, id, fun v => -v, 0⟩ : Problem ℝ ℝ) false
    (fastInit ⟨fun _ obs => (4 - obs) / 2, fun _ obs => obs / 4, id, fun v => -v, 0⟩ 0 0 0 1 0.999 1) 3 = .ok t :=
  (C52_recursion_partial _ 0 0 0 1 0.999 1 (by norm_num) 3).imp fun _ h => h.1

end Verif
