import Verif.Props.ForwardBackward

/-!
# C48, C77: `POGM`
-/

set_option linter.unusedSectionVars false

namespace Verif
open FB Spec RealInnerProductSpace

section
variable {E : Type} [NormedAddCommGroup E] [InnerProductSpace ℝ E]

/-- State after `n` updates. -/
noncomputable def pogmAfter (G : E → E) (prox : E → ℝ → E) (beta sb : ℝ) (s : Pogm E) : ℕ → Pogm E
  | 0 => s
  | n + 1 => pogmStep G prox beta sb (pogmAfter G prox beta sb s n)

/-- C48: construction succeeds exactly when the four arrays are arrays, the parameters floats and
`0 ≤ sigma_bar ≤ 1`; a float `sigma_bar` outside `[0,1]` raises `ValueError`, the rest `TypeError`. -/
theorem C48_validation (G : E → E) (u x y z : Option E) (bp sb : ParamArg) (st : Option ℝ) :
    ((∃ r, pogmInit G u x y z bp sb st = .ok r) ↔
      (u.isSome ∧ x.isSome ∧ y.isSome ∧ z.isSome ∧ (∃ b, bp = .float b) ∧ ∃ s, sb = .float s ∧ 0 ≤ s ∧ s ≤ 1)) ∧
    (∀ u' x' y' z' b s, (s < 0 ∨ 1 < s) →
      pogmInit G (some u') (some x') (some y') (some z') (.float b) (.float s) st = .error .valueError) ∧
    (u.isSome = false ∨ x.isSome = false ∨ y.isSome = false ∨ z.isSome = false ∨ bp = .other ∨ sb = .other →
      pogmInit G u x y z bp sb st = .error .typeError) := by
  refine ⟨?_, fun u' x' y' z' b s h => ?_, ?_⟩
  · cases u <;> cases x <;> cases y <;> cases z <;> cases bp <;> cases sb <;>
      simp [pogmInit, checkParam, bind, Except.bind]
    rename_i s
    by_cases h : s < 0 ∨ 1 < s
    · simp only [h, if_true]
      refine ⟨fun ⟨r, r2, r3, hr⟩ => (by cases hr), fun h2 => ?_⟩
      rcases h with h | h <;> linarith
    · simp only [h, if_false]
      push Not at h
      exact ⟨fun _ => h, fun _ => ⟨_, _, _, rfl⟩⟩
  · simp [pogmInit, checkParam, bind, Except.bind, h]
  · cases u <;> cases x <;> cases y <;> cases z <;> cases bp <;> cases sb <;>
      simp [pogmInit, checkParam, bind, Except.bind]

theorem tNew_gt_one {t : ℝ} (ht : 1 ≤ t) : 1 < 0.5 * (1 + Real.sqrt (1 + 4 * t ^ 2)) := by
  have : 2 < Real.sqrt (1 + 4 * t ^ 2) := by
    rw [Real.lt_sqrt (by norm_num)]
    nlinarith
  norm_num
  linarith

/-- C48: after any number of updates from the constructed state, with a positive step: `t ≥ 1`, `ξ > 0`,
`0 ≤ σ ≤ 1`. -/
theorem C48_parameters (G : E → E) (prox : E → ℝ → E) (u x y z : Option E) (bp sbp : ParamArg)
    (st : Option ℝ) (beta sb : ℝ) (s : Pogm E) (h : pogmInit G u x y z bp sbp st = .ok (beta, sb, s))
    (hb : 0 < beta) (n : ℕ) :
    1 ≤ (pogmAfter G prox beta sb s n).t ∧ 0 < (pogmAfter G prox beta sb s n).xi ∧
    0 ≤ (pogmAfter G prox beta sb s n).sigma ∧ (pogmAfter G prox beta sb s n).sigma ≤ 1 := by
  have h0 : s.t = 1 ∧ s.xi = 1 ∧ s.sigma = 1 ∧ 0 ≤ sb ∧ sb ≤ 1 := by
    cases u <;> cases x <;> cases y <;> cases z <;> cases bp <;> cases sbp <;>
      simp [pogmInit, checkParam, bind, Except.bind] at h
    split_ifs at h with hc
    · push Not at hc
      simp only [Except.ok.injEq, Prod.mk.injEq] at h
      obtain ⟨-, rfl, rfl⟩ := h
      exact ⟨rfl, rfl, rfl, hc⟩
  obtain ⟨ht, hx, hs, hsb0, hsb1⟩ := h0
  induction n with
  | zero => simp [pogmAfter, ht, hx, hs]
  | succ n ih =>
    simp only [pogmAfter]
    generalize pogmAfter G prox beta sb s n = s at *
    obtain ⟨i1, i2, i3, i4⟩ := ih
    have htn := tNew_gt_one i1
    have hxi : 0 < beta * (1 + (s.t - 1) / (0.5 * (1 + Real.sqrt (1 + 4 * s.t ^ 2)))
        + s.sigma * s.t / (0.5 * (1 + Real.sqrt (1 + 4 * s.t ^ 2)))) := by
      have e1 : 0 ≤ (s.t - 1) / (0.5 * (1 + Real.sqrt (1 + 4 * s.t ^ 2))) :=
        div_nonneg (by linarith) (by linarith)
      have e2 : 0 ≤ s.sigma * s.t / (0.5 * (1 + Real.sqrt (1 + 4 * s.t ^ 2))) :=
        div_nonneg (mul_nonneg i3 (by linarith)) (by linarith)
      apply mul_pos hb
      linarith
    simp only [pogmStep]
    split_ifs
    · exact ⟨le_rfl, hxi, zero_le_one, le_rfl⟩
    · exact ⟨htn.le, hxi, mul_nonneg i3 hsb0, mul_le_one₀ i4 hsb0 hsb1⟩
    · exact ⟨htn.le, hxi, i3, i4⟩

/-- C48: after at least one update the solution is a value of the proximity operator, called with the
current `ξ` and `z` (so with a positive factor, by `C48_parameters`). -/
theorem C48_solution_is_prox_value (G : E → E) (prox : E → ℝ → E) (beta sb : ℝ) (s : Pogm E) (n : ℕ) :
    let f := pogmAfter G prox beta sb s (n + 1)
    f.xOld = prox f.z f.xi := by
  intro f
  simp only [f, pogmAfter, pogmStep]
  split_ifs <;> rfl

/-- C77: started at `x` (with any `u`, `y`, `z`), POGM keeps the solution at `x` forever exactly when `x`
minimises `F + g` over `C`; already the first update moves every other point. -/
theorem C77_stationary_iff_minimiser {C : Set E} {F g : E → ℝ} {G : E → E} {prox : E → ℝ → E}
    (hg : ConvexOn ℝ C g) (hF : AboveTangents F G) (hd : ∀ x, HasFDerivAt F (innerSL ℝ (G x)) x)
    (hp : ExactProx C g prox) (u x y z : E) (beta sb : ℝ) (hb : 0 < beta) (st : Option ℝ) (bp sbp : ParamArg)
    (s : Pogm E) (h : pogmInit G (some u) (some x) (some y) (some z) bp sbp st = .ok (beta, sb, s)) :
    (Minimises C (fun u => F u + g u) x → ∀ n, (pogmAfter G prox beta sb s n).xOld = x) ∧
    ((pogmAfter G prox beta sb s 1).xOld = x → Minimises C (fun u => F u + g u) x) := by
  have hpar := C48_parameters G prox _ _ _ _ bp sbp st beta sb s h hb
  have hiff : ∀ b, 0 < b → (prox (x - b • G x) b = x ↔ Minimises C (fun u => F u + g u) x) := by
    intro b hb0
    have := C41_fixed_points_are_minimisers (S := Unit) hg hF hd hp (userRules none none)
      ⟨x, x, none, none, b, 1, ()⟩ x hb0 rfl rfl
    rw [← this]
    simp [step, userRules]
  have h0 : s.t = 1 ∧ s.xOld = x := by
    cases bp <;> cases sbp <;> simp [pogmInit, checkParam, bind, Except.bind] at h
    split_ifs at h
    simp only [Except.ok.injEq, Prod.mk.injEq] at h
    obtain ⟨-, -, rfl⟩ := h
    exact ⟨rfl, rfl⟩
  have hz1 : (pogmAfter G prox beta sb s 1).z = x - (pogmAfter G prox beta sb s 1).xi • G x := by
    simp only [pogmAfter, pogmStep, h0.1, h0.2]
    split_ifs <;> simp only [sub_self, zero_div, zero_mul, zero_smul] <;> module
  constructor
  · intro hmin
    have inv : ∀ n, (pogmAfter G prox beta sb s (n + 1)).xOld = x ∧
        (pogmAfter G prox beta sb s (n + 1)).uOld = x - beta • G x ∧
        (pogmAfter G prox beta sb s (n + 1)).z = x - (pogmAfter G prox beta sb s (n + 1)).xi • G x := by
      intro n
      induction n with
      | zero =>
        refine ⟨?_, ?_, hz1⟩
        · rw [C48_solution_is_prox_value, hz1]
          exact (hiff _ (hpar 1).2.1).2 hmin
        · simp only [pogmAfter, pogmStep, h0.2]
          split_ifs <;> simp only <;> module
      | succ n ih =>
        have hxi := (hpar (n + 1)).2.1
        have hpx := hpar (n + 2)
        have hpv := C48_solution_is_prox_value G prox beta sb s (n + 1)
        simp only [pogmAfter] at hpx hpv ih hxi ⊢
        generalize pogmStep G prox beta sb (pogmAfter G prox beta sb s n) = f at *
        obtain ⟨i1, i2, i3⟩ := ih
        have hz : (pogmStep G prox beta sb f).z = x - (pogmStep G prox beta sb f).xi • G x := by
          have key : ∀ b : ℝ, (b / f.xi) • (f.xi • G x) = b • G x := by
            intro b; rw [smul_smul, div_mul_cancel₀ _ hxi.ne']
          simp only [pogmStep, i1, i2, i3]
          have e : x - (x - f.xi • G x) = f.xi • G x := by abel
          split_ifs <;> simp only [e, key] <;> module
        refine ⟨?_, ?_, hz⟩
        · rw [hpv, hz]
          exact (hiff _ hpx.2.1).2 hmin
        · simp only [pogmStep, i1]
          split_ifs <;> simp only <;> module
    intro n
    cases n with
    | zero => exact h0.2
    | succ n => exact (inv n).1
  · intro hx
    rw [C48_solution_is_prox_value, hz1] at hx
    exact (hiff _ (hpar 1).2.1).1 hx

end

/-- Non-vacuity: the lasso problem of C41 to C43; POGM started at its minimiser `2` stays there. -/
example (n : ℕ) : (pogmAfter (fun x : ℝ => x - 3) softR 1 1 ⟨0, 2, 5, 7, -1, 1, 1, 1⟩ n).xOld = 2 := by
  refine (C77_stationary_iff_minimiser abs_convex sq_above (fun x => ?_) softR_exact 0 2 5 7 1 1 one_pos none
    (.float 1) (.float 1) _ ?_).1 two_minimises n
  · have h := (((hasDerivAt_id x).sub_const 3).pow 2).const_mul (1 / 2 : ℝ)
    refine h.hasFDerivAt.congr_fderiv ?_
    ext
    simp [innerSL_apply_apply]
  · simp [pogmInit, checkParam, bind, Except.bind, orParam]
    norm_num
example (u x y z : ℝ) : pogmInit id (some u) (some x) (some y) (some z) (.float 1) (.float 1.5) none
    = .error .valueError := (C48_validation id none none none none .other .other none).2.1 u x y z 1 1.5 (by norm_num)

end Verif
