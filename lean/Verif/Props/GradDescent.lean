import Verif.Model.GradDescent
import Verif.Spec.GradDescent
import Mathlib.Analysis.SpecificLimits.Normed
import Mathlib.Algebra.Order.BigOperators.Group.Finset

/-!
# C53–C57, C80, C81: the gradient descent family
-/

set_option linter.unusedSectionVars false

namespace Verif
open GD Spec

section
variable {ι 𝕜 : Type} [RCLike 𝕜]

/-- The state after an update that does not raise. -/
noncomputable def gdNext (c : Conf ι 𝕜) (idx : ℕ) (grad : (ι → 𝕜) → ι → 𝕜) (s : GD.St ι 𝕜) : GD.St ι 𝕜 :=
  let s := prepare c idx grad s
  let step := stepOf c s
  let s := { s with xNew := fun i => s.xOld i - (step i : 𝕜) * s.dir i }
  let s := if idx % c.epochSize = 0 then
      let s := GD.reset c s
      { s with xNew := c.prox s.xNew step }
    else s
  { s with
    xOld := s.xNew
    eta := match c.etaUpdate with
      | none => s.eta
      | some f => f s.eta idx }

theorem gd_update (c : Conf ι 𝕜) (idx : ℕ) (grad : (ι → 𝕜) → ι → 𝕜) (s : GD.St ι 𝕜) :
    update c idx grad s = if c.epochSize = 0 then .error .zeroDivisionError else .ok (gdNext c idx grad s) := rfl

/-- The gradients an algorithm sees along a run, with the iteration index of each. -/
noncomputable def seen (c : Conf ι 𝕜) : History ι 𝕜 → GD.St ι 𝕜 → List (ℕ × (ι → 𝕜))
  | [], _ => []
  | (idx, g) :: h, s => (idx, g s.xOld) :: seen c h (gdNext c idx g s)

theorem seen_length (c : Conf ι 𝕜) (h : History ι 𝕜) (s : GD.St ι 𝕜) : (seen c h s).length = h.length := by
  induction h generalizing s with
  | nil => rfl
  | cons p h ih => simp [seen, ih]

theorem seen_idx (c : Conf ι 𝕜) (h : History ι 𝕜) (s : GD.St ι 𝕜) :
    (seen c h s).map Prod.fst = h.map Prod.fst := by
  induction h generalizing s with
  | nil => rfl
  | cons p h ih => simp [seen, ih]

/-- The run as a plain fold. -/
noncomputable def gdRun (c : Conf ι 𝕜) : History ι 𝕜 → GD.St ι 𝕜 → GD.St ι 𝕜
  | [], s => s
  | (idx, g) :: h, s => gdRun c h (gdNext c idx g s)

theorem run_eq (c : Conf ι 𝕜) (hn : c.epochSize ≠ 0) (h : History ι 𝕜) (s : GD.St ι 𝕜) :
    run c h s = .ok (gdRun c h s) := by
  induction h generalizing s with
  | nil => rfl
  | cons p h ih => simp [run, gdRun, gd_update, hn, ih]

theorem gdRun_append (c : Conf ι 𝕜) (h h' : History ι 𝕜) (s : GD.St ι 𝕜) :
    gdRun c (h ++ h') s = gdRun c h' (gdRun c h s) := by
  induction h generalizing s with
  | nil => rfl
  | cons p h ih => simp [gdRun, ih]

theorem reset_speed (c : Conf ι 𝕜) (s : GD.St ι 𝕜) : (GD.reset c s).speed = s.speed := by
  unfold GD.reset; split <;> rfl
theorem reset_memory (c : Conf ι 𝕜) (s : GD.St ι 𝕜) : (GD.reset c s).memory = s.memory := by
  unfold GD.reset; split <;> rfl
theorem reset_betaPow (c : Conf ι 𝕜) (s : GD.St ι 𝕜) : (GD.reset c s).betaPow = s.betaPow := by
  unfold GD.reset; split <;> rfl
theorem reset_gammaPow (c : Conf ι 𝕜) (s : GD.St ι 𝕜) : (GD.reset c s).gammaPow = s.gammaPow := by
  unfold GD.reset; split <;> rfl
theorem reset_eta (c : Conf ι 𝕜) (s : GD.St ι 𝕜) : (GD.reset c s).eta = s.eta := by
  unfold GD.reset; split <;> rfl
theorem reset_xNew (c : Conf ι 𝕜) (s : GD.St ι 𝕜) : (GD.reset c s).xNew = s.xNew := by
  unfold GD.reset; split <;> rfl

theorem updateDir_rest (c : Conf ι 𝕜) (idx : ℕ) (g : ι → 𝕜) (s : GD.St ι 𝕜) :
    (updateDir c idx g s).speed = s.speed ∧ (updateDir c idx g s).xOld = s.xOld ∧
    (updateDir c idx g s).eta = s.eta ∧ (updateDir c idx g s).gammaPow = s.gammaPow := by
  unfold updateDir; split <;> exact ⟨rfl, rfl, rfl, rfl⟩

theorem updateSpeed_rest (c : Conf ι 𝕜) (g : ι → 𝕜) (s : GD.St ι 𝕜) :
    (updateSpeed c g s).dir = s.dir ∧ (updateSpeed c g s).xOld = s.xOld ∧
    (updateSpeed c g s).eta = s.eta ∧ (updateSpeed c g s).betaPow = s.betaPow ∧
    (updateSpeed c g s).memory = s.memory := by
  unfold updateSpeed; split <;> exact ⟨rfl, rfl, rfl, rfl, rfl⟩

theorem next_speed (c : Conf ι 𝕜) (idx : ℕ) (g : (ι → 𝕜) → ι → 𝕜) (s : GD.St ι 𝕜) :
    (gdNext c idx g s).speed = (prepare c idx g s).speed := by
  simp only [gdNext]; split <;> simp [reset_speed]
theorem next_memory (c : Conf ι 𝕜) (idx : ℕ) (g : (ι → 𝕜) → ι → 𝕜) (s : GD.St ι 𝕜) :
    (gdNext c idx g s).memory = (prepare c idx g s).memory := by
  simp only [gdNext]; split <;> simp [reset_memory]
theorem next_betaPow (c : Conf ι 𝕜) (idx : ℕ) (g : (ι → 𝕜) → ι → 𝕜) (s : GD.St ι 𝕜) :
    (gdNext c idx g s).betaPow = (prepare c idx g s).betaPow := by
  simp only [gdNext]; split <;> simp [reset_betaPow]
theorem next_gammaPow (c : Conf ι 𝕜) (idx : ℕ) (g : (ι → 𝕜) → ι → 𝕜) (s : GD.St ι 𝕜) :
    (gdNext c idx g s).gammaPow = (prepare c idx g s).gammaPow := by
  simp only [gdNext]; split <;> simp [reset_gammaPow]
theorem next_eta (c : Conf ι 𝕜) (idx : ℕ) (g : (ι → 𝕜) → ι → 𝕜) (s : GD.St ι 𝕜) :
    (gdNext c idx g s).eta = match c.etaUpdate with | none => s.eta | some f => f s.eta idx := by
  have h : (prepare c idx g s).eta = s.eta := by
    simp only [prepare, (updateSpeed_rest c _ _).2.2.1, (updateDir_rest c idx _ s).2.2.1]
  by_cases h0 : idx % c.epochSize = 0 <;> simp [gdNext, h0, reset_eta, h]
theorem next_dir (c : Conf ι 𝕜) (idx : ℕ) (g : (ι → 𝕜) → ι → 𝕜) (s : GD.St ι 𝕜)
    (hc : (∀ b, c.kind ≠ .momentum b) ∨ idx % c.epochSize ≠ 0) :
    (gdNext c idx g s).dir = (updateDir c idx (g s.xOld) s).dir := by
  have h : (prepare c idx g s).dir = (updateDir c idx (g s.xOld) s).dir := (updateSpeed_rest c _ _).1
  simp only [gdNext]
  split
  · rename_i h0
    rcases hc with hc | hc
    · simp only [GD.reset]
      exact h
    · exact absurd h0 hc
  · exact h

/-! ## Construction -/

/-- C45, refuted for gradient descent: `step_size` never has any effect. -/
theorem C45_gradient_descent_ignores_step_size (k : Kind) (x : ι → 𝕜) (prox : (ι → 𝕜) → (ι → ℝ) → (ι → 𝕜))
    (eta eps : NumArg) (f : Option (ℝ → ℕ → ℝ)) (n : ℕ) (st st' : Option ℝ) :
    GD.init k x prox eta eps f n st = GD.init k x prox eta eps f n st' := rfl

/-- C54: RMSprop accepts exactly float weights in `[0, 1]` (the documentation excludes the end points). -/
theorem C54_rmsprop_validation (g : NumArg) :
    (∃ k, rmspropArgs g = .ok k) ↔ ∃ v, g = .float v ∧ 0 ≤ v ∧ v ≤ 1 := by
  cases g with
  | float v =>
    by_cases h : v < 0 ∨ v > 1
    · simp only [rmspropArgs, h, if_true]
      constructor
      · rintro ⟨k, hk⟩; cases hk
      · rintro ⟨w, hw, h1, h2⟩; cases hw; rcases h with h | h <;> linarith
    · simp only [rmspropArgs, h, if_false, GD.checkParam]
      push Not at h
      exact ⟨fun _ => ⟨v, rfl, h.1, h.2⟩, fun _ => ⟨_, rfl⟩⟩
  | int v =>
    by_cases h : v < 0 ∨ v > 1 <;> simp [rmspropArgs, h, GD.checkParam]
  | other => simp [rmspropArgs]

/-- C54: out-of-range weights raise `ValueError`. -/
theorem C54_rmsprop_out_of_range (v : ℝ) (h : v < 0 ∨ 1 < v) :
    rmspropArgs (.float v) = .error .valueError := by
  have h' : v < 0 ∨ v > 1 := h
  simp [rmspropArgs, h']

/-- C56: ADAM accepts exactly float weights in `[0, 1)`; other floats raise `ValueError`, other types
`TypeError`. -/
theorem C56_adam_validation (g b : NumArg) :
    (∃ k, adamArgs g b = .ok k) ↔ ∃ v w, g = .float v ∧ b = .float w ∧ 0 ≤ v ∧ v < 1 ∧ 0 ≤ w ∧ w < 1 := by
  cases g with
  | float v =>
    cases b with
    | float w =>
      by_cases h : v < 0 ∨ v ≥ 1
      · simp only [adamArgs, GD.checkParam, h, if_true]
        constructor
        · rintro ⟨k, hk⟩; cases hk
        · rintro ⟨_, _, h1, h2, h3, h4, _, _⟩; cases h1; rcases h with h | h <;> linarith
      · by_cases h' : w < 0 ∨ w ≥ 1
        · simp only [adamArgs, GD.checkParam, h, h', if_true, if_false]
          constructor
          · rintro ⟨k, hk⟩; cases hk
          · rintro ⟨_, _, h1, h2, _, _, h3, h4⟩; cases h2; rcases h' with h' | h' <;> linarith
        · simp only [adamArgs, GD.checkParam, h, h', if_false]
          push Not at h h'
          exact ⟨fun _ => ⟨v, w, rfl, rfl, h.1, h.2, h'.1, h'.2⟩, fun _ => ⟨_, rfl⟩⟩
    | int w => simp [adamArgs, GD.checkParam]
    | other => simp [adamArgs, GD.checkParam]
  | int v => simp [adamArgs, GD.checkParam]
  | other => simp [adamArgs, GD.checkParam]

/-! ## C53 -/

/-- C53: vanilla gradient descent is exactly the proximal gradient recursion, for every history of indices
and gradient functions, every prox and every step-size rule. -/
theorem C53_vanilla_recursion (x : ι → 𝕜) (prox : (ι → 𝕜) → (ι → ℝ) → (ι → 𝕜)) (eta eps : ℝ)
    (f : Option (ℝ → ℕ → ℝ)) (n : ℕ) (hn : n ≠ 0) (st : Option ℝ) (h : History ι 𝕜) :
    ∃ c s t, GD.init .vanilla x prox (.float eta) (.float eps) f n st = .ok (c, s) ∧ run c h s = .ok t ∧
      (t.xNew, t.eta) = proxGrad (fun x e g i => x i - (e : 𝕜) * g i) (fun x e => prox x fun _ => e)
        (fun e k => match f with | none => e | some f => f e k) n h (x, eta) := by
  refine ⟨_, _, _, rfl, run_eq _ hn h _, ?_⟩
  have key : ∀ (h : History ι 𝕜) (s : GD.St ι 𝕜), s.xNew = s.xOld → s.speed = (fun _ => 1) →
      ((gdRun (⟨.vanilla, n, 0, f, prox⟩ : Conf ι 𝕜) h s).xNew,
       (gdRun (⟨.vanilla, n, 0, f, prox⟩ : Conf ι 𝕜) h s).eta) =
      proxGrad (fun x e g i => x i - (e : 𝕜) * g i) (fun x e => prox x fun _ => e)
        (fun e k => match f with | none => e | some f => f e k) n h (s.xOld, s.eta) := by
    intro h
    induction h with
    | nil => intro s h1 _; simp [gdRun, proxGrad, h1]
    | cons p h ih =>
      intro s h1 h2
      obtain ⟨k, g⟩ := p
      have e1 : (gdNext (⟨.vanilla, n, 0, f, prox⟩ : Conf ι 𝕜) k g s).speed = (fun _ => 1) := by
        rw [next_speed]; simpa [prepare, updateSpeed, updateDir] using h2
      simp only [gdRun, proxGrad]
      rw [ih _ rfl e1, next_eta]
      congr 2
      have e2 : stepOf (⟨.vanilla, n, 0, f, prox⟩ : Conf ι 𝕜) { s with dir := g s.xOld } = fun _ => s.eta := by
        funext i; simp [stepOf, h2]
      simp only [gdNext, prepare, updateDir, updateSpeed, e2, GD.reset]
      split <;> rfl
  exact key h _ rfl rfl

/-- C53: `epoch_size = 0` raises `ZeroDivisionError` in the first update. -/
theorem C53_zero_epoch (c : Conf ι 𝕜) (hc : c.epochSize = 0) (idx : ℕ) (g : (ι → 𝕜) → ι → 𝕜)
    (h : History ι 𝕜) (s : GD.St ι 𝕜) : run c ((idx, g) :: h) s = .error .zeroDivisionError := by
  simp [run, gd_update, hc]

/-! ## C54 -/

theorem ada_speed (c : Conf ι 𝕜) (hk : c.kind = .ada) (h : History ι 𝕜) (s : GD.St ι 𝕜) (i : ι) :
    (gdRun c h s).speed i = s.speed i + ((seen c h s).map fun p => ‖p.2 i‖ ^ 2).sum := by
  induction h generalizing s with
  | nil => simp [gdRun, seen]
  | cons p h ih =>
    obtain ⟨k, g⟩ := p
    simp only [gdRun, seen, ih, next_speed, prepare, updateSpeed, updateDir, hk, List.map_cons, List.sum_cons]
    ring

/-- C54: AdaGrad's accumulator is the sum of the squared moduli of all gradients seen since construction. -/
theorem C54_ada_accumulator (x : ι → 𝕜) (prox : (ι → 𝕜) → (ι → ℝ) → (ι → 𝕜)) (eta eps : ℝ)
    (f : Option (ℝ → ℕ → ℝ)) (n : ℕ) (hn : n ≠ 0) (st : Option ℝ) (h : History ι 𝕜) :
    ∃ c s t, GD.init .ada x prox (.float eta) (.float eps) f n st = .ok (c, s) ∧ run c h s = .ok t ∧
      ∀ i, t.speed i = ((seen c h s).map fun p => ‖p.2 i‖ ^ 2).sum := by
  refine ⟨_, _, _, rfl, run_eq _ hn h _, fun i => ?_⟩
  rw [ada_speed _ rfl]
  simp [initSpeed]

/-- C54: with a constant `η ≥ 0` and `ε > 0` AdaGrad's effective steps never increase: each coordinate's step
after a longer history is at most the one after any prefix. -/
theorem C54_ada_steps_nonincreasing (c : Conf ι 𝕜) (hk : c.kind = .ada) (hf : c.etaUpdate = none)
    (he : 0 < c.eps) (s : GD.St ι 𝕜) (hs : ∀ i, 0 ≤ s.speed i) (heta : 0 ≤ s.eta) (h h' : History ι 𝕜)
    (i : ι) : stepOf c (gdRun c (h ++ h') s) i ≤ stepOf c (gdRun c h s) i := by
  have heta' : ∀ (h : History ι 𝕜) (s : GD.St ι 𝕜), (gdRun c h s).eta = s.eta := by
    intro h
    induction h with
    | nil => intro s; rfl
    | cons p h ih => intro s; simp [gdRun, ih, next_eta, hf]
  have nn : ∀ l : List (ℕ × (ι → 𝕜)), 0 ≤ (l.map fun p => ‖p.2 i‖ ^ 2).sum := by
    intro l
    apply List.sum_nonneg
    intro a ha
    obtain ⟨p, _, rfl⟩ := List.mem_map.1 ha
    positivity
  have h0 : 0 ≤ (gdRun c h s).speed i := by
    rw [ada_speed c hk]; exact add_nonneg (hs i) (nn _)
  have h1 : (gdRun c h s).speed i ≤ (gdRun c (h ++ h') s).speed i := by
    rw [gdRun_append, ada_speed c hk h']
    linarith [nn (seen c h' (gdRun c h s))]
  simp only [stepOf, heta']
  apply div_le_div_of_nonneg_left heta
  · have := Real.sqrt_nonneg ((gdRun c h s).speed i); linarith
  · have := Real.sqrt_le_sqrt h1; linarith

/-- C54: RMSprop's accumulator in closed form, `γᵏ s₀ + (1-γ) ∑ⱼ γ^(k-1-j) |gⱼ|²`. -/
theorem C54_rmsprop_accumulator (c : Conf ι 𝕜) (γ : ℝ) (hk : c.kind = .rmsprop γ) (h : History ι 𝕜)
    (s : GD.St ι 𝕜) (i : ι) :
    (gdRun c h s).speed i =
      γ ^ h.length * s.speed i + (1 - γ) * decaySum γ ((seen c h s).map fun p => ‖p.2 i‖ ^ 2) := by
  induction h generalizing s with
  | nil => simp [gdRun, seen, decaySum]
  | cons p h ih =>
    obtain ⟨k, g⟩ := p
    simp only [gdRun, seen, ih, next_speed, prepare, updateSpeed, updateDir, hk, List.map_cons, decaySum,
      List.length_map, seen_length, List.length_cons]
    ring

/-- C54: RMSprop's accumulator stays between 0 and any bound on the squared gradients (from construction, with
an accepted `γ`). -/
theorem C54_rmsprop_bounded (c : Conf ι 𝕜) (γ : ℝ) (h0 : 0 ≤ γ) (h1 : γ ≤ 1) (hk : c.kind = .rmsprop γ)
    (h : History ι 𝕜) (s : GD.St ι 𝕜) (i : ι) (M : ℝ) (hs : 0 ≤ s.speed i ∧ s.speed i ≤ M)
    (hM : ∀ p ∈ seen c h s, ‖p.2 i‖ ^ 2 ≤ M) :
    0 ≤ (gdRun c h s).speed i ∧ (gdRun c h s).speed i ≤ M := by
  induction h generalizing s with
  | nil => exact hs
  | cons p h ih =>
    obtain ⟨k, g⟩ := p
    simp only [seen, List.mem_cons, forall_eq_or_imp] at hM
    refine ih _ ?_ hM.2
    have e : (gdNext c k g s).speed i = γ * s.speed i + (1 - γ) * ‖g s.xOld i‖ ^ 2 := by
      rw [next_speed]
      simp only [prepare, updateSpeed, updateDir, hk]
    rw [e]
    have hg := hM.1
    have hg0 : 0 ≤ ‖g s.xOld i‖ ^ 2 := by positivity
    have h1' : 0 ≤ 1 - γ := by linarith
    constructor
    · have := mul_nonneg h0 hs.1; have := mul_nonneg h1' hg0; linarith
    · have a := mul_le_mul_of_nonneg_left hs.2 h0
      have b := mul_le_mul_of_nonneg_left hg h1'
      nlinarith

/-! ## C55 -/

/-- C55, refuted for the default `epoch_size = 1`: whatever `β`, the iterates of `MomentumGradOpt` are those of
`VanillaGenericGradOpt`, for every problem and every history: momentum is never used. -/
theorem C55_momentum_is_vanilla (β : ℝ) (x : ι → 𝕜) (prox : (ι → 𝕜) → (ι → ℝ) → (ι → 𝕜)) (eta eps : NumArg)
    (f : Option (ℝ → ℕ → ℝ)) (st : Option ℝ) (h : History ι 𝕜) (c c' : Conf ι 𝕜) (s s' : GD.St ι 𝕜)
    (hm : GD.init (.momentum β) x prox eta eps f 1 st = .ok (c, s))
    (hv : GD.init .vanilla x prox eta eps f 1 st = .ok (c', s')) :
    ∃ t t', run c h s = .ok t ∧ run c' h s' = .ok t' ∧ t.xNew = t'.xNew ∧ t.eta = t'.eta := by
  cases eta with
  | int v => simp [GD.init, GD.checkParam] at hm
  | other => simp [GD.init, GD.checkParam] at hm
  | float eta =>
  cases eps with
  | int v => simp [GD.init, GD.checkParam] at hm
  | other => simp [GD.init, GD.checkParam] at hm
  | float eps =>
  simp only [GD.init, GD.checkParam, Except.ok.injEq, Prod.mk.injEq] at hm hv
  obtain ⟨rfl, rfl⟩ := hm
  obtain ⟨rfl, rfl⟩ := hv
  refine ⟨_, _, run_eq _ one_ne_zero h _, run_eq _ one_ne_zero h _, ?_⟩
  have key : ∀ (h : History ι 𝕜) (a b : GD.St ι 𝕜), a.xNew = b.xNew → a.xOld = b.xOld → a.eta = b.eta →
      a.dir = (fun _ => 0) → a.speed = (fun _ => 1) → b.speed = (fun _ => 1) →
      (gdRun (⟨.momentum β, 1, 0, f, prox⟩ : Conf ι 𝕜) h a).xNew =
        (gdRun (⟨.vanilla, 1, 0, f, prox⟩ : Conf ι 𝕜) h b).xNew ∧
      (gdRun (⟨.momentum β, 1, 0, f, prox⟩ : Conf ι 𝕜) h a).eta =
        (gdRun (⟨.vanilla, 1, 0, f, prox⟩ : Conf ι 𝕜) h b).eta := by
    intro h
    induction h with
    | nil => intro a b h1 _ h3 _ _ _; exact ⟨h1, h3⟩
    | cons p h ih =>
      intro a b h1 h2 h3 h4 h5 h6
      obtain ⟨k, g⟩ := p
      simp only [gdRun]
      have hx : (gdNext (⟨.momentum β, 1, 0, f, prox⟩ : Conf ι 𝕜) k g a).xNew =
          (gdNext (⟨.vanilla, 1, 0, f, prox⟩ : Conf ι 𝕜) k g b).xNew := by
        have sa : stepOf (⟨.momentum β, 1, 0, f, prox⟩ : Conf ι 𝕜)
            { a with dir := fun i => (β : 𝕜) * a.dir i + g a.xOld i } = fun _ => b.eta := by
          funext i; simp [stepOf, h5, h3]
        have sb : stepOf (⟨.vanilla, 1, 0, f, prox⟩ : Conf ι 𝕜) { b with dir := g b.xOld } = fun _ => b.eta := by
          funext i; simp [stepOf, h6]
        simp only [gdNext, prepare, updateDir, updateSpeed, GD.reset, sa, sb, if_pos (Nat.mod_one k)]
        simp [h2, h4]
      refine ih _ _ hx hx ?_ ?_ ?_ ?_
      · rw [next_eta, next_eta, h3]
      · simp only [gdNext, prepare, updateDir, updateSpeed, GD.reset, if_pos (Nat.mod_one k)]
      · rw [next_speed]; simpa [prepare, updateDir, updateSpeed] using h5
      · rw [next_speed]; simpa [prepare, updateDir, updateSpeed] using h6
  exact key h _ _ rfl rfl rfl rfl rfl rfl

theorem momentum_dir (c : Conf ι 𝕜) (β : ℝ) (hk : c.kind = .momentum β) (h : History ι 𝕜)
    (hr : ∀ p ∈ h, p.1 % c.epochSize ≠ 0) (s : GD.St ι 𝕜) (i : ι) :
    (gdRun c h s).dir i =
      (β : 𝕜) ^ h.length * s.dir i + decaySum (β : 𝕜) ((seen c h s).map fun p => p.2 i) := by
  induction h generalizing s with
  | nil => simp [gdRun, seen, decaySum]
  | cons p h ih =>
    obtain ⟨k, g⟩ := p
    simp only [List.mem_cons, forall_eq_or_imp] at hr
    simp only [gdRun, seen, ih hr.2, next_dir c k g s (.inr hr.1), updateDir, hk, List.map_cons, decaySum,
      List.length_map, seen_length, List.length_cons]
    ring

/-- C55, partial: since the last update whose index is a multiple of `epoch_size` (where the direction is reset
to zero) the direction is `∑ⱼ β^(k-j) gⱼ`.  Missing for the full claim: gradients from before the reset,
including always the first one (index 0), are forgotten. -/
theorem C55_momentum_between_resets_partial (c : Conf ι 𝕜) (β : ℝ) (hk : c.kind = .momentum β)
    (hn : c.epochSize ≠ 0) (h₁ h₂ : History ι 𝕜) (k : ℕ) (g : (ι → 𝕜) → ι → 𝕜) (hk0 : k % c.epochSize = 0)
    (hr : ∀ p ∈ h₂, p.1 % c.epochSize ≠ 0) (s : GD.St ι 𝕜) :
    ∃ m t, run c (h₁ ++ [(k, g)]) s = .ok m ∧ run c (h₁ ++ (k, g) :: h₂) s = .ok t ∧
      ∀ i, t.dir i = decaySum (β : 𝕜) ((seen c h₂ m).map fun p => p.2 i) := by
  refine ⟨_, _, run_eq c hn _ s, run_eq c hn _ s, fun i => ?_⟩
  rw [show h₁ ++ (k, g) :: h₂ = (h₁ ++ [(k, g)]) ++ h₂ by simp, gdRun_append,
    momentum_dir c β hk h₂ hr]
  have : (gdRun c (h₁ ++ [(k, g)]) s).dir = fun _ => 0 := by
    rw [gdRun_append]
    simp [gdRun, gdNext, hk0, GD.reset, hk]
  rw [this]
  simp

/-! ## C56 -/

/-- The factor of ADAM's first moment estimate for a constant gradient after `k` updates, as the code
computes it. -/
noncomputable def adamFactor (β : ℝ) : ℕ → ℝ
  | 0 => 0
  | k + 1 => (β * adamFactor β k + (1 - β)) / (1 - β ^ (k + 1))

theorem adam_dir (c : Conf ι 𝕜) (γ β : ℝ) (hk : c.kind = .adam γ β) (g : ι → 𝕜) (h : History ι 𝕜)
    (hc : ∀ p ∈ h, p.2 = fun _ => g) (s : GD.St ι 𝕜) (k : ℕ) (h1 : s.betaPow = β ^ k)
    (h2 : ∀ i, s.dir i = (adamFactor β k : 𝕜) * g i) (i : ι) :
    (gdRun c h s).dir i = (adamFactor β (k + h.length) : 𝕜) * g i := by
  induction h generalizing s k with
  | nil => exact h2 i
  | cons p h ih =>
    obtain ⟨j, g'⟩ := p
    simp only [List.mem_cons, forall_eq_or_imp] at hc
    simp only [gdRun, List.length_cons]
    rw [show k + (h.length + 1) = (k + 1) + h.length by ring]
    refine ih hc.2 _ (k + 1) ?_ fun i => ?_
    · rw [next_betaPow]
      simp only [prepare, (updateSpeed_rest c _ _).2.2.2.1, updateDir, hk, h1, pow_succ]
    · rw [next_dir c j g' s (.inl fun b hb => by rw [hk] at hb; cases hb)]
      simp only [updateDir, hk, h1, h2 i, show g' s.xOld i = g i by rw [hc.1], adamFactor, ← pow_succ]
      push_cast
      ring

theorem adam_betaPow (c : Conf ι 𝕜) (γ β : ℝ) (hk : c.kind = .adam γ β) (h : History ι 𝕜) (s : GD.St ι 𝕜) :
    (gdRun c h s).betaPow = s.betaPow * β ^ h.length ∧ (gdRun c h s).gammaPow = s.gammaPow * γ ^ h.length := by
  induction h generalizing s with
  | nil => simp [gdRun]
  | cons p h ih =>
    obtain ⟨j, g'⟩ := p
    simp only [gdRun, ih, next_betaPow, next_gammaPow, List.length_cons]
    simp only [prepare, updateSpeed, updateDir, hk]
    constructor <;> ring

/-- C56: the divisors `1 - βᵏ`, `1 - γᵏ` of every update are positive, for every accepted `β`, `γ`. -/
theorem C56_divisors_positive (γ β : ℝ) (hγ : 0 ≤ γ ∧ γ < 1) (hβ : 0 ≤ β ∧ β < 1) (x : ι → 𝕜)
    (prox : (ι → 𝕜) → (ι → ℝ) → (ι → 𝕜)) (eta eps : ℝ) (f : Option (ℝ → ℕ → ℝ)) (n : ℕ) (hn : n ≠ 0)
    (st : Option ℝ) (h : History ι 𝕜) (hh : h ≠ []) :
    ∃ c s t, GD.init (.adam γ β) x prox (.float eta) (.float eps) f n st = .ok (c, s) ∧ run c h s = .ok t ∧
      0 < 1 - t.betaPow ∧ 0 < 1 - t.gammaPow := by
  refine ⟨_, _, _, rfl, run_eq _ hn h _, ?_⟩
  have hl : h.length ≠ 0 := by simpa using hh
  rw [(adam_betaPow _ γ β rfl h _).1, (adam_betaPow _ γ β rfl h _).2]
  have a := pow_lt_one₀ hβ.1 hβ.2 hl
  have b := pow_lt_one₀ hγ.1 hγ.2 hl
  constructor <;> simp only [one_mul] <;> linarith

theorem adamFactor_gt_one (β : ℝ) (h0 : 0 < β) (h1 : β < 1) (k : ℕ) : 1 < adamFactor β (k + 2) := by
  have a1 : adamFactor β 1 = 1 := by
    have : (1 : ℝ) - β ≠ 0 := by linarith
    simp [adamFactor, this]
  have step : ∀ m, 1 ≤ adamFactor β m → 1 < adamFactor β (m + 1) := by
    intro m hm
    have hp : 0 < β ^ (m + 1) := by positivity
    have hq : β ^ (m + 1) < 1 := pow_lt_one₀ h0.le h1 (by omega)
    rw [adamFactor, lt_div_iff₀ (by linarith)]
    have := mul_le_mul_of_nonneg_left hm h0.le
    linarith
  induction k with
  | zero => exact step 1 a1.ge
  | succ k ih => exact step (k + 2) ih.le

/-- C56, refuted: with a constant gradient `g`, from the second update on ADAM's first moment estimate is
strictly larger than `g` (a multiple `> 1` of it), for every `β` in `(0, 1)`: the correction is applied to the
already corrected estimate. -/
theorem C56_estimate_biased (γ β : ℝ) (h0 : 0 < β) (h1 : β < 1) (x : ι → 𝕜)
    (prox : (ι → 𝕜) → (ι → ℝ) → (ι → 𝕜)) (eta eps : ℝ) (f : Option (ℝ → ℕ → ℝ)) (n : ℕ) (hn : n ≠ 0)
    (st : Option ℝ) (g : ι → 𝕜) (h : History ι 𝕜) (hc : ∀ p ∈ h, p.2 = fun _ => g) (hl : 2 ≤ h.length) :
    ∃ c s t, GD.init (.adam γ β) x prox (.float eta) (.float eps) f n st = .ok (c, s) ∧ run c h s = .ok t ∧
      ∃ r : ℝ, 1 < r ∧ ∀ i, t.dir i = (r : 𝕜) * g i := by
  refine ⟨_, _, _, rfl, run_eq _ hn h _, adamFactor β h.length, ?_, fun i => ?_⟩
  · obtain ⟨k, hk⟩ := Nat.exists_eq_add_of_le' hl
    rw [hk]; exact adamFactor_gt_one β h0 h1 k
  · have := adam_dir (⟨.adam γ β, n, initEps (.adam γ β) eps, f, prox⟩ : Conf ι 𝕜) γ β rfl g h hc
      ⟨x, x, fun _ => 0, initSpeed (.adam γ β), eta, 1, 1, fun _ _ => 0⟩ 0 (by simp)
      (by intro i; simp [adamFactor]) i
    rw [this, zero_add]

/-- C56: the first update is unbiased, for every accepted `β` and every gradient. -/
theorem C56_first_update_unbiased (γ β : ℝ) (h1 : β < 1) (x : ι → 𝕜)
    (prox : (ι → 𝕜) → (ι → ℝ) → (ι → 𝕜)) (eta eps : ℝ) (f : Option (ℝ → ℕ → ℝ)) (n : ℕ) (hn : n ≠ 0)
    (st : Option ℝ) (idx : ℕ) (g : (ι → 𝕜) → ι → 𝕜) :
    ∃ c s t, GD.init (.adam γ β) x prox (.float eta) (.float eps) f n st = .ok (c, s) ∧
      run c [(idx, g)] s = .ok t ∧ t.dir = g x := by
  refine ⟨_, _, _, rfl, run_eq _ hn _ _, ?_⟩
  funext i
  have hb : (1 : ℝ) - β ≠ 0 := by linarith
  simp only [gdRun]
  rw [next_dir _ _ _ _ (.inl fun b hb => by cases hb)]
  simp only [updateDir, one_mul, mul_zero, zero_add]
  rw [← mul_assoc, ← RCLike.ofReal_mul, one_div, inv_mul_cancel₀ hb]
  simp

theorem adamFactor_tendsto (β : ℝ) (h0 : 0 ≤ β) (h1 : β < 1) :
    Filter.Tendsto (adamFactor β) Filter.atTop (nhds 1) := by
  -- e k = adamFactor (k+1) - 1
  set e : ℕ → ℝ := fun k => adamFactor β (k + 1) - 1 with he
  have hrec : ∀ k, e (k + 1) = (β * e k + β ^ (k + 2)) / (1 - β ^ (k + 2)) := by
    intro k
    have hq : β ^ (k + 2) < 1 := pow_lt_one₀ h0 h1 (by omega)
    have hne : 1 - β ^ (k + 2) ≠ 0 := by linarith
    have : adamFactor β (k + 2) = (β * adamFactor β (k + 1) + (1 - β)) / (1 - β ^ (k + 2)) := rfl
    simp only [he]
    rw [this, eq_div_iff hne, sub_mul, div_mul_cancel₀ _ hne]
    ring
  have e0 : e 0 = 0 := by
    have : (1 : ℝ) - β ≠ 0 := by linarith
    simp [he, adamFactor, this]
  have enn : ∀ k, 0 ≤ e k := by
    intro k
    induction k with
    | zero => rw [e0]
    | succ k ih =>
      have hq : β ^ (k + 2) < 1 := pow_lt_one₀ h0 h1 (by omega)
      rw [hrec]
      apply div_nonneg _ (by linarith)
      have := mul_nonneg h0 ih
      have := pow_nonneg h0 (k + 2)
      linarith
  obtain ⟨K, hK⟩ := exists_pow_lt_of_lt_one (show (0 : ℝ) < (1 - β) / 2 by linarith) h1
  set ρ : ℝ := 2 * β / (1 + β) with hρ
  have hρ0 : 0 ≤ ρ := by rw [hρ]; apply div_nonneg <;> linarith
  have hρ1 : ρ < 1 := by rw [hρ, div_lt_one (by linarith)]; linarith
  have hβρ : β ≤ ρ := by
    rw [hρ, le_div_iff₀ (by linarith)]; nlinarith
  have bound : ∀ m, e (K + m) ≤ ρ ^ m * (e K + m) := by
    intro m
    induction m with
    | zero => simp
    | succ m ih =>
      have hq : β ^ (K + m + 2) ≤ (1 - β) / 2 :=
        (pow_le_pow_of_le_one h0 h1.le (by omega : K ≤ K + m + 2)).trans hK.le
      have hd : (1 + β) / 2 ≤ 1 - β ^ (K + m + 2) := by linarith
      have hnum : 0 ≤ β * e (K + m) + β ^ (K + m + 2) := by
        have := mul_nonneg h0 (enn (K + m)); have := pow_nonneg h0 (K + m + 2); linarith
      have s1 : e (K + m + 1) ≤ (β * e (K + m) + β ^ (K + m + 2)) / ((1 + β) / 2) := by
        rw [hrec]; exact div_le_div_of_nonneg_left hnum (by linarith) hd
      have s2 : (β * e (K + m) + β ^ (K + m + 2)) / ((1 + β) / 2) = ρ * (e (K + m) + β ^ (K + m + 1)) := by
        rw [hρ]; field_simp; ring
      have s3 : β ^ (K + m + 1) ≤ ρ ^ m := by
        calc β ^ (K + m + 1) ≤ β ^ m := pow_le_pow_of_le_one h0 h1.le (by omega)
          _ ≤ ρ ^ m := pow_le_pow_left₀ h0 hβρ m
      have s4 : ρ * (e (K + m) + β ^ (K + m + 1)) ≤ ρ * (ρ ^ m * (e K + m) + ρ ^ m) :=
        mul_le_mul_of_nonneg_left (add_le_add ih s3) hρ0
      calc e (K + (m + 1)) ≤ _ := s1
        _ = _ := s2
        _ ≤ _ := s4
        _ = ρ ^ (m + 1) * (e K + (m + 1 : ℕ)) := by push_cast; ring
  have lim : Filter.Tendsto (fun m : ℕ => ρ ^ m * (e K + m)) Filter.atTop (nhds 0) := by
    have a := (tendsto_pow_atTop_nhds_zero_of_lt_one hρ0 hρ1).mul_const (e K)
    have b := tendsto_self_mul_const_pow_of_lt_one hρ0 hρ1
    have := a.add b
    simp only [zero_mul, add_zero] at this
    refine this.congr fun m => by ring
  have lim2 : Filter.Tendsto (fun m => e (K + m)) Filter.atTop (nhds 0) :=
    squeeze_zero (fun m => enn _) bound lim
  have lim3 : Filter.Tendsto (fun m => adamFactor β (m + (K + 1))) Filter.atTop (nhds 1) := by
    have := lim2.add_const 1
    simp only [zero_add] at this
    refine this.congr fun m => ?_
    simp only [he, sub_add_cancel]
    congr 1; omega
  exact (Filter.tendsto_add_atTop_iff_nat (K + 1)).1 lim3

/-- C56, partial: the bias vanishes asymptotically.  With a constant gradient `g` the estimate after `k` updates
is `rₖ g` with `rₖ → 1`.  Missing for the full claim: `rₖ = 1` for `k ≥ 2`, which is false. -/
theorem C56_asymptotically_unbiased_partial (γ β : ℝ) (h0 : 0 ≤ β) (h1 : β < 1) (x : ι → 𝕜)
    (prox : (ι → 𝕜) → (ι → ℝ) → (ι → 𝕜)) (eta eps : ℝ) (f : Option (ℝ → ℕ → ℝ)) (n : ℕ) (hn : n ≠ 0)
    (st : Option ℝ) (g : ι → 𝕜) :
    ∃ r : ℕ → ℝ, Filter.Tendsto r Filter.atTop (nhds 1) ∧
      ∀ h : History ι 𝕜, (∀ p ∈ h, p.2 = fun _ => g) →
        ∃ c s t, GD.init (.adam γ β) x prox (.float eta) (.float eps) f n st = .ok (c, s) ∧ run c h s = .ok t ∧
          ∀ i, t.dir i = (r h.length : 𝕜) * g i := by
  refine ⟨adamFactor β, adamFactor_tendsto β h0 h1, fun h hc => ⟨_, _, _, rfl, run_eq _ hn h _, fun i => ?_⟩⟩
  have := adam_dir (⟨.adam γ β, n, initEps (.adam γ β) eps, f, prox⟩ : Conf ι 𝕜) γ β rfl g h hc
    ⟨x, x, fun _ => 0, initSpeed (.adam γ β), eta, 1, 1, fun _ _ => 0⟩ 0 (by simp)
    (by intro i; simp [adamFactor]) i
  rw [this, zero_add]

/-! ## C57, C81 -/

theorem lastInSlot_append {α : Type} [Zero α] (n j : ℕ) (l : List (ℕ × α)) (p : ℕ × α) :
    lastInSlot n j (l ++ [p]) = if p.1 % n = j then p.2 else lastInSlot n j l := by
  induction l with
  | nil => simp [lastInSlot]
  | cons q l ih =>
    simp only [List.cons_append, lastInSlot, ih]
    by_cases h : p.1 % n = j
    · simp [h]
    · have : (∃ r ∈ l ++ [p], r.1 % n = j) ↔ ∃ r ∈ l, r.1 % n = j := by
        simp only [List.mem_append, List.mem_singleton]
        constructor
        · rintro ⟨r, hr | rfl, hj⟩
          · exact ⟨r, hr, hj⟩
          · exact absurd hj h
        · rintro ⟨r, hr, hj⟩; exact ⟨r, .inl hr, hj⟩
      simp only [this, h, if_false]

theorem seen_append (c : Conf ι 𝕜) (h h' : History ι 𝕜) (s : GD.St ι 𝕜) :
    seen c (h ++ h') s = seen c h s ++ seen c h' (gdRun c h s) := by
  induction h generalizing s with
  | nil => rfl
  | cons p h ih => simp [seen, gdRun, ih]

theorem saga_inv (c : Conf ι 𝕜) (hk : c.kind = .saga) (hn : c.epochSize ≠ 0) (s : GD.St ι 𝕜)
    (hd : s.dir = fun _ => 0) (hm : s.memory = fun _ _ => 0) (h : History ι 𝕜) :
    (∀ j, (gdRun c h s).memory j = lastInSlot c.epochSize j (seen c h s)) ∧
    ∀ i, (gdRun c h s).dir i = ∑ j ∈ Finset.range c.epochSize, (gdRun c h s).memory j i := by
  induction h using List.reverseRecOn with
  | nil => exact ⟨fun j => by simp [gdRun, seen, lastInSlot, hm]; rfl, fun i => by simp [gdRun, hd, hm]⟩
  | append_singleton h p ih =>
    obtain ⟨k, g⟩ := p
    rw [gdRun_append, seen_append]
    generalize gdRun c h s = t at *
    have em : (gdNext c k g t).memory = fun j => if j = k % c.epochSize then g t.xOld else t.memory j := by
      rw [next_memory]
      simp only [prepare, (updateSpeed_rest c _ _).2.2.2.2, updateDir, hk]
    have ed : (gdNext c k g t).dir = fun i => t.dir i - t.memory (k % c.epochSize) i + g t.xOld i := by
      rw [next_dir c k g t (.inl fun b hb => by rw [hk] at hb; cases hb)]
      simp only [updateDir, hk]
    refine ⟨fun j => ?_, fun i => ?_⟩
    · simp only [gdRun, seen, em, lastInSlot_append, ih.1 j]
      by_cases h : j = k % c.epochSize
      · simp [h]
      · simp [h, Ne.symm h]
    · simp only [gdRun, em, ed, ih.2 i]
      have hmem : k % c.epochSize ∈ Finset.range c.epochSize :=
        Finset.mem_range.2 (Nat.mod_lt _ (Nat.pos_of_ne_zero hn))
      rw [← Finset.add_sum_erase _ _ hmem, ← Finset.add_sum_erase _ (fun j => (if j = k % c.epochSize then g t.xOld else t.memory j) i) hmem]
      have : ∑ j ∈ (Finset.range c.epochSize).erase (k % c.epochSize), (if j = k % c.epochSize then g t.xOld else t.memory j) i
          = ∑ j ∈ (Finset.range c.epochSize).erase (k % c.epochSize), t.memory j i := by
        apply Finset.sum_congr rfl
        intro j hj
        rw [if_neg (Finset.ne_of_mem_erase hj)]
      rw [this]
      simp
      ring

/-- C57: after any history the direction of `SAGAOptGradOpt` is the sum over the epoch slots of the most
recent gradient seen in that slot (zero for slots not visited yet). -/
theorem C57_saga_direction (x : ι → 𝕜) (prox : (ι → 𝕜) → (ι → ℝ) → (ι → 𝕜)) (eta eps : ℝ)
    (f : Option (ℝ → ℕ → ℝ)) (n : ℕ) (hn : n ≠ 0) (st : Option ℝ) (h : History ι 𝕜) :
    ∃ c s t, GD.init .saga x prox (.float eta) (.float eps) f n st = .ok (c, s) ∧ run c h s = .ok t ∧
      ∀ i, t.dir i = ∑ j ∈ Finset.range n, lastInSlot n j (seen c h s) i := by
  refine ⟨_, _, _, rfl, run_eq _ hn h _, fun i => ?_⟩
  obtain ⟨h1, h2⟩ := saga_inv (⟨.saga, n, initEps .saga eps, f, prox⟩ : Conf ι 𝕜) rfl hn
    ⟨x, x, fun _ => 0, initSpeed .saga, eta, 1, 1, fun _ _ => 0⟩ rfl rfl h
  rw [h2 i]
  exact Finset.sum_congr rfl fun j _ => by rw [h1 j]

/-- Equation (7) of Defazio, Bach and Lacoste-Julien (SAGA): new gradient minus stored gradient plus the
*average* of the stored gradients. -/
noncomputable def sagaDirection (n : ℕ) (stored : ℕ → 𝕜) (cycle : ℕ) (g : 𝕜) : 𝕜 :=
  g - stored cycle + (1 / n : 𝕜) * ∑ j ∈ Finset.range n, stored j

/-- Equation (8) of the same paper (SAG): the difference is averaged too. -/
noncomputable def sagDirection (n : ℕ) (stored : ℕ → 𝕜) (cycle : ℕ) (g : 𝕜) : 𝕜 :=
  (1 / n : 𝕜) * (g - stored cycle) + (1 / n : 𝕜) * ∑ j ∈ Finset.range n, stored j

/-- C81, refuted: in every reachable state the direction used by the next update of `SAGAOptGradOpt` is
`n` times the SAG direction (equation 8). -/
theorem C81_direction_is_scaled_sag (x : ι → 𝕜) (prox : (ι → 𝕜) → (ι → ℝ) → (ι → 𝕜)) (eta eps : ℝ)
    (f : Option (ℝ → ℕ → ℝ)) (n : ℕ) (hn : n ≠ 0) (st : Option ℝ) (h : History ι 𝕜) (k : ℕ)
    (g : (ι → 𝕜) → ι → 𝕜) :
    ∃ c s t t', GD.init .saga x prox (.float eta) (.float eps) f n st = .ok (c, s) ∧ run c h s = .ok t ∧
      run c (h ++ [(k, g)]) s = .ok t' ∧
      ∀ i, t'.dir i = (n : 𝕜) * sagDirection n (fun j => t.memory j i) (k % n) (g t.xOld i) := by
  refine ⟨_, _, _, _, rfl, run_eq _ hn h _, run_eq _ hn _ _, fun i => ?_⟩
  obtain ⟨-, h2⟩ := saga_inv (⟨.saga, n, initEps .saga eps, f, prox⟩ : Conf ι 𝕜) rfl hn
    ⟨x, x, fun _ => 0, initSpeed .saga, eta, 1, 1, fun _ _ => 0⟩ rfl rfl h
  rw [gdRun_append]
  generalize gdRun _ h _ = t at *
  simp only [gdRun]
  rw [next_dir _ k g t (.inl fun b hb => by cases hb)]
  have hn' : (n : 𝕜) ≠ 0 := Nat.cast_ne_zero.2 hn
  simp only [updateDir, sagDirection, h2 i]
  field_simp
  ring

/-- C81, refuted: it agrees with the documented SAGA direction (equation 7) exactly when `n = 1` or the stored
gradients sum to zero. -/
theorem C81_agrees_with_saga_iff (x : ι → 𝕜) (prox : (ι → 𝕜) → (ι → ℝ) → (ι → 𝕜)) (eta eps : ℝ)
    (f : Option (ℝ → ℕ → ℝ)) (n : ℕ) (hn : n ≠ 0) (st : Option ℝ) (h : History ι 𝕜) (k : ℕ)
    (g : (ι → 𝕜) → ι → 𝕜) (i : ι) :
    ∃ c s t t', GD.init .saga x prox (.float eta) (.float eps) f n st = .ok (c, s) ∧ run c h s = .ok t ∧
      run c (h ++ [(k, g)]) s = .ok t' ∧
      (t'.dir i = sagaDirection n (fun j => t.memory j i) (k % n) (g t.xOld i) ↔
        n = 1 ∨ ∑ j ∈ Finset.range n, t.memory j i = 0) := by
  refine ⟨_, _, _, _, rfl, run_eq _ hn h _, run_eq _ hn _ _, ?_⟩
  obtain ⟨-, h2⟩ := saga_inv (⟨.saga, n, initEps .saga eps, f, prox⟩ : Conf ι 𝕜) rfl hn
    ⟨x, x, fun _ => 0, initSpeed .saga, eta, 1, 1, fun _ _ => 0⟩ rfl rfl h
  rw [gdRun_append]
  generalize gdRun _ h _ = t at *
  simp only [gdRun]
  rw [next_dir _ k g t (.inl fun b hb => by cases hb)]
  have hn' : (n : 𝕜) ≠ 0 := Nat.cast_ne_zero.2 hn
  simp only [updateDir, sagaDirection]
  rw [h2 i]
  generalize ∑ j ∈ Finset.range n, t.memory j i = S
  constructor
  · intro e
    have e1 : S = (1 / n : 𝕜) * S := by linear_combination e
    have e2 : ((n : 𝕜) - 1) * S = 0 := by
      have := congrArg (fun z => (n : 𝕜) * z) e1
      rw [← mul_assoc, mul_one_div_cancel hn', one_mul] at this
      linear_combination this
    rcases mul_eq_zero.1 e2 with e | e
    · left
      have : (n : 𝕜) = (1 : ℕ) := by rw [Nat.cast_one]; linear_combination e
      exact Nat.cast_injective this
    · exact .inr e
  · rintro (e | e)
    · subst e; simp; ring
    · rw [e]; ring

/-! ## C80 -/

/-- C80, refuted: the documented step is `η/√(s+ε)`, the code uses `η/(√s+ε)`.  For `η ≠ 0`, `s ≥ 0`, `ε > 0` the
two agree exactly when `2√s + ε = 1`. -/
theorem C80_step_not_as_documented (c : Conf ι 𝕜) (s : GD.St ι 𝕜) (i : ι) (hs : 0 ≤ s.speed i)
    (he : 0 < c.eps) (hη : s.eta ≠ 0) :
    stepOf c s i = s.eta / Real.sqrt (s.speed i + c.eps) ↔ 2 * Real.sqrt (s.speed i) + c.eps = 1 := by
  have hr := Real.sqrt_nonneg (s.speed i)
  have h1 : 0 < Real.sqrt (s.speed i) + c.eps := by linarith
  have h2 : 0 < Real.sqrt (s.speed i + c.eps) := Real.sqrt_pos.2 (by linarith)
  have hsq := Real.sq_sqrt hs
  have hsq2 := Real.sq_sqrt (show 0 ≤ s.speed i + c.eps by linarith)
  rw [stepOf, div_eq_div_iff h1.ne' h2.ne', mul_right_inj' hη]
  generalize Real.sqrt (s.speed i) = r at *
  generalize Real.sqrt (s.speed i + c.eps) = q at *
  constructor
  · intro e
    have : c.eps * (2 * r + c.eps - 1) = 0 := by subst e; nlinarith
    rcases mul_eq_zero.1 this with h | h <;> linarith
  · intro e
    have : q ^ 2 = (r + c.eps) ^ 2 := by
      have : c.eps * (2 * r + c.eps) = c.eps := by rw [e, mul_one]
      nlinarith
    exact (pow_left_inj₀ h2.le h1.le two_ne_zero).1 this

/-- C80: in particular the classes that never update the speed (`GenericGradOpt`, `SAGAOptGradOpt`) step with
`η/ε`, a million times `η` for the default `ε = 1e-6`. -/
theorem C80_generic_step (k : Kind) (hk : k = .generic ∨ k = .saga) (x : ι → 𝕜)
    (prox : (ι → 𝕜) → (ι → ℝ) → (ι → 𝕜)) (eta eps : ℝ) (f : Option (ℝ → ℕ → ℝ)) (n : ℕ) (hn : n ≠ 0)
    (st : Option ℝ) (h : History ι 𝕜) :
    ∃ c s t, GD.init k x prox (.float eta) (.float eps) f n st = .ok (c, s) ∧ run c h s = .ok t ∧
      ∀ i, stepOf c t i = t.eta / eps := by
  refine ⟨_, _, _, rfl, run_eq _ hn h _, fun i => ?_⟩
  have key : ∀ (c : Conf ι 𝕜) (hk : c.kind = .generic ∨ c.kind = .saga) (h : History ι 𝕜) (s : GD.St ι 𝕜),
      (gdRun c h s).speed = s.speed := by
    intro c hk h
    induction h with
    | nil => intro s; rfl
    | cons p h ih =>
      intro s
      obtain ⟨j, g⟩ := p
      simp only [gdRun]
      rw [ih, next_speed, prepare, updateSpeed]
      rcases hk with hk | hk <;> simp [hk, (updateDir_rest c j _ s).1]
  simp only [stepOf]
  rw [key _ hk]
  rcases hk with rfl | rfl <;> simp [initSpeed, initEps]

end

/-! ## Non-vacuity -/

/-- ADAM on a constant gradient 2 with `β = 1/2`: the second estimate is `8/3`. -/
example : ∃ t, run (ι := Unit) (𝕜 := ℝ) ⟨.adam (1 / 2) (1 / 2), 1, 1, none, fun x _ => x⟩
    [(0, fun _ _ => 2), (1, fun _ _ => 2)]
    ⟨fun _ => 0, fun _ => 0, fun _ => 0, fun _ => 0, 1, 1, 1, fun _ _ => 0⟩ = .ok t ∧ t.dir () = 8 / 3 := by
  refine ⟨_, run_eq _ one_ne_zero _ _, ?_⟩
  simp [gdRun, gdNext, prepare, updateDir, updateSpeed, GD.reset]
  norm_num
/-- SAGA with two slots and four updates. -/
example : lastInSlot 2 0 [(0, (5 : ℝ)), (1, 7), (2, 9), (3, 11)] = 9 ∧
    lastInSlot 2 1 [(0, (5 : ℝ)), (1, 7), (2, 9), (3, 11)] = 11 := by
  constructor <;> simp [lastInSlot]
/-- A history with a reset in the middle, epochs of size 3. -/
example : (3 : ℕ) % 3 = 0 ∧ ∀ p ∈ ([(4, id), (5, id)] : History Unit ℝ), p.1 % 3 ≠ 0 := by
  simp
example : decaySum (1 / 2 : ℝ) [4, 2, 1] = 3 := by norm_num [decaySum]

end Verif
