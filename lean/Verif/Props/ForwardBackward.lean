import Verif.Lemmas.FB
import Verif.Props.Fista
import Mathlib.Analysis.Calculus.Deriv.Pow

/-!
# C41–C45: `ForwardBackward`

`Φ = F + g` on `C`: a smooth convex `F` with gradient `G`, and a convex `g` constrained to `C`, whose
proximity operator `prox` is exact.  Runs are runs of the driver of `Verif.Model.Loop` with arbitrary
metrics, observers and cost objects.
-/

set_option linter.unusedSectionVars false

namespace Verif
open FB Loop Spec Fista RealInnerProductSpace

section
variable {E : Type} [NormedAddCommGroup E] [InnerProductSpace ℝ E] {S U M K : Type}

/-- The operator `prox.op(y, extra_factor=b)` is the exact proximity operator of `b·g` on `C`. -/
def ExactProx (C : Set E) (g : E → ℝ) (prox : E → ℝ → E) : Prop :=
  ∀ y b, 0 < b → IsProxOn C (fun u => b * g u) y (prox y b)

/-- Everything around the iterations that a user can choose: observers, their flags, the cost object,
metrics and period. -/
structure Surroundings (S E M K : Type) where
  notify : ℕ → St S E → M → Py M
  flag : M → Bool
  getCost : St S E → K → Py (Bool × K)
  hasCost : Bool
  hasMetrics : Bool
  period : Option ℕ
  obs : M
  cost : K

/-- `iterate(max_iter)` on an object in state `s`. -/
def fbRun (G : E → E) (prox : E → ℝ → E) (R : Rules S E) (A : Surroundings S E M K) (m : ℕ) (s : St S E) :
    Run (Loop.Obj (St S E) M K) :=
  runAlg (objAlg (parts G prox R A.notify A.flag A.getCost A.hasCost) .flagsOrCost A.hasMetrics A.period) m
    ⟨s, A.obs, A.cost, false⟩

/-- State after `n` updates. -/
def afterSteps (G : E → E) (prox : E → ℝ → E) (R : Rules S E) (s : St S E) : ℕ → St S E
  | 0 => s
  | n + 1 => step G prox R (afterSteps G prox R s n)

theorem fbRun_state {G : E → E} {prox : E → ℝ → E} {R : Rules S E} {A : Surroundings S E M K} {m : ℕ}
    {s : St S E} {o : Loop.Obj (St S E) M K} (h : (fbRun G prox R A m s).result = .ok o) :
    (updates (fbRun G prox R A m s).trace).length ≤ m ∧
    (0 < m → 0 < (updates (fbRun G prox R A m s).trace).length) ∧
    o.x = afterSteps G prox R s (updates (fbRun G prox R A m s).trace).length := by
  obtain ⟨h1, h2, h3⟩ := runAlg_orbit (f := fun _ s => step G prox R s) (fun k x => rfl) _ _ h
  refine ⟨h1, h2, h3.trans ?_⟩
  have key : ∀ n, orbit (fun _ s => step G prox R s) s n = afterSteps G prox R s n := by
    intro n
    induction n with
    | zero => rfl
    | succ n ih => rw [orbit, ih]; rfl
  exact key _

theorem step_xNew (G : E → E) (prox : E → ℝ → E) (R : Rules S E) (s : St S E) :
    (step G prox R s).xNew = some (step G prox R s).xOld ∧
    (step G prox R s).zNew = some (step G prox R s).zOld := ⟨rfl, rfl⟩

/-! ## C41 -/

/-- C41: a forward-backward update, with whatever relaxation and restart rules, leaves `(x, x)` unchanged
exactly when `x` minimises `F + g` over `C`. -/
theorem C41_fixed_points_are_minimisers {C : Set E} {F g : E → ℝ} {G : E → E} {prox : E → ℝ → E}
    (hg : ConvexOn ℝ C g) (hF : AboveTangents F G) (hd : ∀ x, HasFDerivAt F (innerSL ℝ (G x)) x)
    (hp : ExactProx C g prox) (R : Rules S E) (s : St S E) (x : E) (hb : 0 < s.beta) (hx : s.xOld = x)
    (hz : s.zOld = x) :
    ((step G prox R s).xOld = x ∧ (step G prox R s).zOld = x) ↔ Minimises C (fun u => F u + g u) x := by
  have hpr := hp (x - s.beta • G x) s.beta hb
  have hnew : (step G prox R s).xOld = prox (x - s.beta • G x) s.beta := by simp [step, hz]
  have hiff : prox (x - s.beta • G x) s.beta = x ↔ Minimises C (fun u => F u + g u) x := by
    constructor
    · intro h
      rw [h] at hpr
      apply minimises_of_first_order hF hpr.1
      intro u hu
      have := hpr.variational hg hb.le hu
      have e : x - s.beta • G x - x = -(s.beta • G x) := by abel
      rw [e, inner_neg_left, real_inner_smul_left] at this
      have h2 : s.beta * (g x - g u) ≤ s.beta * ⟪G x, u - x⟫ := by linarith
      exact le_of_mul_le_mul_left h2 hb
    · intro h
      set p := prox (x - s.beta • G x) s.beta
      have h1 := hpr.variational hg hb.le h.1
      have h2 := h.first_order hg (hd x) hpr.1
      have e : ⟪x - s.beta • G x - p, x - p⟫ = ‖x - p‖ ^ 2 + s.beta * ⟪G x, p - x⟫ := by
        have e1 : x - s.beta • G x - p = (x - p) - s.beta • G x := by abel
        have e2 : p - x = -(x - p) := by abel
        rw [e1, inner_sub_left, real_inner_self_eq_norm_sq, real_inner_smul_left, e2, inner_neg_right]
        ring
      rw [e] at h1
      have h3 : s.beta * (g x - g p) ≤ s.beta * ⟪G x, p - x⟫ := mul_le_mul_of_nonneg_left h2 hb.le
      have h4 : ‖x - p‖ ^ 2 ≤ 0 := by linarith
      have h5 : ‖x - p‖ = 0 := by nlinarith [norm_nonneg (x - p), sq_nonneg ‖x - p‖]
      exact (sub_eq_zero.1 (norm_eq_zero.1 h5)).symm
  rw [← hiff, hnew]
  constructor
  · exact fun h => h.1
  · intro h
    refine ⟨h, ?_⟩
    simp only [step, hx, hz, h, sub_self, smul_zero, add_zero, ite_self]

/-! ## C42 -/

/-- C42: for runs without parameter updates and with relaxation 1: whatever the observers and the cost
object do, a run that returns normally after `n ≥ 1` updates returns `x_final ∈ C` with
`Φ(x_final) - Φ(u) ≤ ‖x₀ - u‖²/(2βn)` for every minimiser `u` (indeed every point `u` of `C`). -/
theorem C42_rate {C : Set E} {F g : E → ℝ} {G : E → E} {prox : E → ℝ → E} {L : ℝ}
    (hg : ConvexOn ℝ C g) (hF : AboveTangents F G) (hS : Smooth F G L) (hp : ExactProx C g prox)
    (A : Surroundings S E M K) (m : ℕ) (hm : 0 < m) (x0 : E) (β : ℝ) (r : S) (hb : 0 < β) (hL : β * L ≤ 1)
    (o : Loop.Obj (St S E) M K)
    (h : (fbRun G prox (userRules none none) A m ⟨x0, x0, none, none, β, 1, r⟩).result = .ok o) :
    ∃ n x, 1 ≤ n ∧ n ≤ m ∧
      n = (updates (fbRun G prox (userRules none none) A m ⟨x0, x0, none, none, β, 1, r⟩).trace).length ∧
      xFinal o.x = .ok x ∧ x ∈ C ∧
      ∀ u ∈ C, (F x + g x) - (F u + g u) ≤ ‖x0 - u‖ ^ 2 / (2 * β * n) := by
  obtain ⟨h1, h2, h3⟩ := fbRun_state h
  set n := (updates (fbRun G prox (userRules none none) A m ⟨x0, x0, none, none, β, 1, r⟩).trace).length
  have hn : 0 < n := h2 hm
  have inv : ∀ k, (afterSteps G prox (userRules none none) ⟨x0, x0, none, none, β, 1, r⟩ k).xOld
        = (afterSteps G prox (userRules none none) ⟨x0, x0, none, none, β, 1, r⟩ k).zOld ∧
      (afterSteps G prox (userRules none none) ⟨x0, x0, none, none, β, 1, r⟩ k).beta = β ∧
      (afterSteps G prox (userRules none none) ⟨x0, x0, none, none, β, 1, r⟩ k).lam = 1 := by
    intro k
    induction k with
    | zero => exact ⟨rfl, rfl, rfl⟩
    | succ k ih =>
      obtain ⟨i1, i2, i3⟩ := ih
      simp only [afterSteps]
      generalize afterSteps G prox (userRules none none) ⟨x0, x0, none, none, β, 1, r⟩ k = s at *
      refine ⟨?_, ?_, ?_⟩
      · simp [step, userRules, i3]
      · simp [step, userRules, applyUpd, i2]
      · simp [step, userRules, applyUpd, i3]
  set X : ℕ → E := fun k =>
    (afterSteps G prox (userRules none none) ⟨x0, x0, none, none, β, 1, r⟩ k).xOld with hX
  have hstep : ∀ k, IsProxOn C (fun u => β * g u) (X k - β • G (X k)) (X (k + 1)) := by
    intro k
    obtain ⟨i1, i2, i3⟩ := inv k
    have : X (k + 1) = prox (X k - β • G (X k)) β := by
      simp only [hX, afterSteps, step]
      rw [i2, ← i1]
    rw [this]
    exact hp _ _ hb
  have hX0 : X 0 = x0 := rfl
  have hdesc : ∀ k, F (X (k + 2)) + g (X (k + 2)) ≤ F (X (k + 1)) + g (X (k + 1)) := by
    intro k
    have := prox_grad_descent hg hF hS hb hL (hstep (k + 1)) (hstep k).1
    rw [sub_self, norm_zero] at this
    have h5 : 2 * β * ((F (X (k + 2)) + g (X (k + 2))) - (F (X (k + 1)) + g (X (k + 1)))) ≤ 0 := by
      have h6 := sq_nonneg ‖X (k + 2) - X (k + 1)‖
      simp only [show k + 1 + 1 = k + 2 from rfl] at this
      rw [zero_pow two_ne_zero] at this
      linarith
    by_contra hc
    push Not at hc
    have : 0 < 2 * β * ((F (X (k + 2)) + g (X (k + 2))) - (F (X (k + 1)) + g (X (k + 1)))) := by
      apply mul_pos (by linarith); linarith
    linarith
  have hsum : ∀ u ∈ C, ∀ k : ℕ, 2 * β * (k + 1) * ((F (X (k + 1)) + g (X (k + 1))) - (F u + g u))
      + ‖X (k + 1) - u‖ ^ 2 ≤ ‖x0 - u‖ ^ 2 := by
    intro u hu k
    induction k with
    | zero =>
      have := prox_grad_descent hg hF hS hb hL (hstep 0) hu
      rw [hX0] at this
      push_cast
      linarith
    | succ k ih =>
      have h4 := prox_grad_descent hg hF hS hb hL (hstep (k + 1)) hu
      have h5 : 2 * β * ((k : ℝ) + 1) * (F (X (k + 2)) + g (X (k + 2)))
          ≤ 2 * β * (k + 1) * (F (X (k + 1)) + g (X (k + 1))) :=
        mul_le_mul_of_nonneg_left (hdesc k) (by positivity)
      push_cast
      have e : k + 1 + 1 = k + 2 := rfl
      rw [e] at *
      nlinarith
  obtain ⟨k, hk⟩ : ∃ k, n = k + 1 := ⟨n - 1, by omega⟩
  refine ⟨n, X n, hn, h1, rfl, ?_, ?_, fun u hu => ?_⟩
  · rw [h3]
    have i1 := (inv n).1
    simp only [hX, hk] at i1 ⊢
    simp only [afterSteps, xFinal] at i1 ⊢
    rw [(step_xNew _ _ _ _).2]
    simp only
    rw [i1]
  · rw [hk]; exact (hstep k).1
  · have := hsum u hu k
    rw [hk]
    push_cast
    rw [le_div_iff₀ (by positivity)]
    nlinarith [sq_nonneg ‖X (k + 1) - u‖]

/-- C42: along such a run the objective never increases from one update to the next. -/
theorem C42_descent {C : Set E} {F g : E → ℝ} {G : E → E} {prox : E → ℝ → E} {L : ℝ}
    (hg : ConvexOn ℝ C g) (hF : AboveTangents F G) (hS : Smooth F G L) (hp : ExactProx C g prox)
    (R : Rules S E) (s : St S E) (hb : 0 < s.beta) (hL : s.beta * L ≤ 1) (hz : s.zOld = s.xOld)
    (hx : s.xOld ∈ C) :
    F (step G prox R s).xOld + g (step G prox R s).xOld ≤ F s.xOld + g s.xOld := by
  have hpr := hp (s.xOld - s.beta • G s.xOld) s.beta hb
  have hnew : (step G prox R s).xOld = prox (s.xOld - s.beta • G s.xOld) s.beta := by simp [step, hz]
  rw [hnew]
  have := prox_grad_descent hg hF hS hb hL hpr hx
  rw [sub_self, norm_zero] at this
  by_contra hc
  push Not at hc
  have h2 : 0 < 2 * s.beta * ((F (prox (s.xOld - s.beta • G s.xOld) s.beta)
      + g (prox (s.xOld - s.beta • G s.xOld) s.beta)) - (F s.xOld + g s.xOld)) := by
    apply mul_pos (by linarith); linarith
  have h3 := sq_nonneg ‖prox (s.xOld - s.beta • G s.xOld) s.beta - s.xOld‖
  rw [zero_pow two_ne_zero] at this
  linarith

/-! ## C43 -/

/-- The state of a FISTA-driven object (no restart) after `n` updates. -/
theorem fista_inv {G : E → E} {prox : E → ℝ → E} {f : Fista.Obj} (hf : f.restart = .none)
    (hs : f.safeguard = false) (x0 : E) (β lam : ℝ) (u : U) (n : ℕ) :
    let s := afterSteps G prox (fistaRules (U := U)) ⟨x0, x0, none, none, β, lam, (f, u)⟩ n
    s.beta = β ∧ s.rules.1 = after f n ∧ s.lam = (match n with | 0 => lam | k + 1 => lambdaSeq f k) ∧
      (after f n).restart = .none ∧ (after f n).safeguard = false := by
  induction n with
  | zero => exact ⟨rfl, rfl, rfl, hf, hs⟩
  | succ n ih =>
    obtain ⟨h1, h2, h3, h4, h5⟩ := ih
    have hr : ∀ z xn xo : E, isRestart (after f n) z xn xo = (false, after f n) := by
      intro z xn xo; simp [isRestart, h4]
    have hb : ∀ b, updateBeta (after f n) b = b := by intro b; simp [updateBeta, h5]
    simp only [afterSteps]
    generalize afterSteps G prox (fistaRules (U := U)) ⟨x0, x0, none, none, β, lam, (f, u)⟩ n = s at *
    refine ⟨?_, ?_, ?_, ?_, ?_⟩
    · simp [step, fistaRules, applyUpd, h2, hr, h1, hb]
    · simp [step, fistaRules, applyUpd, h2, hr, after]
    · simp [step, fistaRules, applyUpd, h2, hr, lambdaSeq]
    · simp only [after, updateLambda, h4]; split <;> rfl
    · simp only [after, updateLambda, h4]; split <;> exact h5

theorem fista_steps {G : E → E} {prox : E → ℝ → E} {f : Fista.Obj} (hf : f.restart = .none)
    (hs : f.safeguard = false) (x0 : E) (β lam : ℝ) (u : U) (n : ℕ) :
    let s := afterSteps G prox (fistaRules (U := U)) ⟨x0, x0, none, none, β, lam, (f, u)⟩
    (s (n + 1)).xOld = prox ((s n).zOld - β • G (s n).zOld) β ∧
    (s (n + 1)).zOld = (s n).xOld + (match n with | 0 => lam | k + 1 => lambdaSeq f k)
      • ((s (n + 1)).xOld - (s n).xOld) := by
  obtain ⟨h1, h2, h3, h4, h5⟩ := fista_inv (G := G) (prox := prox) hf hs x0 β lam u n
  simp only at h1 h2 h3 ⊢
  refine ⟨by simp only [afterSteps, step, h1], ?_⟩
  have hr : ∀ z xn xo : E, (isRestart (after f n) z xn xo).1 = false := by
    intro z xn xo; simp [isRestart, h4]
  simp only [afterSteps]
  generalize afterSteps G prox (fistaRules (U := U)) ⟨x0, x0, none, none, β, lam, (f, u)⟩ n = s at *
  simp only [step, fistaRules, h2, hr, h3]
  rfl

/-- C43, regular mode: for parameters satisfying the acceleration inequality (see C38: `p ≤ 1/2`,
`0 ≤ q ≤ (2-2p)²`, `0 ≤ r ≤ 4`), initial relaxation in `[0,1]` and `β ≤ 1/L`: whatever observers and cost
do, a run that returns normally after `k+2` updates has last proximal iterate `x ∈ C` with
`Φ(x) - Φ(u) ≤ ‖x₀ - u‖²/(2β tₖ²)` for every minimiser `u`. -/
theorem C43_rate_regular {C : Set E} {F g : E → ℝ} {G : E → E} {prox : E → ℝ → E} {L : ℝ}
    (hg : ConvexOn ℝ C g) (hF : AboveTangents F G) (hS : Smooth F G L) (hp : ExactProx C g prox)
    (p q r : ℝ) (hpp : p ≤ 1 / 2) (hq : 0 ≤ q) (hq' : q ≤ (2 - 2 * p) ^ 2) (hr : 0 ≤ r) (hr' : r ≤ 4)
    (h1 : 1 ≤ p + Real.sqrt (r + q) / 2)
    (A : Surroundings (Fista.Obj × U) E M K) (m : ℕ) (x0 : E) (β lam : ℝ) (v : U) (hb : 0 < β)
    (hL : β * L ≤ 1) (hl0 : 0 ≤ lam) (hl1 : lam ≤ 1)
    (o : Loop.Obj (St (Fista.Obj × U) E) M K)
    (h : (fbRun G prox fistaRules A m ⟨x0, x0, none, none, β, lam, (regularObj p q r, v)⟩).result = .ok o)
    (k : ℕ) (hk : (updates (fbRun G prox fistaRules A m
      ⟨x0, x0, none, none, β, lam, (regularObj p q r, v)⟩).trace).length = k + 2)
    (u : E) (hu : Minimises C (fun u => F u + g u) u) :
    ∃ x, o.x.xNew = some x ∧ x ∈ C ∧
      (F x + g x) - (F u + g u) ≤ ‖x0 - u‖ ^ 2 / (2 * β * tSeq (regularObj p q r) k ^ 2) := by
  obtain ⟨-, -, h3⟩ := fbRun_state h
  rw [hk] at h3
  have hst := fista_steps (G := G) (prox := prox) (f := regularObj p q r) rfl rfl x0 β lam v
  set s := afterSteps G prox (fistaRules (U := U))
    ⟨x0, x0, none, none, β, lam, (regularObj p q r, v)⟩ with hsdef
  have hprox : ∀ n, IsProxOn C (fun u => β * g u) ((s n).zOld - β • G (s n).zOld) (s (n + 1)).xOld := by
    intro n; rw [(hst n).1]; exact hp _ _ hb
  have ht1 : ∀ n, 1 ≤ tSeq (regularObj p q r) n := tSeq_ge_one p q r hr h1
  have hen := fista_energy hg hF hS hb hL hu (fun k => (s (k + 1)).xOld) (fun k => (s (k + 1)).zOld)
    (tSeq (regularObj p q r)) (fun k => hprox (k + 1))
    (fun k => by
      have h5 := (hst (k + 1)).2
      simp only at h5 ⊢
      rw [h5, lambdaSeq_regular]
      module)
    (tSeq_zero p q r) ht1 (C38_acceleration_partial p q r hpp hq hq' hr hr' h1) k
  have hz1 : ‖(s (0 + 1)).zOld - u‖ ≤ ‖x0 - u‖ := by
    have e := (hst 0).2
    simp only at e
    rw [e]
    refine relaxed_fejer hl0 hl1 le_rfl ?_
    exact prox_grad_fejer hg hF hS hb hL (hprox 0) hu
  refine ⟨(s (k + 2)).xOld, ?_, (hprox (k + 1)).1, ?_⟩
  · rw [h3]; exact (step_xNew _ _ _ _).1
  · have ht := ht1 k
    rw [le_div_iff₀ (by positivity)]
    have h6 : ‖(s (0 + 1)).zOld - u‖ ^ 2 ≤ ‖x0 - u‖ ^ 2 := by gcongr
    have h7 := sq_nonneg ‖tSeq (regularObj p q r) k • (s (k + 1 + 1)).xOld
      - (tSeq (regularObj p q r) k - 1) • (s (k + 1)).xOld - u‖
    simp only [show k + 1 + 1 = k + 2 from rfl] at hen h7
    linarith

/-- C43 for the classical parameters (`p_lazy = 1/2`, `q_lazy = 1`, `r_lazy = 4`):
`Φ(xₙ) - Φ(u) ≤ 2‖x₀ - u‖²/(β n²)` after `n ≥ 2` updates. -/
theorem C43_rate_classical {C : Set E} {F g : E → ℝ} {G : E → E} {prox : E → ℝ → E} {L : ℝ}
    (hg : ConvexOn ℝ C g) (hF : AboveTangents F G) (hS : Smooth F G L) (hp : ExactProx C g prox)
    (A : Surroundings (Fista.Obj × U) E M K) (m : ℕ) (x0 : E) (β : ℝ) (v : U) (hb : 0 < β)
    (hL : β * L ≤ 1) (o : Loop.Obj (St (Fista.Obj × U) E) M K)
    (h : (fbRun G prox fistaRules A m ⟨x0, x0, none, none, β, 1, (regularObj (1/2) 1 4, v)⟩).result = .ok o)
    (n : ℕ) (hn2 : 2 ≤ n) (hk : (updates (fbRun G prox fistaRules A m
      ⟨x0, x0, none, none, β, 1, (regularObj (1/2) 1 4, v)⟩).trace).length = n)
    (u : E) (hu : Minimises C (fun u => F u + g u) u) :
    ∃ x, o.x.xNew = some x ∧ x ∈ C ∧
      (F x + g x) - (F u + g u) ≤ 2 * ‖x0 - u‖ ^ 2 / (β * (n : ℝ) ^ 2) := by
  obtain ⟨k, rfl⟩ : ∃ k, n = k + 2 := ⟨n - 2, by omega⟩
  obtain ⟨x, h1, h2, h3⟩ := C43_rate_regular hg hF hS hp (1 / 2) 1 4 le_rfl (by norm_num) (by norm_num)
    (by norm_num) le_rfl
    (by
      have : (1 : ℝ) ≤ Real.sqrt (4 + 1) := Real.one_le_sqrt.2 (by norm_num)
      generalize Real.sqrt (4 + 1) = w at *
      linarith) A m x0 β 1 v hb hL zero_le_one le_rfl o h k hk u hu
  refine ⟨x, h1, h2, h3.trans ?_⟩
  have ht := (C37_unbounded (1 / 2) 1 4 (by norm_num) zero_le_one le_rfl k).1
  have hk0 : (0 : ℝ) ≤ k := Nat.cast_nonneg k
  have e : 2 * ‖x0 - u‖ ^ 2 / (β * ((k + 2 : ℕ) : ℝ) ^ 2)
      = ‖x0 - u‖ ^ 2 / (2 * β * (1 + k * (1 / 2)) ^ 2) := by
    push_cast
    field_simp
    ring
  rw [e]
  apply div_le_div_of_nonneg_left (sq_nonneg _) (by positivity)
  have : (1 + (k : ℝ) * (1 / 2)) ^ 2 ≤ tSeq (regularObj (1 / 2) 1 4) k ^ 2 := by gcongr
  nlinarith

/-- C43, Chambolle-Dossal mode: for every `a > 2`, after `n ≥ 4` updates
`Φ(xₙ) - Φ(u) ≤ a²‖x₀ - u‖²/(2β(n+a-4)²)`. -/
theorem C43_rate_cd {C : Set E} {F g : E → ℝ} {G : E → E} {prox : E → ℝ → E} {L : ℝ}
    (hg : ConvexOn ℝ C g) (hF : AboveTangents F G) (hS : Smooth F G L) (hp : ExactProx C g prox)
    (a : ℝ) (ha : 2 < a)
    (A : Surroundings (Fista.Obj × U) E M K) (m : ℕ) (x0 : E) (β lam : ℝ) (v : U) (hb : 0 < β)
    (hL : β * L ≤ 1) (hl0 : 0 ≤ lam) (hl1 : lam ≤ 1)
    (o : Loop.Obj (St (Fista.Obj × U) E) M K)
    (h : (fbRun G prox fistaRules A m ⟨x0, x0, none, none, β, lam, (cdObj a, v)⟩).result = .ok o)
    (n : ℕ) (hn : 4 ≤ n) (hk : (updates (fbRun G prox fistaRules A m
      ⟨x0, x0, none, none, β, lam, (cdObj a, v)⟩).trace).length = n)
    (u : E) (hu : Minimises C (fun u => F u + g u) u) :
    ∃ x, o.x.xNew = some x ∧ x ∈ C ∧
      (F x + g x) - (F u + g u) ≤ a ^ 2 * ‖x0 - u‖ ^ 2 / (2 * β * ((n : ℝ) + a - 4) ^ 2) := by
  obtain ⟨k, rfl⟩ : ∃ k, n = k + 4 := ⟨n - 4, by omega⟩
  obtain ⟨-, -, h3⟩ := fbRun_state h
  rw [hk] at h3
  have ha0 : 0 < a := by linarith
  have hst := fista_steps (G := G) (prox := prox) (f := cdObj a) rfl rfl x0 β lam v
  set s := afterSteps G prox (fistaRules (U := U))
    ⟨x0, x0, none, none, β, lam, (cdObj a, v)⟩ with hsdef
  have hprox : ∀ n, IsProxOn C (fun u => β * g u) ((s n).zOld - β • G (s n).zOld) (s (n + 1)).xOld := by
    intro n; rw [(hst n).1]; exact hp _ _ hb
  have htv : ∀ k : ℕ, tSeq (cdObj a) (k + 2) = (k + a) / a := by
    intro k; rw [(C39_closed_form a (k + 1)).1]; push_cast; congr 1; ring
  have hen := fista_energy hg hF hS hb hL hu (fun k => (s (k + 3)).xOld) (fun k => (s (k + 3)).zOld)
    (fun k => tSeq (cdObj a) (k + 2)) (fun k => hprox (k + 3))
    (fun k => by
      have h5 := (hst (k + 3)).2
      simp only at h5 ⊢
      rw [show k + 1 + 3 = k + 3 + 1 by ring, h5, (C39_closed_form a (k + 2)).2]
      module)
    (by simp only [htv]; push_cast; rw [zero_add, div_self ha0.ne'])
    (fun k => by
      simp only [htv]
      rw [le_div_iff₀ ha0]
      have : (0 : ℝ) ≤ k := Nat.cast_nonneg k
      linarith)
    (fun k => C38_acceleration_cd a ha (k + 2)) k
  -- the starting point of the accelerated phase is no further from `u` than `x₀`
  have fz : ∀ n, ‖(s (n + 1)).xOld - u‖ ≤ ‖(s n).zOld - u‖ := fun n =>
    prox_grad_fejer hg hF hS hb hL (hprox n) hu
  have hz1 : ‖(s 1).zOld - u‖ ≤ ‖x0 - u‖ := by
    have e := (hst 0).2
    simp only at e
    rw [e]
    exact relaxed_fejer hl0 hl1 le_rfl (fz 0)
  have hl : lambdaSeq (cdObj a) 0 = 1 := (C39_lambda_closed_form a ha 0).1
  have hx1 : ‖(s 1).xOld - u‖ ≤ ‖x0 - u‖ := fz 0
  have hx2 : ‖(s 2).xOld - u‖ ≤ ‖x0 - u‖ := (fz 1).trans hz1
  have hz2 : ‖(s 2).zOld - u‖ ≤ ‖x0 - u‖ := by
    have e := (hst 1).2
    simp only [hl] at e
    rw [e]
    exact relaxed_fejer zero_le_one le_rfl hx1 hx2
  have hx3 : ‖(s 3).xOld - u‖ ≤ ‖x0 - u‖ := (fz 2).trans hz2
  have hl2 := C39_second_relaxation_below_one a ha
  have hz3 : ‖(s (0 + 3)).zOld - u‖ ≤ ‖x0 - u‖ := by
    have e := (hst 2).2
    simp only at e
    rw [show 0 + 3 = 2 + 1 by rfl, e]
    refine relaxed_fejer ?_ hl2.2.2.2.le hx2 hx3
    rw [hl2.2.2.1]
    have : 1 / a ≤ 1 := by rw [div_le_one ha0]; linarith
    linarith
  refine ⟨(s (k + 4)).xOld, ?_, (hprox (k + 3)).1, ?_⟩
  · rw [h3]; exact (step_xNew _ _ _ _).1
  · have hk0 : (0 : ℝ) ≤ k := Nat.cast_nonneg k
    have h6 : ‖(s (0 + 3)).zOld - u‖ ^ 2 ≤ ‖x0 - u‖ ^ 2 := by gcongr
    simp only [htv] at hen
    have e : k + 1 + 3 = k + 4 := by ring
    rw [e] at hen
    set V := (F (s (k + 4)).xOld + g (s (k + 4)).xOld) - (F u + g u)
    have h7 : 2 * β * ((k + a) / a) ^ 2 * V ≤ ‖x0 - u‖ ^ 2 := by
      have := sq_nonneg ‖(((k : ℝ) + a) / a) • (s (k + 4)).xOld - (((k : ℝ) + a) / a - 1) • (s (k + 3)).xOld - u‖
      linarith
    push_cast
    have e2 : (k : ℝ) + 4 + a - 4 = k + a := by ring
    rw [e2, le_div_iff₀ (by positivity)]
    have e3 : V * (2 * β * (k + a) ^ 2) = a ^ 2 * (2 * β * ((k + a) / a) ^ 2 * V) := by
      field_simp
    rw [e3]
    exact mul_le_mul_of_nonneg_left h7 (sq_nonneg a)

/-! ## C44 -/

/-- C44: after at least one update the proximal iterate `_x_new` is a value of the proximity operator,
whatever the rules. -/
theorem C44_x_new_is_prox_value (G : E → E) (prox : E → ℝ → E) (R : Rules S E)
    (A : Surroundings S E M K) (m : ℕ) (hm : 0 < m) (s : St S E) (o : Loop.Obj (St S E) M K)
    (h : (fbRun G prox R A m s).result = .ok o) :
    ∃ y b, o.x.xNew = some (prox y b) := by
  obtain ⟨h1, h2, h3⟩ := fbRun_state h
  obtain ⟨k, hk⟩ : ∃ k, (updates (fbRun G prox R A m s).trace).length = k + 1 :=
    Nat.exists_eq_succ_of_ne_zero (h2 hm).ne'
  rw [h3, hk]
  exact ⟨_, _, rfl⟩

/-- C44: without updates of the relaxation, and relaxation in `[0,1]`, the returned `x_final` lies in every
convex set that contains the starting point and all values of the proximity operator.  (Missing for the
full claim: accelerated runs, see the refutation below.) -/
theorem C44_x_final_feasible_partial (G : E → E) (prox : E → ℝ → E) (bu : Option (S → ℝ → ℝ × S))
    (A : Surroundings S E M K) (m : ℕ) (hm : 0 < m) (x0 : E) (β lam : ℝ) (r : S)
    (hl0 : 0 ≤ lam) (hl1 : lam ≤ 1) (C : Set E) (hC : Convex ℝ C) (hx0 : x0 ∈ C)
    (hp : ∀ y b, prox y b ∈ C) (o : Loop.Obj (St S E) M K)
    (h : (fbRun G prox (userRules bu none) A m ⟨x0, x0, none, none, β, lam, r⟩).result = .ok o) :
    ∃ x, xFinal o.x = .ok x ∧ x ∈ C := by
  obtain ⟨h1, h2, h3⟩ := fbRun_state h
  set n := (updates (fbRun G prox (userRules bu none) A m ⟨x0, x0, none, none, β, lam, r⟩).trace).length
  have inv : ∀ k, (afterSteps G prox (userRules bu none) ⟨x0, x0, none, none, β, lam, r⟩ k).xOld ∈ C ∧
      (afterSteps G prox (userRules bu none) ⟨x0, x0, none, none, β, lam, r⟩ k).zOld ∈ C ∧
      (afterSteps G prox (userRules bu none) ⟨x0, x0, none, none, β, lam, r⟩ k).lam = lam := by
    intro k
    induction k with
    | zero => exact ⟨hx0, hx0, rfl⟩
    | succ k ih =>
      obtain ⟨i1, i2, i3⟩ := ih
      simp only [afterSteps]
      generalize afterSteps G prox (userRules bu none) ⟨x0, x0, none, none, β, lam, r⟩ k = s at *
      refine ⟨hp _ _, ?_, ?_⟩
      · have h5 := hC i1 (hp (s.zOld - s.beta • G s.zOld) s.beta) (show 0 ≤ 1 - lam by linarith) hl0 (by ring)
        have e : (step G prox (userRules bu none) s).zOld = s.xOld + lam •
            (prox (s.zOld - s.beta • G s.zOld) s.beta - s.xOld) := by
          simp [step, userRules, i3]
        rw [e]
        convert h5 using 1
        module
      · simp [step, userRules, applyUpd, i3]
  obtain ⟨k, hk⟩ : ∃ k, n = k + 1 := ⟨n - 1, by have := h2 hm; omega⟩
  refine ⟨_, ?_, (inv n).2.1⟩
  rw [h3, hk]
  rfl

/-- C44: with `max_iter = 0` on a new object `iterate` raises `AttributeError`: there is no iterate. -/
theorem C44_no_iteration (x0 : E) (β lam : ℝ) (r : S) :
    xFinal (⟨x0, x0, none, none, β, lam, r⟩ : St S E) = .error .attributeError := rfl

end

/-- C44, refuted for the default settings: minimising `F(x) = x` over `x ≥ 0` from `x₀ = 5/2` with
step 1, a run of three updates returns a negative `x_final`, although the proximity operator is the
projection onto the non-negative numbers.  The extrapolated point is returned, not the proximal one. -/
theorem C44_x_final_infeasible {M K : Type} (A : Surroundings (Fista.Obj × Unit) ℝ M K)
    (hA : A.hasCost = false ∧ A.hasMetrics = false) :
    ExactProx {x : ℝ | 0 ≤ x} (fun _ => 0) (fun y _ => max y 0) ∧
    ∃ o x, (fbRun (fun _ => (1 : ℝ)) (fun y _ => max y 0) fistaRules A 3
        ⟨5 / 2, 5 / 2, none, none, 1, 1, (regularObj 1 1 4, ())⟩).result = .ok o ∧
      xFinal o.x = .ok x ∧ x < 0 := by
  constructor
  · intro y b hb
    refine ⟨show (0 : ℝ) ≤ max y 0 from le_max_right _ _, fun u hu => ?_⟩
    have hu' : (0 : ℝ) ≤ u := hu
    simp only [Real.norm_eq_abs, sq_abs, mul_zero, add_zero]
    rcases le_total y 0 with h | h
    · rw [max_eq_right h]; nlinarith
    · rw [max_eq_left h]; nlinarith [sq_nonneg (y - u)]
  · have hrun : ∃ o, (fbRun (fun _ => (1 : ℝ)) (fun y _ => max y 0) fistaRules A 3
        ⟨5 / 2, 5 / 2, none, none, 1, 1, (regularObj 1 1 4, ())⟩).result = .ok o ∧
        o.x = afterSteps (fun _ => (1 : ℝ)) (fun y _ => max y 0) (fistaRules (U := Unit))
          ⟨5 / 2, 5 / 2, none, none, 1, 1, (regularObj 1 1 4, ())⟩ 3 := by
      refine ⟨⟨afterSteps (fun _ => (1 : ℝ)) (fun y _ => max y 0) (fistaRules (U := Unit))
          ⟨5 / 2, 5 / 2, none, none, 1, 1, (regularObj 1 1 4, ())⟩ 3, A.obs, A.cost, false⟩, ?_, rfl⟩
      simp [fbRun, runAlg, List.range, List.range.loop, iterLoop, objAlg, objUpdate, parts, hA.1, hA.2,
        metricsStep, bind, Except.bind, pure, Except.pure, afterSteps]
    obtain ⟨o, ho, hx⟩ := hrun
    refine ⟨o, _, ho, by rw [hx]; rfl, ?_⟩
    have hst := fista_steps (G := fun _ : ℝ => (1 : ℝ)) (prox := fun y _ => max y 0) (f := regularObj 1 1 4)
      rfl rfl (5 / 2) 1 1 ()
    set s := afterSteps (fun _ : ℝ => (1 : ℝ)) (fun y _ => max y 0) (fistaRules (U := Unit))
          ⟨5 / 2, 5 / 2, none, none, 1, 1, (regularObj 1 1 4, ())⟩
    have x0 : (s 0).xOld = 5 / 2 := rfl
    have z0 : (s 0).zOld = 5 / 2 := rfl
    have x1 : (s 1).xOld = 3 / 2 := by rw [(hst 0).1, z0]; norm_num
    have z1 : (s 1).zOld = 3 / 2 := by rw [(hst 0).2, x0, x1]; norm_num
    have x2 : (s 2).xOld = 1 / 2 := by rw [(hst 1).1, z1]; norm_num
    have hl0 : lambdaSeq (regularObj 1 1 4) 0 = 1 := by rw [lambdaSeq_regular, tSeq_zero]; simp
    have z2 : (s 2).zOld = 1 / 2 := by
      have e := (hst 1).2
      simp only [hl0] at e
      rw [e, x1, x2]; norm_num
    have x3 : (s 3).xOld = 0 := by rw [(hst 2).1, z2]; norm_num
    have hl1 : 1 < lambdaSeq (regularObj 1 1 4) 1 := by
      rw [lambdaSeq_regular]
      have h1 := (C37_unbounded 1 1 4 one_pos zero_le_one le_rfl 1).1
      have h2 := (C37_unbounded 1 1 4 one_pos zero_le_one le_rfl 2).1
      have : 0 < (tSeq (regularObj 1 1 4) 1 - 1) / tSeq (regularObj 1 1 4) (1 + 1) := by
        apply div_pos
        · push_cast at h1; linarith
        · push_cast at h2; norm_num at h2 ⊢; linarith
      linarith
    have e := (hst 2).2
    simp only at e
    show (s 3).zOld < 0
    rw [e, x2, x3]
    simp only [smul_eq_mul]
    linarith

section
variable {E : Type} [NormedAddCommGroup E] [InnerProductSpace ℝ E] {U : Type}

/-! ## C45 -/

/-- The step size of a constructed object. -/
def builtBeta : Built U E → ℝ
  | .fista st => st.beta
  | .user _ _ st => st.beta

/-- C45: a given, non-zero `step_size` replaces `beta_param`; otherwise `beta_param` is used. -/
theorem C45_step_size (a : Args U E) (b : Built U E) (h : FB.init a = .ok b) :
    (∀ v, a.stepSize = some v → v ≠ 0 → builtBeta b = v) ∧
    ((a.stepSize = none ∨ a.stepSize = some 0) → ∃ v, a.betaParam = .float v ∧ builtBeta b = v) := by
  unfold FB.init at h
  cases hm : setMetrics a.metrics with
  | error e => rw [hm] at h; cases h
  | ok am =>
    rw [hm] at h
    simp only [bind, Except.bind] at h
    cases hx : a.x with
    | none => rw [hx] at h; cases h
    | some x =>
      simp only [hx] at h
      split_ifs at h with hc
      cases hb : a.betaParam with
      | other => rw [hb] at h; cases h
      | float bv =>
        cases hl : a.lambdaParam with
        | other => rw [hb, hl] at h; cases h
        | float lv =>
          simp only [hb, hl, checkParam] at h
          have hbeta : builtBeta b = orParam a.stepSize bv := by
            cases hbu : checkParamUpdate a.betaUpdate with
            | error e => rw [hbu] at h; cases h
            | ok bu =>
              simp only [hbu] at h
              split at h
              · split at h
                · cases h
                · cases h; rfl
              · split at h
                · cases h
                · cases h; rfl
          constructor
          · intro v hv hv0; rw [hbeta, hv]; simp [orParam, hv0]
          · rintro (hv | hv) <;> exact ⟨bv, rfl, by rw [hbeta, hv]; simp [orParam]⟩

/-- C45, refuted for `lambda_update="fista"` (the default): the user's `beta_update` has no effect at all,
any two valid ones give the same object. -/
theorem C45_beta_update_ignored (a : Args U E) (h : a.lambdaUpdate = .str "fista")
    (f : U → ℝ → ℝ × U) :
    FB.init { a with betaUpdate := .callable f } = FB.init { a with betaUpdate := .none } := by
  simp only [FB.init, checkParamUpdate, bind, Except.bind, h]

/-- C45: with user-supplied rules each update applies each callable exactly once: after `n` updates the
parameters are the `n`-fold images of the initial ones.  (Missing for the full claim: `fista`, where
`beta_update` is ignored.) -/
theorem C45_user_updates_once_partial (G : E → E) (prox : E → ℝ → E) (x0 : E) (β lam : ℝ) (u : U)
    (fb fl : ℝ → ℝ) (n : ℕ) :
    let s := afterSteps G prox (userRules (some fun u b => (fb b, u)) (some fun u l => (fl l, u)))
      ⟨x0, x0, none, none, β, lam, u⟩ n
    s.beta = fb^[n] β ∧ s.lam = fl^[n] lam := by
  induction n with
  | zero => exact ⟨rfl, rfl⟩
  | succ n ih =>
    simp only at ih ⊢
    rw [Function.iterate_succ_apply', Function.iterate_succ_apply', ← ih.1, ← ih.2]
    exact ⟨rfl, rfl⟩

/-- C45: without update callables the parameters never change. -/
theorem C45_no_updates (G : E → E) (prox : E → ℝ → E) (x0 : E) (β lam : ℝ) (u : U) (n : ℕ) :
    let s := afterSteps G prox (userRules none none) ⟨x0, x0, none, none, β, lam, u⟩ n
    s.beta = β ∧ s.lam = lam := by
  induction n with
  | zero => exact ⟨rfl, rfl⟩
  | succ n ih =>
    simp only at ih ⊢
    exact ⟨ih.1, ih.2⟩

/-- C45: invalid arguments are refused: wrong metrics type, data that is not an array, non-float
parameters, non-callable updates with `TypeError`; metrics without a linear operator with `ValueError`. -/
theorem C45_invalid_arguments (a : Args U E) :
    (a.metrics = .other → FB.init a = .error .typeError) ∧
    (a.metrics ≠ .other → a.x = none → FB.init a = .error .typeError) ∧
    (a.x.isSome → a.metrics = .dict true → a.hasLinear = false → FB.init a = .error .valueError) ∧
    (a.x.isSome → a.metrics = .none → a.betaParam = .other → FB.init a = .error .typeError) ∧
    (a.x.isSome → a.metrics = .none → a.lambdaParam = .other → FB.init a = .error .typeError) ∧
    (a.x.isSome → a.metrics = .none → (∃ b, a.betaParam = .float b) → (∃ b, a.lambdaParam = .float b) →
      a.betaUpdate = .other → FB.init a = .error .typeError) ∧
    (a.x.isSome → a.metrics = .none → (∃ b, a.betaParam = .float b) → (∃ b, a.lambdaParam = .float b) →
      a.betaUpdate = .none → (∃ s, a.lambdaUpdate = .str s ∧ s ≠ "fista") → FB.init a = .error .typeError) := by
  refine ⟨fun h => ?_, fun h h2 => ?_, fun hx h h2 => ?_, fun hx h h2 => ?_, fun hx h h2 => ?_,
    fun hx h h2 h3 h4 => ?_, fun hx h h2 h3 h4 h5 => ?_⟩
  · simp [FB.init, h, setMetrics, bind, Except.bind]
  · cases hm : a.metrics with
    | other => exact absurd hm h
    | none => simp [FB.init, hm, setMetrics, bind, Except.bind, h2]
    | dict b => simp [FB.init, hm, setMetrics, bind, Except.bind, h2]
  · obtain ⟨x, hx⟩ := Option.isSome_iff_exists.1 hx
    simp [FB.init, h, setMetrics, bind, Except.bind, hx, h2]
  · obtain ⟨x, hx⟩ := Option.isSome_iff_exists.1 hx
    simp [FB.init, h, setMetrics, bind, Except.bind, hx, h2, checkParam]
  · obtain ⟨x, hx⟩ := Option.isSome_iff_exists.1 hx
    cases hb : a.betaParam <;> simp [FB.init, h, setMetrics, bind, Except.bind, hx, h2, checkParam, hb]
  · obtain ⟨x, hx⟩ := Option.isSome_iff_exists.1 hx
    obtain ⟨b, hb⟩ := h2
    obtain ⟨l, hl⟩ := h3
    simp [FB.init, h, setMetrics, bind, Except.bind, hx, checkParam, hb, hl, h4, checkParamUpdate]
  · obtain ⟨x, hx⟩ := Option.isSome_iff_exists.1 hx
    obtain ⟨b, hb⟩ := h2
    obtain ⟨l, hl⟩ := h3
    obtain ⟨s, hs, hne⟩ := h5
    simp only [FB.init, h, setMetrics, bind, Except.bind, hx, checkParam, hb, hl, h4, checkParamUpdate, hs]
    simp only [Bool.false_eq_true, false_and, if_false]
    split
    · rename_i heq
      simp only [UpdArg.str.injEq] at heq
      exact absurd heq hne
    · rfl

end

/-! ## Non-vacuity: the lasso problem `½(x - 3)² + |x|` on `ℝ` -/

section Example
open Classical

/-- Soft thresholding on `ℝ` is an exact proximity operator. -/
noncomputable def softR (y b : ℝ) : ℝ := if |y| ≤ b then 0 else y - b * (if 0 < y then 1 else -1)

theorem softR_exact : ExactProx Set.univ (fun x : ℝ => |x|) softR := by
  intro y b hb
  apply isProxOn_of_variational (Set.mem_univ _)
  intro u _
  simp only [softR, RCLike.inner_apply, conj_trivial]
  split_ifs with h1 h2
  · rw [abs_le] at h1
    simp only [sub_zero, abs_zero, mul_zero]
    have h3 : u * y ≤ |u| * b := by
      calc u * y ≤ |u * y| := le_abs_self _
        _ = |u| * |y| := abs_mul _ _
        _ ≤ |u| * b := mul_le_mul_of_nonneg_left (abs_le.2 h1) (abs_nonneg _)
    simp
    linarith
  · rw [abs_of_pos h2] at h1
    push Not at h1
    have : |y - b * 1| = y - b := by rw [mul_one, abs_of_pos]; linarith
    rw [this]
    have := le_abs_self u
    simp
    nlinarith
  · have hy : y < 0 := by
      rcases lt_or_eq_of_le (not_lt.1 h2) with h | h
      · exact h
      · rw [h] at h1; simp at h1; linarith
    rw [abs_of_neg hy] at h1
    push Not at h1
    have : |y - b * (-1)| = -y - b := by rw [abs_of_neg]; ring; linarith
    rw [this]
    have := neg_abs_le u
    simp
    nlinarith

theorem sq_above : AboveTangents (fun x : ℝ => 1 / 2 * (x - 3) ^ 2) (fun x => x - 3) := by
  intro x u
  simp only [RCLike.inner_apply, conj_trivial]
  simp
  nlinarith [sq_nonneg (u - x)]

theorem sq_smooth : Smooth (fun x : ℝ => 1 / 2 * (x - 3) ^ 2) (fun x => x - 3) 1 := by
  intro x u
  simp only [RCLike.inner_apply, conj_trivial, Real.norm_eq_abs, sq_abs]
  simp
  nlinarith [sq_nonneg (u - x)]

theorem abs_convex : ConvexOn ℝ Set.univ (fun x : ℝ => |x|) := by
  refine ⟨convex_univ, fun x _ y _ a b ha hb _ => ?_⟩
  simp only [smul_eq_mul]
  calc |a * x + b * y| ≤ |a * x| + |b * y| := abs_add_le _ _
    _ = a * |x| + b * |y| := by rw [abs_mul, abs_mul, abs_of_nonneg ha, abs_of_nonneg hb]

/-- The hypotheses of C42 are met: 10 updates from `x₀ = 0` with step 1 bring the objective within `1/5` of
any point's. -/
example (A : Surroundings Unit ℝ Unit Unit) (hA : A.hasCost = false ∧ A.hasMetrics = false) :
    ∃ o, (fbRun (fun x : ℝ => x - 3) softR (userRules none none) A 10 ⟨0, 0, none, none, 1, 1, ()⟩).result
      = .ok o := by
  exact ⟨⟨_, (), (), false⟩, by
    simp only [fbRun, runAlg, List.range, List.range.loop, iterLoop, objAlg, objUpdate, parts, hA.1, hA.2,
      metricsStep, bind, Except.bind, pure, Except.pure]
    rfl⟩
example (A : Surroundings Unit ℝ Unit Unit) (o : Loop.Obj (St Unit ℝ) Unit Unit)
    (h : (fbRun (fun x : ℝ => x - 3) softR (userRules none none) A 10 ⟨0, 0, none, none, 1, 1, ()⟩).result
      = .ok o) : ∃ x, xFinal o.x = .ok x := by
  obtain ⟨n, x, -, -, -, h, -⟩ := C42_rate abs_convex sq_above sq_smooth softR_exact A 10 (by norm_num) 0 1 ()
    one_pos (by norm_num) o h
  exact ⟨x, h⟩
/-- The minimiser is `2`: it is a fixed point. -/
example (R : Rules Unit ℝ) : (step (fun x : ℝ => x - 3) softR R ⟨2, 2, none, none, 1, 1, ()⟩).xOld = 2 := by
  simp only [step, softR]
  norm_num
theorem two_minimises : Minimises Set.univ (fun x : ℝ => 1 / 2 * (x - 3) ^ 2 + |x|) 2 := by
  refine ⟨Set.mem_univ _, fun u _ => ?_⟩
  have := le_abs_self u
  simp only [abs_of_pos (by norm_num : (0 : ℝ) < 2)]
  nlinarith [sq_nonneg (u - 2)]

/-- The hypotheses of C43 are met: a run of five accelerated updates from `0` returns, and the bound
`2·‖0 - 2‖²/25 = 8/25` applies. -/
example (A : Surroundings (Fista.Obj × Unit) ℝ Unit Unit) (hA : A.hasCost = false ∧ A.hasMetrics = false) :
    ∃ o x, (fbRun (fun x : ℝ => x - 3) softR fistaRules A 5
        ⟨0, 0, none, none, 1, 1, (regularObj (1/2) 1 4, ())⟩).result = .ok o ∧
      o.x.xNew = some x ∧ 1 / 2 * (x - 3) ^ 2 + |x| - 5 / 2 ≤ 8 / 25 := by
  have hr : ∃ o, (fbRun (fun x : ℝ => x - 3) softR fistaRules A 5
        ⟨0, 0, none, none, 1, 1, (regularObj (1/2) 1 4, ())⟩).result = .ok o := by
    refine ⟨⟨afterSteps (fun x : ℝ => x - 3) softR (fistaRules (U := Unit))
          ⟨0, 0, none, none, 1, 1, (regularObj (1/2) 1 4, ())⟩ 5, A.obs, A.cost, false⟩, ?_⟩
    simp [fbRun, runAlg, List.range, List.range.loop, iterLoop, objAlg, objUpdate, parts, hA.1, hA.2,
        metricsStep, bind, Except.bind, pure, Except.pure, afterSteps]
  have hl : (updates (fbRun (fun x : ℝ => x - 3) softR fistaRules A 5
      ⟨0, 0, none, none, 1, 1, (regularObj (1/2) 1 4, ())⟩).trace).length = 5 := by
    simp [fbRun, runAlg, List.range, List.range.loop, iterLoop, objAlg, objUpdate, parts, hA.1, hA.2,
        metricsStep, bind, Except.bind, pure, Except.pure, updates]
  obtain ⟨o, ho⟩ := hr
  obtain ⟨x, h1, -, h2⟩ := C43_rate_classical abs_convex sq_above sq_smooth softR_exact A 5 0 1 () one_pos
    (by norm_num) o ho 5 (by norm_num) hl 2 two_minimises
  refine ⟨o, x, ho, h1, ?_⟩
  norm_num at h2
  linarith

/-- C41's hypotheses are met by the same problem. -/
example (R : Rules Unit ℝ) : (step (fun x : ℝ => x - 3) softR R ⟨2, 2, none, none, 1, 1, ()⟩).zOld = 2 := by
  refine ((C41_fixed_points_are_minimisers abs_convex sq_above (fun x => ?_) softR_exact R
    ⟨2, 2, none, none, 1, 1, ()⟩ 2 one_pos rfl rfl).2 two_minimises).2
  have h := (((hasDerivAt_id x).sub_const 3).pow 2).const_mul (1 / 2 : ℝ)
  have h2 := h.hasFDerivAt
  refine h2.congr_fderiv ?_
  ext
  simp [innerSL_apply_apply]
end Example

end Verif
