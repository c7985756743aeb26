import Verif.Model.PrimalDual
import Verif.Spec.Saddle
import Verif.Props.ForwardBackward

/-!
# C49, C79: the Condat primal-dual algorithm
-/

set_option linter.unusedSectionVars false

namespace Verif
open Spec Condat RealInnerProductSpace

section
variable {E H : Type} [NormedAddCommGroup E] [InnerProductSpace ℝ E] [NormedAddCommGroup H]
  [InnerProductSpace ℝ H]

/-- The assumptions on the operators: convex terms with exact proximity operators, a convex smooth part,
and an adjoint pair. -/
structure CondatOk (C : Set E) (D : Set H) (F g : E → ℝ) (h : H → ℝ) (O : Ops E H) : Prop where
  convexG : ConvexOn ℝ C g
  convexH : ConvexOn ℝ D h
  tangents : AboveTangents F O.grad
  deriv : ∀ x, HasFDerivAt F (innerSL ℝ (O.grad x)) x
  prox : ExactProx C g O.prox
  proxDual : ExactProx D h O.proxDual
  adjoint : ∀ x y, ⟪O.op x, y⟫ = ⟪x, O.adj y⟫

theorem CondatOk.op_sub {C : Set E} {D : Set H} {F g : E → ℝ} {h : H → ℝ} {O : Ops E H}
    (ok : CondatOk C D F g h O) (u x : E) : O.op (u - x) = O.op u - O.op x := by
  apply ext_inner_right ℝ
  intro y
  rw [inner_sub_left, ok.adjoint, ok.adjoint, ok.adjoint, inner_sub_left]

/-- What one half step satisfies: the first-order conditions of its two proximity operators. -/
theorem half_conditions {C : Set E} {D : Set H} {F g : E → ℝ} {h : H → ℝ} {O : Ops E H}
    (ok : CondatOk C D F g h O) (s : St E H) (hs : 0 < s.sigma) :
    ((half O s).1 ∈ C ∧ ∀ u ∈ C, ⟪s.x - s.tau • O.grad s.x - s.tau • O.adj s.y - (half O s).1, u - (half O s).1⟫
      ≤ g u - g (half O s).1) ∧
    ∃ p ∈ D, (half O s).2 = s.y + s.sigma • O.op ((2 : ℝ) • (half O s).1 - s.x) - s.sigma • p ∧
      ∀ v ∈ D, h p + ⟪(half O s).2, v - p⟫ ≤ h v := by
  constructor
  · have hp := ok.prox (s.x - s.tau • O.grad s.x - s.tau • O.adj s.y) 1 one_pos
    refine ⟨hp.1, fun u hu => ?_⟩
    have := hp.variational ok.convexG zero_le_one hu
    rw [one_mul] at this
    exact this
  · have hσ : 0 < 1 / s.sigma := by positivity
    set yt := s.y + s.sigma • O.op ((2 : ℝ) • (half O s).1 - s.x) with hyt
    have hq := ok.proxDual ((1 / s.sigma) • yt) (1 / s.sigma) hσ
    refine ⟨O.proxDual ((1 / s.sigma) • yt) (1 / s.sigma), hq.1, rfl, fun v hv => ?_⟩
    have := hq.variational ok.convexH hσ.le hv
    set p := O.proxDual ((1 / s.sigma) • yt) (1 / s.sigma) with hp
    have e : (half O s).2 = s.sigma • ((1 / s.sigma) • yt - p) := by
      have e1 : (half O s).2 = yt - s.sigma • p := rfl
      rw [e1, smul_sub, smul_smul, mul_one_div_cancel hs.ne', one_smul]
    rw [e, real_inner_smul_left]
    have h2 := mul_le_mul_of_nonneg_left this hs.le
    rw [← mul_assoc, mul_one_div_cancel hs.ne', one_mul] at h2
    linarith

/-- C49: for `ρ ≠ 0` a Condat update leaves `(x, y)` unchanged exactly when `(x, y)` is a saddle point of
`F + (1/τ)·g + h ∘ L`; the factor `1/τ` is there because the code calls the primal proximity operator
without the step size. -/
theorem C49_fixed_iff_saddle {C : Set E} {D : Set H} {F g : E → ℝ} {h : H → ℝ} {O : Ops E H}
    (ok : CondatOk C D F g h O) (U : Upd) (s : St E H) (hr : s.rho ≠ 0) (hs : 0 < s.sigma) (ht : 0 < s.tau) :
    ((step O U s).x = s.x ∧ (step O U s).y = s.y) ↔
      IsSaddle C D F (fun u => 1 / s.tau * g u) h O.op s.x s.y := by
  have hfix : ((step O U s).x = s.x ∧ (step O U s).y = s.y) ↔ half O s = (s.x, s.y) := by
    have e1 : (step O U s).x = s.x ↔ (half O s).1 = s.x := by
      have : (step O U s).x = s.x + s.rho • ((half O s).1 - s.x) := by simp only [step]; module
      rw [this, add_eq_left, smul_eq_zero, sub_eq_zero]; simp [hr]
    have e2 : (step O U s).y = s.y ↔ (half O s).2 = s.y := by
      have : (step O U s).y = s.y + s.rho • ((half O s).2 - s.y) := by simp only [step]; module
      rw [this, add_eq_left, smul_eq_zero, sub_eq_zero]; simp [hr]
    rw [e1, e2, Prod.ext_iff]
  rw [hfix]
  constructor
  · intro hh
    obtain ⟨⟨hxC, hx⟩, p, hpD, hy, hp⟩ := half_conditions ok s hs
    rw [hh] at hxC hx hy hp
    simp only at hxC hx hy hp
    have e2x : (2 : ℝ) • s.x - s.x = s.x := by module
    rw [e2x] at hy
    have hpx : p = O.op s.x := by
      have : s.sigma • (O.op s.x - p) = 0 := by
        rw [smul_sub]
        have := hy.symm
        rw [add_sub_assoc, add_eq_left] at this
        exact this
      rcases smul_eq_zero.1 this with h0 | h0
      · exact absurd h0 hs.ne'
      · exact (sub_eq_zero.1 h0).symm
    subst hpx
    refine ⟨⟨hxC, fun u hu => ?_⟩, hpD, hp⟩
    have h1 := hx u hu
    have h2 := ok.tangents s.x u
    have e : s.x - s.tau • O.grad s.x - s.tau • O.adj s.y - s.x = -(s.tau • (O.grad s.x + O.adj s.y)) := by
      module
    rw [e, inner_neg_left, real_inner_smul_left, inner_add_left] at h1
    have e3 : ⟪O.adj s.y, u - s.x⟫ = ⟪O.op u, s.y⟫ - ⟪O.op s.x, s.y⟫ := by
      rw [real_inner_comm, ← ok.adjoint, ok.op_sub, inner_sub_left]
    rw [e3] at h1
    simp only
    have h3 : 1 / s.tau * g s.x - 1 / s.tau * g u
        ≤ ⟪O.grad s.x, u - s.x⟫ + (⟪O.op u, s.y⟫ - ⟪O.op s.x, s.y⟫) := by
      have h4 : g s.x - g u ≤ s.tau * (⟪O.grad s.x, u - s.x⟫ + (⟪O.op u, s.y⟫ - ⟪O.op s.x, s.y⟫)) := by
        linarith
      rw [← mul_sub, one_div, inv_mul_le_iff₀ ht]
      exact h4
    linarith
  · intro hsad
    have h1 : (half O s).1 = s.x := by
      refine (ok.prox _ 1 one_pos).unique ok.convexG zero_le_one
        (isProxOn_of_variational hsad.primal.1 fun u hu => ?_)
      have hfd : HasFDerivAt (fun u => F u + ⟪O.op u, s.y⟫) (innerSL ℝ (O.grad s.x + O.adj s.y)) s.x := by
        have hl : HasFDerivAt (fun u => ⟪O.op u, s.y⟫) (innerSL ℝ (O.adj s.y)) s.x := by
          have : (fun u => ⟪O.op u, s.y⟫) = fun u => innerSL ℝ (O.adj s.y) u := by
            funext u; rw [innerSL_apply_apply, ok.adjoint, real_inner_comm]
          rw [this]
          exact (innerSL ℝ (O.adj s.y)).hasFDerivAt
        have := (ok.deriv s.x).add hl
        rwa [← map_add] at this
      have hg' : ConvexOn ℝ C (fun u => 1 / s.tau * g u) := by
        have := ok.convexG.smul (show (0 : ℝ) ≤ 1 / s.tau by positivity)
        simpa [smul_eq_mul] using this
      have hm : Minimises C (fun u => (F u + ⟪O.op u, s.y⟫) + 1 / s.tau * g u) s.x := by
        refine ⟨hsad.primal.1, fun u hu => ?_⟩
        have := hsad.primal.2 u hu
        simp only at this ⊢
        linarith
      have hfo := hm.first_order hg' hfd hu
      have e : s.x - s.tau • O.grad s.x - s.tau • O.adj s.y - s.x = -(s.tau • (O.grad s.x + O.adj s.y)) := by
        module
      rw [e, inner_neg_left, real_inner_smul_left]
      rw [← mul_sub, one_div, inv_mul_le_iff₀ ht] at hfo
      linarith
    have h2 : (half O s).2 = s.y := by
      have hσ : 0 < 1 / s.sigma := by positivity
      have e2x : (2 : ℝ) • s.x - s.x = s.x := by module
      have e : O.proxDual ((1 / s.sigma) • (s.y + s.sigma • O.op s.x)) (1 / s.sigma) = O.op s.x := by
        refine (ok.proxDual _ _ hσ).unique ok.convexH hσ.le (isProxOn_of_variational hsad.mem fun v hv => ?_)
        have e : (1 / s.sigma) • (s.y + s.sigma • O.op s.x) - O.op s.x = (1 / s.sigma) • s.y := by
          rw [smul_add, smul_smul, one_div_mul_cancel hs.ne', one_smul]; abel
        rw [e, real_inner_smul_left]
        have := mul_le_mul_of_nonneg_left (hsad.dual v hv) hσ.le
        linarith
      have e3 : (half O s).2 = s.y + s.sigma • O.op ((2 : ℝ) • (half O s).1 - s.x) - s.sigma •
          O.proxDual ((1 / s.sigma) • (s.y + s.sigma • O.op ((2 : ℝ) • (half O s).1 - s.x))) (1 / s.sigma) := rfl
      rw [e3, h1, e2x, e]
      abel
    exact Prod.ext h1 h2

/-- C49: the solution at a fixed point minimises `F + (1/τ)·g + h ∘ L`; in particular, when the primal
term is a constraint (`g = 0` on `C`, as for positivity), it minimises `F + h ∘ L` over `C` for every
`τ`. -/
theorem C49_fixed_minimises {C : Set E} {D : Set H} {F g : E → ℝ} {h : H → ℝ} {O : Ops E H}
    (ok : CondatOk C D F g h O) (U : Upd) (s : St E H) (hr : s.rho ≠ 0) (hs : 0 < s.sigma) (ht : 0 < s.tau)
    (hfix : (step O U s).x = s.x ∧ (step O U s).y = s.y) :
    Minimises {u | u ∈ C ∧ O.op u ∈ D} (fun u => F u + 1 / s.tau * g u + h (O.op u)) s.x ∧
    ((∀ u, g u = 0) → Minimises {u | u ∈ C ∧ O.op u ∈ D} (fun u => F u + h (O.op u)) s.x) := by
  have h1 := ((C49_fixed_iff_saddle ok U s hr hs ht).1 hfix).minimises
  refine ⟨h1, fun hg => ?_⟩
  simpa [hg] using h1

/-! ## C79 -/

/-- The squared norm in which Condat's iterations are measured:
`‖x‖²/τ - 2⟨L x, y⟩ + ‖y‖²/σ`. -/
noncomputable def condatNorm (O : Ops E H) (sigma tau : ℝ) (x : E) (y : H) : ℝ :=
  1 / tau * ‖x‖ ^ 2 - 2 * ⟪O.op x, y⟫ + 1 / sigma * ‖y‖ ^ 2

theorem cocoercive {F : E → ℝ} {G : E → E} {L : ℝ} (hF : AboveTangents F G) (hS : Smooth F G L) (hL : 0 < L)
    (x y : E) : 1 / L * ‖G x - G y‖ ^ 2 ≤ ⟪G x - G y, x - y⟫ := by
  have key : ∀ x y, F x + ⟪G x, y - x⟫ + 1 / (2 * L) * ‖G y - G x‖ ^ 2 ≤ F y := by
    intro x y
    set d := G y - G x with hd
    have h1 := hF x (y - (1 / L) • d)
    have h2 := hS y (y - (1 / L) • d)
    have e1 : y - (1 / L) • d - x = (y - x) - (1 / L) • d := by abel
    have e2 : y - (1 / L) • d - y = -((1 / L) • d) := by abel
    rw [e1, inner_sub_right, real_inner_smul_right] at h1
    rw [e2, inner_neg_right, real_inner_smul_right, norm_neg, norm_smul, mul_pow, Real.norm_eq_abs, sq_abs] at h2
    have e3 : ⟪G y, d⟫ - ⟪G x, d⟫ = ‖d‖ ^ 2 := by
      rw [← inner_sub_left, ← hd, real_inner_self_eq_norm_sq]
    have e4 : L / 2 * ((1 / L) ^ 2 * ‖d‖ ^ 2) = 1 / (2 * L) * ‖d‖ ^ 2 := by field_simp
    have e5 : 1 / L * ⟪G y, d⟫ - 1 / L * ⟪G x, d⟫ = 1 / L * ‖d‖ ^ 2 := by rw [← mul_sub, e3]
    have e6 : 1 / L * ‖d‖ ^ 2 = 2 * (1 / (2 * L) * ‖d‖ ^ 2) := by field_simp
    rw [e4] at h2
    linarith
  have h1 := key x y
  have h2 := key y x
  have e : ‖G y - G x‖ = ‖G x - G y‖ := norm_sub_rev _ _
  rw [e] at h1
  have e1 : ⟪G x - G y, x - y⟫ = -⟪G x, y - x⟫ - ⟪G y, x - y⟫ := by
    rw [inner_sub_left, ← inner_neg_right, neg_sub]
  have e2 : 1 / L * ‖G x - G y‖ ^ 2 = 1 / (2 * L) * ‖G x - G y‖ ^ 2 + 1 / (2 * L) * ‖G x - G y‖ ^ 2 := by
    field_simp; ring
  rw [e1, e2]
  linarith

/-- One half step: it does not increase the distance to a saddle point, by at least its own length. -/
theorem half_fejer {C : Set E} {D : Set H} {F g : E → ℝ} {h : H → ℝ} {O : Ops E H} {Lf : ℝ}
    (ok : CondatOk C D F g h O) (hS : Smooth F O.grad Lf) (hLf : 0 < Lf) (s : St E H) (hs : 0 < s.sigma)
    (ht : 0 < s.tau) {x y} (hsad : IsSaddle C D F (fun u => 1 / s.tau * g u) h O.op x y) :
    condatNorm O s.sigma s.tau ((half O s).1 - x) ((half O s).2 - y)
      + (condatNorm O s.sigma s.tau (s.x - (half O s).1) (s.y - (half O s).2)
          - Lf / 2 * ‖s.x - (half O s).1‖ ^ 2)
      ≤ condatNorm O s.sigma s.tau (s.x - x) (s.y - y) := by
  obtain ⟨⟨hxC, hx⟩, p, hpD, hy, hp⟩ := half_conditions ok s hs
  set a := (half O s).1 with ha
  set b := (half O s).2 with hb
  -- optimality of the saddle point, read off from the fixed-point characterisation
  have hfo : ∀ u ∈ C, -(s.tau * (⟪O.grad x, u - x⟫ + ⟪O.adj y, u - x⟫)) ≤ g u - g x := by
    intro u hu
    have hfix := (C49_fixed_iff_saddle ok ⟨none, none, none⟩ ⟨x, y, 1, s.sigma, s.tau⟩ one_ne_zero hs ht).2 hsad
    obtain ⟨⟨_, h1⟩, _⟩ := half_conditions ok ⟨x, y, 1, s.sigma, s.tau⟩ hs
    have e0 : (half O ⟨x, y, 1, s.sigma, s.tau⟩).1 = x := by
      have := hfix.1
      simpa [step] using this
    rw [e0] at h1
    have := h1 u hu
    simp only at this
    have e : x - s.tau • O.grad x - s.tau • O.adj y - x = -(s.tau • (O.grad x + O.adj y)) := by module
    rw [e, inner_neg_left, real_inner_smul_left, inner_add_left] at this
    linarith
  have i1 := hx x hsad.primal.1
  have i2 := hfo a hxC
  have i3 := hp (O.op x) hsad.mem
  have i4 := hsad.dual p hpD
  -- gradient terms
  have hco := cocoercive ok.tangents hS hLf s.x x
  set d := O.grad s.x - O.grad x with hd
  have hcs : -(‖d‖ * ‖s.x - a‖) ≤ ⟪d, a - s.x⟫ := by
    have := abs_real_inner_le_norm d (a - s.x)
    rw [norm_sub_rev a] at this
    exact (abs_le.1 this).1
  have hyoung : ‖d‖ * ‖s.x - a‖ ≤ 1 / Lf * ‖d‖ ^ 2 + Lf / 4 * ‖s.x - a‖ ^ 2 := by
    have h5 := sq_nonneg (‖d‖ - Lf / 2 * ‖s.x - a‖)
    have h6 : 0 ≤ 1 / Lf * (‖d‖ - Lf / 2 * ‖s.x - a‖) ^ 2 := by positivity
    have h7 : 1 / Lf * (‖d‖ - Lf / 2 * ‖s.x - a‖) ^ 2
        = 1 / Lf * ‖d‖ ^ 2 - ‖d‖ * ‖s.x - a‖ + Lf / 4 * ‖s.x - a‖ ^ 2 := by
      field_simp
      ring
    linarith
  have hgrad : -(Lf / 4 * ‖s.x - a‖ ^ 2) ≤ ⟪d, a - x⟫ := by
    have e : ⟪d, a - x⟫ = ⟪d, s.x - x⟫ + ⟪d, a - s.x⟫ := by
      rw [← inner_add_right]; congr 1; abel
    rw [e]
    linarith
  -- primal inequality
  have hprim : ⟪s.x - a, x - a⟫ + s.tau * ⟪d, a - x⟫ + s.tau * ⟪O.op (a - x), s.y - y⟫ ≤ 0 := by
    have e1 : s.x - s.tau • O.grad s.x - s.tau • O.adj s.y - a
        = (s.x - a) - s.tau • O.grad s.x - s.tau • O.adj s.y := by abel
    have hxa : ∀ v : E, ⟪v, x - a⟫ = -⟪v, a - x⟫ := fun v => by rw [← inner_neg_right, neg_sub]
    rw [e1, inner_sub_left, inner_sub_left, real_inner_smul_left, real_inner_smul_left, hxa (O.grad s.x),
      hxa (O.adj s.y)] at i1
    have e2 : ⟪d, a - x⟫ = ⟪O.grad s.x, a - x⟫ - ⟪O.grad x, a - x⟫ := inner_sub_left _ _ _
    have e3 : ⟪O.op (a - x), s.y - y⟫ = ⟪O.adj s.y, a - x⟫ - ⟪O.adj y, a - x⟫ := by
      rw [inner_sub_right, ok.adjoint, ok.adjoint, real_inner_comm (O.adj s.y), real_inner_comm (O.adj y)]
    rw [e2, e3]
    linarith
  -- dual inequality
  have hdual : 0 ≤ ⟪b - y, p - O.op x⟫ := by
    have e : ⟪b - y, p - O.op x⟫ = -⟪b, O.op x - p⟫ - ⟪y, p - O.op x⟫ := by
      rw [inner_sub_left, ← inner_neg_right, neg_sub]
    rw [e]; linarith
  have hpe : s.sigma • p = (s.y - b) + s.sigma • O.op ((2 : ℝ) • a - s.x) := by rw [hy]; abel
  have hop : O.op ((2 : ℝ) • a - s.x) = O.op (a - s.x) + O.op a := by
    have e1 : (2 : ℝ) • a - s.x = (a - s.x) - (0 - a) := by module
    rw [e1, ok.op_sub, ok.op_sub 0 a]
    have : O.op 0 = 0 := by have := ok.op_sub 0 0; rw [sub_self] at this; rw [this]; exact sub_self _
    rw [this]; abel
  have hdual2 : 0 ≤ ⟪b - y, s.y - b⟫ + s.sigma * (⟪b - y, O.op (a - s.x)⟫ + ⟪b - y, O.op (a - x)⟫) := by
    have h5 := mul_nonneg hs.le hdual
    rw [← real_inner_smul_right, smul_sub, hpe, hop] at h5
    have e : s.y - b + s.sigma • (O.op (a - s.x) + O.op a) - s.sigma • O.op x
        = (s.y - b) + s.sigma • (O.op (a - s.x) + O.op (a - x)) := by rw [ok.op_sub a x]; module
    rw [e, inner_add_right, real_inner_smul_right, inner_add_right] at h5
    exact h5
  -- combine
  have n1 : ‖s.x - x‖ ^ 2 = ‖s.x - a‖ ^ 2 + ‖a - x‖ ^ 2 - 2 * ⟪s.x - a, x - a⟫ := by
    have e : s.x - x = (s.x - a) - (x - a) := by abel
    rw [e, norm_sub_sq_real (s.x - a), norm_sub_rev x a]; ring
  have n2 : ‖s.y - y‖ ^ 2 = ‖s.y - b‖ ^ 2 + ‖b - y‖ ^ 2 + 2 * ⟪b - y, s.y - b⟫ := by
    have e : s.y - y = (s.y - b) + (b - y) := by abel
    rw [e, norm_add_sq_real, real_inner_comm]; ring
  have c1 : ⟪O.op (s.x - x), s.y - y⟫ = ⟪O.op (s.x - a), s.y - b⟫ + ⟪O.op (s.x - a), b - y⟫
      + ⟪O.op (a - x), s.y - y⟫ := by
    have e : O.op (s.x - x) = O.op (s.x - a) + O.op (a - x) := by
      rw [ok.op_sub, ok.op_sub, ok.op_sub]; abel
    rw [e, inner_add_left, ← inner_add_right]
    congr 2; abel
  have c2 : ⟪b - y, O.op (a - s.x)⟫ = -⟪O.op (s.x - a), b - y⟫ := by
    have e : O.op (a - s.x) = -O.op (s.x - a) := by rw [ok.op_sub, ok.op_sub]; abel
    rw [e, inner_neg_right, real_inner_comm]
  have c3 : ⟪b - y, O.op (a - x)⟫ = ⟪O.op (a - x), b - y⟫ := real_inner_comm _ _
  have m1 : 1 / s.tau * ⟪s.x - a, x - a⟫ + ⟪d, a - x⟫ + ⟪O.op (a - x), s.y - y⟫ ≤ 0 := by
    have h5 := mul_nonpos_of_nonneg_of_nonpos (show 0 ≤ 1 / s.tau by positivity) hprim
    have e : 1 / s.tau * (⟪s.x - a, x - a⟫ + s.tau * ⟪d, a - x⟫ + s.tau * ⟪O.op (a - x), s.y - y⟫)
        = 1 / s.tau * ⟪s.x - a, x - a⟫ + ⟪d, a - x⟫ + ⟪O.op (a - x), s.y - y⟫ := by
      field_simp
    linarith
  have m2 : 0 ≤ 1 / s.sigma * ⟪b - y, s.y - b⟫ - ⟪O.op (s.x - a), b - y⟫ + ⟪O.op (a - x), b - y⟫ := by
    have h5 := mul_nonneg (show 0 ≤ 1 / s.sigma by positivity) hdual2
    have e : 1 / s.sigma * (⟪b - y, s.y - b⟫ + s.sigma * (⟪b - y, O.op (a - s.x)⟫ + ⟪b - y, O.op (a - x)⟫))
        = 1 / s.sigma * ⟪b - y, s.y - b⟫ + ⟪b - y, O.op (a - s.x)⟫ + ⟪b - y, O.op (a - x)⟫ := by
      field_simp
      ring
    rw [e, c2, c3] at h5
    linarith
  simp only [condatNorm]
  rw [n1, n2, c1]
  nlinarith

/-- C79: what one Condat update does to the distance to a saddle point, in the metric of the algorithm, for any
relaxation `ρ ≥ 0`. -/
theorem C79_condat_fejer {C : Set E} {D : Set H} {F g : E → ℝ} {h : H → ℝ} {O : Ops E H} {Lf : ℝ}
    (ok : CondatOk C D F g h O) (hS : Smooth F O.grad Lf) (hLf : 0 < Lf) (U : Upd) (s : St E H)
    (hs : 0 < s.sigma) (ht : 0 < s.tau) (hr0 : 0 ≤ s.rho)
    {x y} (hsad : IsSaddle C D F (fun u => 1 / s.tau * g u) h O.op x y) :
    condatNorm O s.sigma s.tau ((step O U s).x - x) ((step O U s).y - y)
      + s.rho * ((2 - s.rho) * condatNorm O s.sigma s.tau (s.x - (half O s).1) (s.y - (half O s).2)
          - Lf / 2 * ‖s.x - (half O s).1‖ ^ 2)
      ≤ condatNorm O s.sigma s.tau (s.x - x) (s.y - y) := by
  have hf := half_fejer ok hS hLf s hs ht hsad
  set a := (half O s).1 with ha
  set b := (half O s).2 with hb
  have ex : (step O U s).x - x = s.rho • (a - x) + (1 - s.rho) • (s.x - x) := by simp only [step]; module
  have ey : (step O U s).y - y = s.rho • (b - y) + (1 - s.rho) • (s.y - y) := by simp only [step]; module
  have hadd : ∀ u v : E, O.op (u + v) = O.op u + O.op v := by
    intro u v
    apply ext_inner_right ℝ
    intro w
    rw [inner_add_left, ok.adjoint, ok.adjoint, ok.adjoint, inner_add_left]
  have hsm : ∀ (c : ℝ) (u : E), O.op (c • u) = c • O.op u := by
    intro c u
    apply ext_inner_right ℝ
    intro w
    rw [real_inner_smul_left, ok.adjoint, ok.adjoint, real_inner_smul_left]
  -- the metric is quadratic
  have hconv : ∀ (u v : E) (p q : H), condatNorm O s.sigma s.tau (s.rho • u + (1 - s.rho) • v)
      (s.rho • p + (1 - s.rho) • q) = s.rho * condatNorm O s.sigma s.tau u p
        + (1 - s.rho) * condatNorm O s.sigma s.tau v q
        - s.rho * (1 - s.rho) * condatNorm O s.sigma s.tau (u - v) (p - q) := by
    intro u v p q
    simp only [condatNorm]
    have e1 : ‖s.rho • u + (1 - s.rho) • v‖ ^ 2
        = s.rho ^ 2 * ‖u‖ ^ 2 + 2 * (s.rho * (1 - s.rho) * ⟪u, v⟫) + (1 - s.rho) ^ 2 * ‖v‖ ^ 2 := by
      rw [norm_add_sq_real, norm_smul, norm_smul, mul_pow, mul_pow, Real.norm_eq_abs, Real.norm_eq_abs, sq_abs,
        sq_abs, real_inner_smul_left, real_inner_smul_right]
      ring
    have e2 : ‖s.rho • p + (1 - s.rho) • q‖ ^ 2
        = s.rho ^ 2 * ‖p‖ ^ 2 + 2 * (s.rho * (1 - s.rho) * ⟪p, q⟫) + (1 - s.rho) ^ 2 * ‖q‖ ^ 2 := by
      rw [norm_add_sq_real, norm_smul, norm_smul, mul_pow, mul_pow, Real.norm_eq_abs, Real.norm_eq_abs, sq_abs,
        sq_abs, real_inner_smul_left, real_inner_smul_right]
      ring
    rw [e1, e2, norm_sub_sq_real, norm_sub_sq_real, hadd, hsm, hsm, ok.op_sub]
    simp only [inner_add_left, inner_add_right, inner_sub_left, inner_sub_right, real_inner_smul_left,
      real_inner_smul_right]
    ring
  rw [ex, ey, hconv]
  have h1 := mul_le_mul_of_nonneg_left hf hr0
  have h2 : condatNorm O s.sigma s.tau (a - x - (s.x - x)) (b - y - (s.y - y))
      = condatNorm O s.sigma s.tau (s.x - a) (s.y - b) := by
    have e1 : a - x - (s.x - x) = -(s.x - a) := by abel
    have e2 : b - y - (s.y - y) = -(s.y - b) := by abel
    have e3 : O.op (-(s.x - a)) = -O.op (s.x - a) := by
      have := hsm (-1) (s.x - a)
      simpa using this
    rw [e1, e2]
    simp only [condatNorm, norm_neg, e3, inner_neg_neg]
  rw [h2]
  linarith

/-- C79: with constant parameters, `0 ≤ ρ < 2` and `(2 - ρ)(1/τ - σ‖L‖²) ≥ L_F/2` (in the form of a positivity
condition on the metric; for `ρ ≤ 1` it follows from `1/τ - σ‖L‖² ≥ L_F/2`), a Condat update never moves away from a
saddle point, in the metric of the algorithm. -/
theorem C79_condat_never_away {C : Set E} {D : Set H} {F g : E → ℝ} {h : H → ℝ} {O : Ops E H} {Lf : ℝ}
    (ok : CondatOk C D F g h O) (hS : Smooth F O.grad Lf) (hLf : 0 < Lf) (U : Upd) (s : St E H)
    (hs : 0 < s.sigma) (ht : 0 < s.tau) (hr0 : 0 ≤ s.rho)
    (hm : ∀ x y, Lf / 2 * ‖x‖ ^ 2 ≤ (2 - s.rho) * condatNorm O s.sigma s.tau x y)
    {x y} (hsad : IsSaddle C D F (fun u => 1 / s.tau * g u) h O.op x y) :
    condatNorm O s.sigma s.tau ((step O U s).x - x) ((step O U s).y - y)
      ≤ condatNorm O s.sigma s.tau (s.x - x) (s.y - y) := by
  have h1 := C79_condat_fejer ok hS hLf U s hs ht hr0 hsad
  have h2 := mul_nonneg hr0 (sub_nonneg.2 (hm (s.x - (half O s).1) (s.y - (half O s).2)))
  linarith

/-- State after `n` updates. -/
noncomputable def condatAfter (O : Ops E H) (U : Upd) (s : St E H) : ℕ → St E H
  | 0 => s
  | n + 1 => step O U (condatAfter O U s n)

/-- C79 along a whole run with constant parameters: the distance to any saddle point never exceeds the
initial one, and the fixed-point residuals are non-negative and summable: `ρ·∑ₖ r(k) ≤ ‖w₀ - w*‖²`, so some residual among
the first `n` is at most `‖w₀ - w*‖²/(ρ n)`. -/
theorem C79_condat_run {C : Set E} {D : Set H} {F g : E → ℝ} {h : H → ℝ} {O : Ops E H} {Lf : ℝ}
    (ok : CondatOk C D F g h O) (hS : Smooth F O.grad Lf) (hLf : 0 < Lf) (s : St E H)
    (hs : 0 < s.sigma) (ht : 0 < s.tau) (hr0 : 0 ≤ s.rho)
    (hm : ∀ x y, Lf / 2 * ‖x‖ ^ 2 ≤ (2 - s.rho) * condatNorm O s.sigma s.tau x y)
    {x y} (hsad : IsSaddle C D F (fun u => 1 / s.tau * g u) h O.op x y) (n : ℕ) :
    condatNorm O s.sigma s.tau ((condatAfter O ⟨none, none, none⟩ s n).x - x)
        ((condatAfter O ⟨none, none, none⟩ s n).y - y)
      + s.rho * (Finset.range n).sum (fun k =>
          let t := condatAfter O ⟨none, none, none⟩ s k
          (2 - s.rho) * condatNorm O s.sigma s.tau (t.x - (half O t).1) (t.y - (half O t).2)
            - Lf / 2 * ‖t.x - (half O t).1‖ ^ 2)
      ≤ condatNorm O s.sigma s.tau (s.x - x) (s.y - y) ∧
    (∀ k, let t := condatAfter O ⟨none, none, none⟩ s k
      0 ≤ (2 - s.rho) * condatNorm O s.sigma s.tau (t.x - (half O t).1) (t.y - (half O t).2)
        - Lf / 2 * ‖t.x - (half O t).1‖ ^ 2) := by
  have hpar : ∀ k, (condatAfter O ⟨none, none, none⟩ s k).rho = s.rho ∧
      (condatAfter O ⟨none, none, none⟩ s k).sigma = s.sigma ∧
      (condatAfter O ⟨none, none, none⟩ s k).tau = s.tau := by
    intro k
    induction k with
    | zero => exact ⟨rfl, rfl, rfl⟩
    | succ k ih => exact ih
  refine ⟨?_, fun k => sub_nonneg.2 (hm _ _)⟩
  induction n with
  | zero => simp [condatAfter]
  | succ n ih =>
    obtain ⟨p1, p2, p3⟩ := hpar n
    have := C79_condat_fejer ok hS hLf ⟨none, none, none⟩ (condatAfter O ⟨none, none, none⟩ s n)
      (by rw [p2]; exact hs) (by rw [p3]; exact ht) (by rw [p1]; exact hr0) (by rw [p3]; exact hsad)
    rw [p1, p2, p3] at this
    rw [Finset.sum_range_succ, mul_add]
    simp only [condatAfter] at this ⊢
    linarith

/-- The metric is bounded below when `1/τ - σ‖L‖²` is. -/
theorem condatNorm_lower (O : Ops E H) (sigma tau Lf nL : ℝ) (hs : 0 < sigma)
    (hn : ∀ x, ‖O.op x‖ ≤ nL * ‖x‖) (hc : Lf / 2 ≤ 1 / tau - sigma * nL ^ 2) (x : E) (y : H) :
    Lf / 2 * ‖x‖ ^ 2 ≤ condatNorm O sigma tau x y := by
  have h1 : ⟪O.op x, y⟫ ≤ ‖O.op x‖ * ‖y‖ := real_inner_le_norm _ _
  have h2 : ‖O.op x‖ ^ 2 ≤ nL ^ 2 * ‖x‖ ^ 2 := by
    rw [← mul_pow]; exact pow_le_pow_left₀ (norm_nonneg _) (hn x) 2
  have h3 : 2 * (‖O.op x‖ * ‖y‖) ≤ sigma * ‖O.op x‖ ^ 2 + 1 / sigma * ‖y‖ ^ 2 := by
    have h4 : 0 ≤ 1 / sigma * (sigma * ‖O.op x‖ - ‖y‖) ^ 2 := by positivity
    have h5 : 1 / sigma * (sigma * ‖O.op x‖ - ‖y‖) ^ 2
        = sigma * ‖O.op x‖ ^ 2 - 2 * (‖O.op x‖ * ‖y‖) + 1 / sigma * ‖y‖ ^ 2 := by field_simp; ring
    linarith
  have h6 := mul_le_mul_of_nonneg_left h2 hs.le
  have h7 := mul_le_mul_of_nonneg_right hc (sq_nonneg ‖x‖)
  simp only [condatNorm]
  nlinarith

/-- The positivity condition follows from `(2 - ρ)(1/τ - σ‖L‖²) ≥ L_F/2`. -/
theorem C79_metric_condition (O : Ops E H) (sigma tau rho Lf nL : ℝ) (hs : 0 < sigma) (hr : rho < 2)
    (hn : ∀ x, ‖O.op x‖ ≤ nL * ‖x‖) (hc : Lf / 2 ≤ (2 - rho) * (1 / tau - sigma * nL ^ 2)) (x : E) (y : H) :
    Lf / 2 * ‖x‖ ^ 2 ≤ (2 - rho) * condatNorm O sigma tau x y := by
  have h2 : 0 < 2 - rho := by linarith
  have h1 := condatNorm_lower O sigma tau (Lf / (2 - rho)) nL hs hn
    (by rw [div_div, mul_comm, ← div_div, div_le_iff₀ h2]; linarith) x y
  have h3 := mul_le_mul_of_nonneg_left h1 h2.le
  have e : (2 - rho) * (Lf / (2 - rho) / 2 * ‖x‖ ^ 2) = Lf / 2 * ‖x‖ ^ 2 := by field_simp
  linarith

/-- For `ρ ≤ 1` the usual condition of the literature, `1/τ - σ‖L‖² ≥ L_F/2`, is enough. -/
theorem C79_usual_condition (tau sigma rho Lf nL : ℝ) (hr : rho ≤ 1) (hLf : 0 ≤ Lf)
    (hc : Lf / 2 ≤ 1 / tau - sigma * nL ^ 2) : Lf / 2 ≤ (2 - rho) * (1 / tau - sigma * nL ^ 2) := by
  nlinarith

end

/-- C49: when the primal term is not a constraint the scaling matters.  For `F(x) = ½(x-3)²`, `g = |·|`,
`h = 0`, `L = 0` and `τ = 1/2` the update leaves `x = 1` unchanged, but the minimiser of `F + g` is `2`. -/
theorem C49_unscaled_prox :
    let O : Ops ℝ ℝ := ⟨fun x => x - 3, softR, fun v _ => v, fun _ => 0, fun _ => 0⟩
    let s : St ℝ ℝ := ⟨1, 0, 1 / 2, 1, 1 / 2⟩
    (step O ⟨none, none, none⟩ s).x = s.x ∧ (step O ⟨none, none, none⟩ s).y = s.y ∧
    ¬ Minimises Set.univ (fun x : ℝ => 1 / 2 * (x - 3) ^ 2 + |x|) s.x := by
  refine ⟨?_, ?_, ?_⟩
  · simp only [step, half, softR, smul_eq_mul]; norm_num
  · simp only [step, half, softR, smul_eq_mul]; norm_num
  · intro h
    have := h.2 2 (Set.mem_univ _)
    norm_num at this

/-- Non-vacuity of C49 and C79: positivity constraint, data term `½(x-3)²`, `h = |·|`, `L = id`; the saddle
point is `(2, 1)`. -/
theorem condat_example_ok : CondatOk {x : ℝ | 0 ≤ x} Set.univ (fun x : ℝ => 1 / 2 * (x - 3) ^ 2) (fun _ => 0)
    (fun x : ℝ => |x|) ⟨fun x => x - 3, fun y _ => max y 0, softR, id, id⟩ where
  convexG := convexOn_const 0 (by
    intro x hx y hy a b ha hb _
    have hx' : (0 : ℝ) ≤ x := hx
    have hy' : (0 : ℝ) ≤ y := hy
    show (0 : ℝ) ≤ a * x + b * y
    positivity)
  convexH := abs_convex
  tangents := sq_above
  deriv x := by
    have h := (((hasDerivAt_id x).sub_const 3).pow 2).const_mul (1 / 2 : ℝ)
    refine h.hasFDerivAt.congr_fderiv ?_
    ext
    simp [innerSL_apply_apply]
  prox := (C44_x_final_infeasible (M := Unit) (K := Unit)
    ⟨fun _ _ m => .ok m, fun _ => false, fun _ k => .ok (false, k), false, false, none, (), ()⟩ ⟨rfl, rfl⟩).1
  proxDual := softR_exact
  adjoint x y := rfl

theorem condat_example_saddle (tau : ℝ) : IsSaddle {x : ℝ | 0 ≤ x} Set.univ (fun x : ℝ => 1 / 2 * (x - 3) ^ 2)
    (fun _ => 1 / tau * 0) (fun x : ℝ => |x|) id 2 1 where
  primal := by
    refine ⟨show (0 : ℝ) ≤ 2 by norm_num, fun u _ => ?_⟩
    simp only [id, RCLike.inner_apply, conj_trivial]
    nlinarith [sq_nonneg (u - 2)]
  mem := Set.mem_univ _
  dual v _ := by
    simp only [id, RCLike.inner_apply, conj_trivial]
    have := le_abs_self v
    rw [abs_of_pos (by norm_num : (0 : ℝ) < 2)]
    linarith

example : (step (⟨fun x => x - 3, fun y _ => max y 0, softR, id, id⟩ : Ops ℝ ℝ) ⟨none, none, none⟩
    ⟨2, 1, 1 / 2, 1 / 2, 1 / 2⟩).x = 2 :=
  ((C49_fixed_iff_saddle condat_example_ok ⟨none, none, none⟩ ⟨2, 1, 1 / 2, 1 / 2, 1 / 2⟩ (by norm_num)
    (by norm_num) (by norm_num)).2 (condat_example_saddle _)).1

/-- The convergence condition holds for `τ = σ = 1/2` and over-relaxation `ρ = 3/2`
(`(2 - ρ)(1/τ - σ·1) = 3/4 ≥ 1/2`). -/
example (n : ℕ) := C79_condat_run condat_example_ok sq_smooth one_pos ⟨0, 0, 3 / 2, 1 / 2, 1 / 2⟩ (by norm_num)
  (by norm_num) (by norm_num)
  (C79_metric_condition _ _ _ _ _ 1 (by norm_num) (by norm_num) (fun x => by simp) (by norm_num))
  (condat_example_saddle _) n

example := C79_condat_never_away condat_example_ok sq_smooth one_pos ⟨none, none, none⟩ ⟨0, 0, 3 / 2, 1 / 2, 1 / 2⟩
  (by norm_num) (by norm_num) (by norm_num)
  (C79_metric_condition _ _ _ _ _ 1 (by norm_num) (by norm_num) (fun x => by simp) (by norm_num))
  (condat_example_saddle _)

end Verif
