import Verif.Props.Duality
import Verif.Spec.Ergodic
import Mathlib.Analysis.Convex.Jensen

/-!
# C149: the rate of the Condat primal-dual algorithm
-/

set_option linter.unusedSectionVars false

namespace Verif
open Spec Condat RealInnerProductSpace

section
variable {E H : Type} [NormedAddCommGroup E] [InnerProductSpace ℝ E] [NormedAddCommGroup H]
  [InnerProductSpace ℝ H]

/-- The bilinear form of `condatNorm`, and the identity of a relaxed step. -/
theorem condatNorm_relaxed {C : Set E} {D : Set H} {F g : E → ℝ} {h : H → ℝ} {O : Ops E H} (ok : CondatOk C D F g h O)
    (sigma tau rho : ℝ) (x xt u : E) (y yt v : H) :
    condatNorm O sigma tau (x - u) (y - v)
        - condatNorm O sigma tau (rho • xt + (1 - rho) • x - u) (rho • yt + (1 - rho) • y - v) =
      2 * rho * (1 / tau * ⟪x - xt, xt - u⟫ - ⟪O.op (x - xt), yt - v⟫ - ⟪O.op (xt - u), y - yt⟫
        + 1 / sigma * ⟪y - yt, yt - v⟫)
      + rho * (2 - rho) * condatNorm O sigma tau (x - xt) (y - yt) := by
  have hL : ∀ (a b : E) (r : ℝ), O.op (a + r • b) = O.op a + r • O.op b := by
    intro a b r
    apply ext_inner_right ℝ
    intro w
    rw [inner_add_left, real_inner_smul_left, ok.adjoint, ok.adjoint, ok.adjoint, inner_add_left, real_inner_smul_left]
  have ex : rho • xt + (1 - rho) • x - u = (xt - u) + (1 - rho) • (x - xt) := by module
  have ey : rho • yt + (1 - rho) • y - v = (yt - v) + (1 - rho) • (y - yt) := by module
  have ex' : x - u = (xt - u) + (1 : ℝ) • (x - xt) := by module
  have ey' : y - v = (yt - v) + (1 : ℝ) • (y - yt) := by module
  have nx : ∀ r : ℝ, ‖(xt - u) + r • (x - xt)‖ ^ 2 = ‖xt - u‖ ^ 2 + 2 * r * ⟪x - xt, xt - u⟫ + r ^ 2 * ‖x - xt‖ ^ 2 := by
    intro r
    rw [norm_add_sq_real, real_inner_smul_right, norm_smul, mul_pow, Real.norm_eq_abs, sq_abs, real_inner_comm]
    ring
  have ny : ∀ r : ℝ, ‖(yt - v) + r • (y - yt)‖ ^ 2 = ‖yt - v‖ ^ 2 + 2 * r * ⟪y - yt, yt - v⟫ + r ^ 2 * ‖y - yt‖ ^ 2 := by
    intro r
    rw [norm_add_sq_real, real_inner_smul_right, norm_smul, mul_pow, Real.norm_eq_abs, sq_abs, real_inner_comm]
    ring
  rw [ex, ey, ex', ey']
  simp only [condatNorm, hL, nx, ny, inner_add_left, inner_add_right, real_inner_smul_left, real_inner_smul_right]
  ring

/-- One update: how far the Lagrangian of the half step is from any other pair. -/
theorem condat_gap_step {C : Set E} {D : Set H} {F g : E → ℝ} {h : H → ℝ} {O : Ops E H} {Lf : ℝ}
    (ok : CondatOk C D F g h O) (hS : Smooth F O.grad Lf) (s : St E H) (hs : 0 < s.sigma) (ht : 0 < s.tau)
    (hr : 0 < s.rho) (hm : ∀ x y, Lf * ‖x‖ ^ 2 ≤ (2 - s.rho) * condatNorm O s.sigma s.tau x y)
    (U : Upd) {u : E} (hu : u ∈ C) {d : H} (hd : d ∈ D) (v : H) (hv : ℝ) (hconj : ∀ d ∈ D, ⟪v, d⟫ - h d ≤ hv) :
    F (half O s).1 + 1 / s.tau * g (half O s).1 + ⟪O.op (half O s).1, v⟫ - hv + (⟪(half O s).2, d⟫ - h d)
      ≤ F u + 1 / s.tau * g u + ⟪O.op u, (half O s).2⟫
        + 1 / (2 * s.rho) * (condatNorm O s.sigma s.tau (s.x - u) (s.y - v)
          - condatNorm O s.sigma s.tau ((step O U s).x - u) ((step O U s).y - v)) := by
  obtain ⟨⟨hxC, hx⟩, p, hpD, hy, hp⟩ := half_conditions ok s hs
  have hid := condatNorm_relaxed ok s.sigma s.tau s.rho s.x (half O s).1 u s.y (half O s).2 v
  have hst : (step O U s).x = s.rho • (half O s).1 + (1 - s.rho) • s.x ∧
    (step O U s).y = s.rho • (half O s).2 + (1 - s.rho) • s.y := ⟨rfl, rfl⟩
  rw [hst.1, hst.2, hid]
  have hM := hm (s.x - (half O s).1) (s.y - (half O s).2)
  generalize (half O s).1 = xt at *
  generalize (half O s).2 = yt at *
  have h1 := ok.tangents s.x u
  have h2 := hS s.x xt
  have h3 := hx u hu
  have h4 := hp d hd
  have h5 := hconj p hpD
  have h6 : 1 / s.tau * (g xt - g u) ≤ 1 / s.tau * ⟪s.x - xt, xt - u⟫ - ⟪O.grad s.x, xt - u⟫ - ⟪O.op (xt - u), s.y⟫ := by
    have e : s.x - s.tau • O.grad s.x - s.tau • O.adj s.y - xt
        = (s.x - xt) - s.tau • (O.grad s.x + O.adj s.y) := by module
    have e2 : u - xt = -(xt - u) := by abel
    rw [e, e2, inner_neg_right, inner_sub_left, real_inner_smul_left, inner_add_left, real_inner_comm (xt - u) (O.adj s.y),
      ← ok.adjoint] at h3
    have h3' : g xt - g u ≤ s.tau * (1 / s.tau * ⟪s.x - xt, xt - u⟫ - ⟪O.grad s.x, xt - u⟫ - ⟪O.op (xt - u), s.y⟫) := by
      have : s.tau * (1 / s.tau * ⟪s.x - xt, xt - u⟫) = ⟪s.x - xt, xt - u⟫ := by field_simp
      rw [mul_sub, mul_sub, this]
      linarith
    rw [one_div, inv_mul_le_iff₀ ht, ← one_div]
    exact h3'
  have h7 : ⟪yt - v, p⟫ = 1 / s.sigma * ⟪s.y - yt, yt - v⟫ + ⟪O.op ((2 : ℝ) • xt - s.x), yt - v⟫ := by
    have e : p = (1 / s.sigma) • (s.y - yt) + O.op ((2 : ℝ) • xt - s.x) := by
      rw [hy]
      have : (1 / s.sigma) • (s.y - (s.y + s.sigma • O.op ((2 : ℝ) • xt - s.x) - s.sigma • p))
          = p - O.op ((2 : ℝ) • xt - s.x) := by
        have : s.y - (s.y + s.sigma • O.op ((2 : ℝ) • xt - s.x) - s.sigma • p) = s.sigma • (p - O.op ((2 : ℝ) • xt - s.x)) := by
          module
        rw [this, smul_smul, one_div, inv_mul_cancel₀ hs.ne', one_smul]
      rw [this]
      abel
    rw [real_inner_comm]
    conv_lhs => rw [e]
    rw [inner_add_left, real_inner_smul_left]
  have hL : ∀ (a b : E), O.op (a - b) = O.op a - O.op b := ok.op_sub
  have e2 : O.op ((2 : ℝ) • xt - s.x) = O.op xt + O.op xt - O.op s.x := by
    have : (2 : ℝ) • xt - s.x = xt - (s.x - xt) := by module
    rw [this, hL, hL]
    abel
  have h8 : 1 / (2 * s.rho) * (2 * s.rho * (1 / s.tau * ⟪s.x - xt, xt - u⟫ - ⟪O.op (s.x - xt), yt - v⟫
        - ⟪O.op (xt - u), s.y - yt⟫ + 1 / s.sigma * ⟪s.y - yt, yt - v⟫)
      + s.rho * (2 - s.rho) * condatNorm O s.sigma s.tau (s.x - xt) (s.y - yt))
      = (1 / s.tau * ⟪s.x - xt, xt - u⟫ - ⟪O.op (s.x - xt), yt - v⟫
        - ⟪O.op (xt - u), s.y - yt⟫ + 1 / s.sigma * ⟪s.y - yt, yt - v⟫)
      + 1 / 2 * ((2 - s.rho) * condatNorm O s.sigma s.tau (s.x - xt) (s.y - yt)) := by
    field_simp
  rw [h8]
  rw [e2] at h7
  have hnorm : ‖xt - s.x‖ = ‖s.x - xt‖ := norm_sub_rev _ _
  rw [hnorm] at h2
  have h9 : ⟪O.grad s.x, xt - u⟫ = ⟪O.grad s.x, xt - s.x⟫ - ⟪O.grad s.x, u - s.x⟫ := by
    rw [← inner_sub_right]
    congr 1
    abel
  simp only [hL, inner_sub_left, inner_sub_right, inner_add_left] at h4 h6 h7 h9 h1 h2 ⊢
  rw [real_inner_comm yt (O.op xt), real_inner_comm yt (O.op s.x)] at *
  rw [mul_sub] at h6
  linarith [real_inner_comm yt d, real_inner_comm yt p, real_inner_comm v p, real_inner_comm v (O.op xt)]

/-- The mean of the points before the relaxation is the mean of the half steps. -/
theorem unrelaxed_half (O : Ops E H) (s : St E H) (hr : 0 < s.rho) (n : ℕ) :
    unrelaxedMean s.rho (fun k => (condatAfter O ⟨none, none, none⟩ s k).x) n
      = (1 / (n : ℝ)) • ∑ k ∈ Finset.range n, (half O (condatAfter O ⟨none, none, none⟩ s k)).1 ∧
    unrelaxedMean s.rho (fun k => (condatAfter O ⟨none, none, none⟩ s k).y) n
      = (1 / (n : ℝ)) • ∑ k ∈ Finset.range n, (half O (condatAfter O ⟨none, none, none⟩ s k)).2 := by
  have hpar : ∀ k, (condatAfter O ⟨none, none, none⟩ s k).rho = s.rho := by
    intro k
    induction k with
    | zero => rfl
    | succ k ih => exact ih
  constructor
  · rw [unrelaxedMean]
    congr 1
    refine Finset.sum_congr rfl fun k _ => ?_
    simp only [condatAfter, step, hpar]
    have : s.rho • (half O (condatAfter O ⟨none, none, none⟩ s k)).1
        + (1 - s.rho) • (condatAfter O ⟨none, none, none⟩ s k).x - (condatAfter O ⟨none, none, none⟩ s k).x
        = s.rho • ((half O (condatAfter O ⟨none, none, none⟩ s k)).1 - (condatAfter O ⟨none, none, none⟩ s k).x) := by
      module
    rw [this, smul_smul, one_div, inv_mul_cancel₀ hr.ne', one_smul, add_sub_cancel]
  · rw [unrelaxedMean]
    congr 1
    refine Finset.sum_congr rfl fun k _ => ?_
    simp only [condatAfter, step, hpar]
    have : s.rho • (half O (condatAfter O ⟨none, none, none⟩ s k)).2
        + (1 - s.rho) • (condatAfter O ⟨none, none, none⟩ s k).y - (condatAfter O ⟨none, none, none⟩ s k).y
        = s.rho • ((half O (condatAfter O ⟨none, none, none⟩ s k)).2 - (condatAfter O ⟨none, none, none⟩ s k).y) := by
      module
    rw [this, smul_smul, one_div, inv_mul_cancel₀ hr.ne', one_smul, add_sub_cancel]

/-- C149: the averages `X`, `Y` of the primal and dual points of `n` updates close the gap of the Lagrangian
`F + g/τ + ⟨L ·, ·⟩ - h*` like `1/n`: `ℒ(X, v) - ℒ(u, Y) ≤ ‖(x₀ - u, y₀ - v)‖² / (2 ρ n)` for all `u` in the domain of `g` and
all `v`.  The conjugate is written out: `hv` is any bound of `h*(v)`, and `⟨Y, d⟩ - h d`, for any `d` in the domain of `h`, any of
the values whose supremum is `h*(Y)`. -/
theorem C149_lagrangian_gap {C : Set E} {D : Set H} {F g : E → ℝ} {h : H → ℝ} {O : Ops E H} {Lf nL : ℝ}
    (ok : CondatOk C D F g h O) (hS : Smooth F O.grad Lf) (hLf : 0 ≤ Lf) (hn : ∀ x, ‖O.op x‖ ≤ nL * ‖x‖)
    (s : St E H) (hs : 0 < s.sigma) (ht : 0 < s.tau) (hr : 0 < s.rho) (hr2 : s.rho < 2)
    (hc : Lf ≤ (2 - s.rho) * (1 / s.tau - s.sigma * nL ^ 2)) (n : ℕ) (h0 : 0 < n)
    {u : E} (hu : u ∈ C) {d : H} (hd : d ∈ D) (v : H) (hv : ℝ) (hconj : ∀ d ∈ D, ⟪v, d⟫ - h d ≤ hv) :
    let X := unrelaxedMean s.rho (fun k => (condatAfter O ⟨none, none, none⟩ s k).x) n
    let Y := unrelaxedMean s.rho (fun k => (condatAfter O ⟨none, none, none⟩ s k).y) n
    X ∈ C ∧ (F X + 1 / s.tau * g X + ⟪O.op X, v⟫ - hv) - (F u + 1 / s.tau * g u + ⟪O.op u, Y⟫ - (⟪Y, d⟫ - h d))
      ≤ condatNorm O s.sigma s.tau (s.x - u) (s.y - v) / (2 * s.rho * n) := by
  intro X Y
  have hm : ∀ x y, Lf * ‖x‖ ^ 2 ≤ (2 - s.rho) * condatNorm O s.sigma s.tau x y := fun x y => by
    have := C79_metric_condition O s.sigma s.tau s.rho (2 * Lf) nL hs hr2 hn (by linarith) x y
    linarith
  obtain ⟨eX, eY⟩ := unrelaxed_half O s hr n
  have hpar : ∀ k, (condatAfter O ⟨none, none, none⟩ s k).rho = s.rho ∧
      (condatAfter O ⟨none, none, none⟩ s k).sigma = s.sigma ∧
      (condatAfter O ⟨none, none, none⟩ s k).tau = s.tau := by
    intro k
    induction k with
    | zero => exact ⟨rfl, rfl, rfl⟩
    | succ k ih => exact ih
  set T := condatAfter O ⟨none, none, none⟩ s with hT
  have hstep : ∀ k, F (half O (T k)).1 + 1 / s.tau * g (half O (T k)).1 + ⟪O.op (half O (T k)).1, v⟫ - hv
      + (⟪(half O (T k)).2, d⟫ - h d)
      ≤ F u + 1 / s.tau * g u + ⟪O.op u, (half O (T k)).2⟫
        + 1 / (2 * s.rho) * (condatNorm O s.sigma s.tau ((T k).x - u) ((T k).y - v)
          - condatNorm O s.sigma s.tau ((T (k + 1)).x - u) ((T (k + 1)).y - v)) := by
    intro k
    obtain ⟨p1, p2, p3⟩ := hpar k
    have := condat_gap_step ok hS (T k) (by rw [p2]; exact hs) (by rw [p3]; exact ht) (by rw [p1]; exact hr)
      (by rw [p1, p2, p3]; exact hm) ⟨none, none, none⟩ hu hd v hv hconj
    rw [p1, p2, p3] at this
    exact this
  have hC : ∀ k ∈ Finset.range n, (half O (T k)).1 ∈ C := fun k _ =>
    (half_conditions ok (T k) (by rw [(hpar k).2.1]; exact hs)).1.1
  have hn0 : (0 : ℝ) < n := by exact_mod_cast h0
  have hw : ∑ _k ∈ Finset.range n, 1 / (n : ℝ) = 1 := by
    rw [Finset.sum_const, Finset.card_range, nsmul_eq_mul]
    field_simp
  have hconv : ConvexOn ℝ C fun x => F x + 1 / s.tau * g x + ⟪x, O.adj v⟫ :=
    (((ok.tangents.convexOn).subset (Set.subset_univ _) ok.convexG.1).add
      (ok.convexG.smul (by positivity : (0 : ℝ) ≤ 1 / s.tau))).add
      ⟨ok.convexG.1, fun a _ b _ p q _ _ _ => by
        simp only [inner_add_left, real_inner_smul_left, smul_eq_mul, le_refl]⟩
  have eX' : X = ∑ k ∈ Finset.range n, (1 / (n : ℝ)) • (half O (T k)).1 := by rw [← Finset.smul_sum]; exact eX
  have eY' : Y = ∑ k ∈ Finset.range n, (1 / (n : ℝ)) • (half O (T k)).2 := by rw [← Finset.smul_sum]; exact eY
  have hXC : X ∈ C := by
    rw [eX']
    exact ok.convexG.1.sum_mem (fun _ _ => by positivity) hw hC
  refine ⟨hXC, ?_⟩
  have hJ := hconv.map_sum_le (t := Finset.range n) (w := fun _ => 1 / (n : ℝ)) (p := fun k => (half O (T k)).1)
    (fun _ _ => by positivity) hw hC
  rw [← eX'] at hJ
  have hY : ⟪Y, d - O.op u⟫ = ∑ k ∈ Finset.range n, 1 / (n : ℝ) * ⟪(half O (T k)).2, d - O.op u⟫ := by
    rw [eY', sum_inner]
    simp only [real_inner_smul_left]
  have htel : ∀ m : ℕ, ∑ k ∈ Finset.range m, (F (half O (T k)).1 + 1 / s.tau * g (half O (T k)).1
        + ⟪(half O (T k)).1, O.adj v⟫ + ⟪(half O (T k)).2, d - O.op u⟫)
      ≤ m * (hv + h d + F u + 1 / s.tau * g u) + 1 / (2 * s.rho) * (condatNorm O s.sigma s.tau (s.x - u) (s.y - v)
          - condatNorm O s.sigma s.tau ((T m).x - u) ((T m).y - v)) := by
    intro m
    induction m with
    | zero => simp [hT, condatAfter]
    | succ m ih =>
      rw [Finset.sum_range_succ]
      have := hstep m
      rw [ok.adjoint, real_inner_comm (half O (T m)).2 (O.op u)] at this
      rw [inner_sub_right]
      push_cast
      linarith
  have hlast : 0 ≤ condatNorm O s.sigma s.tau ((T n).x - u) ((T n).y - v) := by
    have h1 := hm ((T n).x - u) ((T n).y - v)
    have h2 : 0 ≤ Lf * ‖(T n).x - u‖ ^ 2 := by positivity
    by_contra hneg
    nlinarith
  have h1 := htel n
  have h2 : ∑ k ∈ Finset.range n, (F (half O (T k)).1 + 1 / s.tau * g (half O (T k)).1
        + ⟪(half O (T k)).1, O.adj v⟫ + ⟪(half O (T k)).2, d - O.op u⟫)
      ≤ n * (hv + h d + F u + 1 / s.tau * g u) + 1 / (2 * s.rho) * condatNorm O s.sigma s.tau (s.x - u) (s.y - v) := by
    have : 0 ≤ 1 / (2 * s.rho) * condatNorm O s.sigma s.tau ((T n).x - u) ((T n).y - v) := by positivity
    linarith
  have h3 := mul_le_mul_of_nonneg_left h2 (by positivity : (0 : ℝ) ≤ 1 / n)
  rw [Finset.sum_add_distrib, mul_add, Finset.mul_sum, Finset.mul_sum, ← hY] at h3
  simp only [smul_eq_mul] at hJ
  have e1 : 1 / (n : ℝ) * (n * (hv + h d + F u + 1 / s.tau * g u)
        + 1 / (2 * s.rho) * condatNorm O s.sigma s.tau (s.x - u) (s.y - v))
      = hv + h d + F u + 1 / s.tau * g u + condatNorm O s.sigma s.tau (s.x - u) (s.y - v) / (2 * s.rho * n) := by
    field_simp
  rw [e1, inner_sub_right] at h3
  rw [ok.adjoint, real_inner_comm Y (O.op u)]
  linarith

end

section
variable {E H : Type} [NormedAddCommGroup E] [InnerProductSpace ℝ E] [NormedAddCommGroup H]
  [InnerProductSpace ℝ H] [FiniteDimensional ℝ H]

/-- A convex Lipschitz function has, everywhere, a subgradient no longer than its Lipschitz constant. -/
theorem exists_subgradient {h : H → ℝ} {M : ℝ} (hh : ConvexOn ℝ Set.univ h) (hM : 0 ≤ M)
    (hL : ∀ a b, h a - h b ≤ M * ‖a - b‖) (w : H) :
    ∃ y : H, ‖y‖ ≤ M ∧ ∀ v, h w + ⟪y, v - w⟫ ≤ h v := by
  have hc : Continuous h := by
    rw [← continuousOn_univ]
    exact hh.continuousOn isOpen_univ
  obtain ⟨y, -, hy⟩ := exists_multiplier (E := H) (C := {w}) (φ := fun _ => 0) (convexOn_const 0 (convex_singleton w)) hh hc
    LinearMap.id (x := w) ⟨rfl, fun u hu => by rw [Set.mem_singleton_iff.1 hu]⟩
  refine ⟨y, ?_, hy⟩
  have h1 := hy (w + y)
  have h2 := hL (w + y) w
  simp only [LinearMap.id_apply, add_sub_cancel_left, real_inner_self_eq_norm_sq] at h1 h2
  by_contra hlt
  push Not at hlt
  have h0 : 0 < ‖y‖ := lt_of_le_of_lt hM hlt
  nlinarith

/-- C149: with a dual term `h` that is finite everywhere and `M`-Lipschitz (the weighted l1 norm of `SparseThreshold`, the nuclear
norm, the group norm), the objective `F + g/τ + h ∘ L` at the averaged primal point of `n` updates exceeds that of any point `u`
of the domain of `g`, in particular of a minimiser, by at most `(‖x₀ - u‖²/τ + (‖y₀‖ + M)²/σ) / (ρ n)`. -/
theorem C149_objective_rate {C : Set E} {F g : E → ℝ} {h : H → ℝ} {O : Ops E H} {Lf nL M : ℝ}
    (ok : CondatOk C Set.univ F g h O) (hS : Smooth F O.grad Lf) (hLf : 0 ≤ Lf) (hn : ∀ x, ‖O.op x‖ ≤ nL * ‖x‖)
    (hM : 0 ≤ M) (hL : ∀ a b, h a - h b ≤ M * ‖a - b‖)
    (s : St E H) (hs : 0 < s.sigma) (ht : 0 < s.tau) (hr : 0 < s.rho) (hr2 : s.rho < 2)
    (hc : Lf ≤ (2 - s.rho) * (1 / s.tau - s.sigma * nL ^ 2)) (n : ℕ) (h0 : 0 < n) {u : E} (hu : u ∈ C) :
    let X := unrelaxedMean s.rho (fun k => (condatAfter O ⟨none, none, none⟩ s k).x) n
    X ∈ C ∧ (F X + 1 / s.tau * g X + h (O.op X)) - (F u + 1 / s.tau * g u + h (O.op u))
      ≤ (1 / s.tau * ‖s.x - u‖ ^ 2 + 1 / s.sigma * (‖s.y‖ + M) ^ 2) / (s.rho * n) := by
  intro X
  obtain ⟨v, hvM, hv⟩ := exists_subgradient ok.convexH hM hL (O.op X)
  obtain ⟨hXC, hgap⟩ := C149_lagrangian_gap ok hS hLf hn s hs ht hr hr2 hc n h0 hu (Set.mem_univ (O.op u)) v
    (⟪v, O.op X⟫ - h (O.op X)) (fun d _ => by
      have := hv d
      rw [inner_sub_right] at this
      linarith)
  refine ⟨hXC, ?_⟩
  have hn0 : (0 : ℝ) < n := by exact_mod_cast h0
  have hnonneg : 0 ≤ condatNorm O s.sigma s.tau (s.x - u) (-(s.y - v)) := by
    have h1 := C79_metric_condition O s.sigma s.tau s.rho (2 * Lf) nL hs hr2 hn (by linarith) (s.x - u) (-(s.y - v))
    have h2 : 0 ≤ 2 * Lf / 2 * ‖s.x - u‖ ^ 2 := by positivity
    by_contra hneg
    nlinarith
  have hle : condatNorm O s.sigma s.tau (s.x - u) (s.y - v)
      ≤ 2 * (1 / s.tau * ‖s.x - u‖ ^ 2 + 1 / s.sigma * (‖s.y‖ + M) ^ 2) := by
    have h1 : ‖s.y - v‖ ≤ ‖s.y‖ + M := (norm_sub_le _ _).trans (by linarith)
    have h2 : 1 / s.sigma * ‖s.y - v‖ ^ 2 ≤ 1 / s.sigma * (‖s.y‖ + M) ^ 2 :=
      mul_le_mul_of_nonneg_left (pow_le_pow_left₀ (norm_nonneg _) h1 2) (by positivity)
    simp only [condatNorm, norm_neg, inner_neg_right] at hnonneg ⊢
    linarith
  have hdiv : condatNorm O s.sigma s.tau (s.x - u) (s.y - v) / (2 * s.rho * n)
      ≤ (1 / s.tau * ‖s.x - u‖ ^ 2 + 1 / s.sigma * (‖s.y‖ + M) ^ 2) / (s.rho * n) := by
    have e : (1 / s.tau * ‖s.x - u‖ ^ 2 + 1 / s.sigma * (‖s.y‖ + M) ^ 2) / (s.rho * n)
        = 2 * (1 / s.tau * ‖s.x - u‖ ^ 2 + 1 / s.sigma * (‖s.y‖ + M) ^ 2) / (2 * s.rho * n) := by
      field_simp
    rw [e]
    exact div_le_div_of_nonneg_right hle (by positivity)
  have e1 : ⟪O.op X, v⟫ = ⟪v, O.op X⟫ := real_inner_comm _ _
  rw [show ⟪O.op (unrelaxedMean s.rho (fun k => (condatAfter O ⟨none, none, none⟩ s k).x) n), v⟫ = ⟪v, O.op X⟫ from e1,
    real_inner_comm (O.op u)] at hgap
  have e2 : F X + 1 / s.tau * g X + h (O.op X) - (F u + 1 / s.tau * g u + h (O.op u))
      ≤ condatNorm O s.sigma s.tau (s.x - u) (s.y - v) / (2 * s.rho * n) := by
    simp only [X] at *
    linarith
  exact e2.trans hdiv

/-- The usual setting, relaxation 1: the mean of the iterates `x₁, ..., xₙ`. -/
theorem C149_mean_of_iterates {E : Type} [NormedAddCommGroup E] [InnerProductSpace ℝ E] (z : ℕ → E) (n : ℕ) :
    unrelaxedMean 1 z n = (1 / (n : ℝ)) • ∑ k ∈ Finset.range n, z (k + 1) := by
  rw [unrelaxedMean]
  congr 1
  refine Finset.sum_congr rfl fun k _ => ?_
  rw [one_div, inv_one, one_smul, add_sub_cancel]

end

/-- The hypotheses are met: `½(x - 3)² + |x|` over the non-negative numbers, relaxation 1, `τ = σ = 1/2`, from `(0, 0)`; the
minimum is 5/2 at `x = 2`. -/
example (n : ℕ) (h0 : 0 < n) :
    let O : Ops ℝ ℝ := ⟨fun x => x - 3, fun y _ => max y 0, softR, id, id⟩
    let X := unrelaxedMean 1 (fun k => (condatAfter O ⟨none, none, none⟩ ⟨0, 0, 1, 1 / 2, 1 / 2⟩ k).x) n
    0 ≤ X ∧ (1 / 2 * (X - 3) ^ 2 + |X|) - 5 / 2 ≤ 10 / n := by
  intro O X
  obtain ⟨h1, h2⟩ := C149_objective_rate (M := 1) (nL := 1) condat_example_ok sq_smooth zero_le_one (fun x => by simp) zero_le_one
    (fun a b => by
      rw [one_mul, Real.norm_eq_abs]
      exact abs_sub_abs_le_abs_sub a b)
    ⟨0, 0, 1, 1 / 2, 1 / 2⟩ (by norm_num) (by norm_num) (by norm_num) (by norm_num) (by norm_num) n h0
    (u := 2) (by norm_num)
  refine ⟨h1, ?_⟩
  simp only [X, O]
  norm_num at h2 ⊢
  linarith

end Verif
