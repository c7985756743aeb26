import Verif.Props.Convergence
import Verif.Spec.Strong
import Mathlib.Topology.MetricSpace.Contracting

/-!
# Non-expansive and contracting updates, and what errors in the updates can do
-/

set_option linter.unusedSectionVars false

namespace Verif
open Spec FB
open scoped RealInnerProductSpace

/-- A sequence that follows a non-expansive map with errors `e k` stays within the sum of the errors of the exact
iterates. -/
theorem shadow {X : Type*} (D : X → X → ℝ) (tri : ∀ a b c, D a c ≤ D a b + D b c) (T : X → X)
    (hT : ∀ a b, D (T a) (T b) ≤ D a b) (w x : ℕ → X) (hx : ∀ k, x (k + 1) = T (x k)) (e : ℕ → ℝ) (n : ℕ)
    (hw : ∀ k < n, D (w (k + 1)) (T (w k)) ≤ e k) :
    D (w n) (x n) ≤ D (w 0) (x 0) + ∑ k ∈ Finset.range n, e k := by
  induction n with
  | zero => simp
  | succ n ih =>
    have h1 := ih fun k hk => hw k (Nat.lt_succ_of_lt hk)
    have h2 := hw n (Nat.lt_succ_self n)
    have h3 := tri (w (n + 1)) (T (w n)) (T (x n))
    have h4 := hT (w n) (x n)
    rw [hx, Finset.sum_range_succ]
    linarith

/-- The same for a contraction of factor `q < 1` and errors at most `e`: the distance to the fixed point is forgotten
geometrically and the errors add up to at most `e / (1 - q)`. -/
theorem shadow_contraction {X : Type*} (D : X → X → ℝ) (tri : ∀ a b c, D a c ≤ D a b + D b c) (T : X → X) (q : ℝ)
    (hq0 : 0 ≤ q) (hq1 : q < 1) (hT : ∀ a b, D (T a) (T b) ≤ q * D a b) (w : ℕ → X) (u : X) (hu : T u = u) (e : ℝ)
    (he : 0 ≤ e) (n : ℕ) (hw : ∀ k < n, D (w (k + 1)) (T (w k)) ≤ e) :
    D (w n) u ≤ q ^ n * D (w 0) u + e / (1 - q) := by
  have hpos : 0 < 1 - q := by linarith
  induction n with
  | zero =>
    have : 0 ≤ e / (1 - q) := by positivity
    simpa using this
  | succ n ih =>
    have h1 := ih fun k hk => hw k (Nat.lt_succ_of_lt hk)
    have h2 := hw n (Nat.lt_succ_self n)
    have h3 := tri (w (n + 1)) (T (w n)) u
    have h4 := hT (w n) u
    rw [hu] at h4
    have h5 := mul_le_mul_of_nonneg_left h1 hq0
    have e1 : q * (q ^ n * D (w 0) u + e / (1 - q)) = q ^ (n + 1) * D (w 0) u + q * (e / (1 - q)) := by ring
    have e2 : e + q * (e / (1 - q)) = e / (1 - q) := by field_simp; ring
    linarith

section
variable {E : Type} [NormedAddCommGroup E] [InnerProductSpace ℝ E]

/-- Cocoercivity without division, for `L ≥ 0`. -/
theorem cocoercive' {F : E → ℝ} {G : E → E} {L : ℝ} (hF : AboveTangents F G) (hS : Smooth F G L) (hL : 0 ≤ L)
    (x y : E) : ‖G x - G y‖ ^ 2 ≤ L * ⟪G x - G y, x - y⟫ := by
  have key : ∀ L' > 0, L ≤ L' → ‖G x - G y‖ ^ 2 ≤ L' * ⟪G x - G y, x - y⟫ := by
    intro L' h1 h2
    have hS' : Smooth F G L' := fun a b => (hS a b).trans (by
      have := mul_le_mul_of_nonneg_right h2 (sq_nonneg ‖b - a‖)
      linarith)
    have h3 := cocoercive hF hS' h1 x y
    have h4 := mul_le_mul_of_nonneg_left h3 h1.le
    rwa [← mul_assoc, mul_one_div_cancel h1.ne', one_mul] at h4
  rcases hL.lt_or_eq with h | h
  · exact key L h le_rfl
  · rw [← h, zero_mul]
    have h0 : 0 ≤ ⟪G x - G y, x - y⟫ := by
      have := key 1 one_pos (by linarith)
      rw [one_mul] at this
      exact (sq_nonneg _).trans this
    refine le_of_forall_pos_le_add fun ε hε => ?_
    have h1 := key (ε / (⟪G x - G y, x - y⟫ + 1)) (by positivity) (by rw [← h]; positivity)
    have h2 : ε / (⟪G x - G y, x - y⟫ + 1) * ⟪G x - G y, x - y⟫ ≤ ε := by
      rw [div_mul_eq_mul_div, div_le_iff₀ (by linarith)]
      nlinarith
    linarith

/-- The gradient step is Lipschitz with constant `max |1 - βμ| |1 - βL|`. -/
theorem grad_step_lipschitz {F : E → ℝ} {G : E → E} {L μ : ℝ} (hF : StronglyAbove F G μ) (hS : Smooth F G L)
    (hμL : μ ≤ L) {β : ℝ} (hb : 0 ≤ β) (x y : E) :
    ‖(x - β • G x) - (y - β • G y)‖ ≤ max |1 - β * μ| |1 - β * L| * ‖x - y‖ := by
  -- subtract the quadratic
  set φ : E → ℝ := fun v => F v - μ / 2 * ‖v‖ ^ 2 with hφ
  set g : E → E := fun v => G v - μ • v with hgd
  have quad : ∀ a b : E, ‖b‖ ^ 2 = ‖a‖ ^ 2 + 2 * ⟪a, b - a⟫ + ‖b - a‖ ^ 2 := by
    intro a b
    have := norm_add_sq_real a (b - a)
    rwa [add_sub_cancel] at this
  have h1 : AboveTangents φ g := by
    intro a b
    have := hF a b
    simp only [hφ, hgd, inner_sub_left, real_inner_smul_left]
    rw [quad a b]
    linarith
  have h2 : Smooth φ g (L - μ) := by
    intro a b
    have := hS a b
    simp only [hφ, hgd, inner_sub_left, real_inner_smul_left]
    rw [quad a b]
    linarith
  have h3 := cocoercive' h1 h2 (by linarith) x y
  set a := x - y with ha
  set e := g x - g y with he
  have h4 : (x - β • G x) - (y - β • G y) = (1 - β * μ) • a - β • e := by
    rw [ha, he, hgd]; module
  have hea : 0 ≤ ⟪e, a⟫ := by
    have := h1 x y
    have h5 := h1 y x
    have e1 : ⟪e, a⟫ = -⟪g x, y - x⟫ - ⟪g y, x - y⟫ := by
      rw [he, ha, inner_sub_left, ← inner_neg_right, neg_sub]
    rw [e1]; linarith
  have hea2 : ⟪e, a⟫ ≤ (L - μ) * ‖a‖ ^ 2 := by
    have := h1 x y
    have h5 := h2 x y
    have h6 := h2 y x
    have e1 : ⟪e, a⟫ = -⟪g x, y - x⟫ - ⟪g y, x - y⟫ := by
      rw [he, ha, inner_sub_left, ← inner_neg_right, neg_sub]
    have h7 := h1 y x
    rw [norm_sub_rev y x, ← ha] at h5
    rw [← ha] at h6
    rw [e1, ← ha]
    linarith
  rw [h4]
  apply le_of_sq_le_sq _ (by positivity)
  have h5 : ‖(1 - β * μ) • a - β • e‖ ^ 2
      = (1 - β * μ) ^ 2 * ‖a‖ ^ 2 - 2 * β * (1 - β * μ) * ⟪e, a⟫ + β ^ 2 * ‖e‖ ^ 2 := by
    rw [norm_sub_sq_real, norm_smul, norm_smul, mul_pow, mul_pow, Real.norm_eq_abs, Real.norm_eq_abs, sq_abs, sq_abs,
      real_inner_smul_left, real_inner_smul_right, real_inner_comm]
    ring
  have h6 : β ^ 2 * ‖e‖ ^ 2 ≤ β ^ 2 * ((L - μ) * ⟪e, a⟫) := mul_le_mul_of_nonneg_left h3 (sq_nonneg β)
  rw [mul_pow]
  by_cases hc : β * (L + μ) ≤ 2
  · have h7 : (1 - β * μ) ^ 2 ≤ max |1 - β * μ| |1 - β * L| ^ 2 := by
      rw [← sq_abs (1 - β * μ)]
      exact pow_le_pow_left₀ (abs_nonneg _) (le_max_left _ _) 2
    have h8 : β * (β * (L + μ) - 2) * ⟪e, a⟫ ≤ 0 :=
      mul_nonpos_of_nonpos_of_nonneg (mul_nonpos_of_nonneg_of_nonpos hb (by linarith)) hea
    have h9 := mul_le_mul_of_nonneg_right h7 (sq_nonneg ‖a‖)
    nlinarith
  · push Not at hc
    have h7 : (1 - β * L) ^ 2 ≤ max |1 - β * μ| |1 - β * L| ^ 2 := by
      rw [← sq_abs (1 - β * L)]
      exact pow_le_pow_left₀ (abs_nonneg _) (le_max_right _ _) 2
    have h8 : β * (β * (L + μ) - 2) * ⟪e, a⟫ ≤ β * (β * (L + μ) - 2) * ((L - μ) * ‖a‖ ^ 2) :=
      mul_le_mul_of_nonneg_left hea2 (mul_nonneg hb (by linarith))
    have h9 := mul_le_mul_of_nonneg_right h7 (sq_nonneg ‖a‖)
    nlinarith

/-- The proximal-gradient update is Lipschitz with the same constant. -/
theorem fb_map_lipschitz {C : Set E} {F g : E → ℝ} {G : E → E} {prox : E → ℝ → E} {L μ : ℝ} (hg : ConvexOn ℝ C g)
    (hF : StronglyAbove F G μ) (hS : Smooth F G L) (hμL : μ ≤ L) (hp : ExactProx C g prox) {β : ℝ} (hb : 0 < β)
    (x y : E) : ‖prox (x - β • G x) β - prox (y - β • G y) β‖ ≤ max |1 - β * μ| |1 - β * L| * ‖x - y‖ :=
  ((hp _ β hb).nonexpansive hg hb.le (hp _ β hb)).trans (grad_step_lipschitz hF hS hμL hb.le x y)

theorem strongly_zero {F : E → ℝ} {G : E → E} (hF : AboveTangents F G) : StronglyAbove F G 0 := fun x u => by
  have := hF x u
  linarith

theorem strongly_above {F : E → ℝ} {G : E → E} {μ : ℝ} (hμ : 0 ≤ μ) (hF : StronglyAbove F G μ) :
    AboveTangents F G := fun x u => by
  have := hF x u
  have h2 : 0 ≤ μ / 2 * ‖u - x‖ ^ 2 := by positivity
  linarith

/-- For convex `F` and `βL ≤ 2` the update is non-expansive. -/
theorem fb_map_nonexpansive {C : Set E} {F g : E → ℝ} {G : E → E} {prox : E → ℝ → E} {L : ℝ} (hg : ConvexOn ℝ C g)
    (hF : AboveTangents F G) (hS : Smooth F G L) (hL : 0 ≤ L) (hp : ExactProx C g prox) {β : ℝ} (hb : 0 < β)
    (hbL : β * L ≤ 2) (x y : E) : ‖prox (x - β • G x) β - prox (y - β • G y) β‖ ≤ ‖x - y‖ := by
  have h := fb_map_lipschitz hg (strongly_zero hF) hS hL hp hb x y
  have h1 : max |1 - β * 0| |1 - β * L| = 1 := by
    rw [mul_zero, sub_zero, abs_one]
    apply max_eq_left
    rw [abs_le]
    have := mul_nonneg hb.le hL
    constructor <;> linarith
  rwa [h1, one_mul] at h

/-- Minimisers are fixed points. -/
theorem fb_fixed_of_minimises {C : Set E} {F g : E → ℝ} {G : E → E} {prox : E → ℝ → E} {L : ℝ} (hg : ConvexOn ℝ C g)
    (hF : AboveTangents F G) (hS : Smooth F G L) (hp : ExactProx C g prox) {β : ℝ} (hb : 0 < β)
    {u : E} (hu : Minimises C (fun u => F u + g u) u) : prox (u - β • G u) β = u := by
  have hS' : Smooth F G (max L 1) := fun a b => (hS a b).trans (by
    have := mul_le_mul_of_nonneg_right (le_max_left L 1) (sq_nonneg ‖b - a‖)
    linarith)
  have h1 : IsProxOn C (fun v => β * g v) (u - β • G u) u := by
    apply isProxOn_of_variational hu.1
    intro v hv
    have h2 := hu.first_order hg (hasFDerivAt_of_models hF hS' (by positivity) u) hv
    have e : u - β • G u - u = -(β • G u) := by abel
    rw [e, inner_neg_left, real_inner_smul_left]
    have := mul_le_mul_of_nonneg_left h2 hb.le
    linarith
  exact (hp _ β hb).unique hg hb.le h1

end

/-! ## Quadratic seminorms -/

/-- The triangle inequality of the square root of a non-negative quadratic form. -/
theorem quad_triangle {X : Type*} [AddCommGroup X] [Module ℝ X] (q : X → ℝ) (B : X → X → ℝ) (h0 : ∀ u, 0 ≤ q u)
    (hq : ∀ u v (t : ℝ), q (u + t • v) = q u + 2 * t * B u v + t ^ 2 * q v) (u v : X) :
    Real.sqrt (q (u + v)) ≤ Real.sqrt (q u) + Real.sqrt (q v) := by
  have h1 : discrim (q v) (2 * B u v) (q u) ≤ 0 := discrim_le_zero fun t => by
    have := h0 (u + t • v)
    rw [hq] at this
    linarith
  have h2 : B u v ^ 2 ≤ q u * q v := by
    unfold discrim at h1
    linarith
  have h3 : B u v ≤ Real.sqrt (q u) * Real.sqrt (q v) := by
    rw [← Real.sqrt_mul (h0 u)]
    exact Real.le_sqrt_of_sq_le h2
  apply Real.sqrt_le_iff.2
  refine ⟨by positivity, ?_⟩
  have h4 := hq u v 1
  rw [one_smul] at h4
  rw [h4, add_sq, Real.sq_sqrt (h0 u), Real.sq_sqrt (h0 v)]
  linarith

theorem quad_dist_triangle {X : Type*} [AddCommGroup X] [Module ℝ X] (q : X → ℝ) (B : X → X → ℝ) (h0 : ∀ u, 0 ≤ q u)
    (hq : ∀ u v (t : ℝ), q (u + t • v) = q u + 2 * t * B u v + t ^ 2 * q v) (a b c : X) :
    Real.sqrt (q (a - c)) ≤ Real.sqrt (q (a - b)) + Real.sqrt (q (b - c)) := by
  have := quad_triangle q B h0 hq (a - b) (b - c)
  rwa [sub_add_sub_cancel] at this

/-! ## GenForwardBackward -/

section
variable {E : Type} [NormedAddCommGroup E] [InnerProductSpace ℝ E]

/-- One update brings two sets of auxiliary variables closer together, in the weighted norm. -/
theorem gen_nonexpansive {F : E → ℝ} {G : E → E} {L : ℝ} (hF : AboveTangents F G) (hS : Smooth F G L) (hL : 0 < L)
    (ts : List (Term E)) (hok : ∀ t ∈ ts, t.Ok) (hw : (ts.map (·.w)).sum = 1) (gamma lam : ℝ) (hg : 0 < gamma)
    (hl : 0 < lam) (hc : lam ≤ 2 - gamma * L / 2) (z z' : Fin ts.length → E) :
    ∑ i, ts[i].w * ‖(z i + lam • (gProx G gamma ts z i - gMean ts z))
        - (z' i + lam • (gProx G gamma ts z' i - gMean ts z'))‖ ^ 2
      ≤ ∑ i, ts[i].w * ‖z i - z' i‖ ^ 2 := by
  set x := gMean ts z with hx
  set x' := gMean ts z' with hx'
  have hco := cocoercive hF hS hL x x'
  set d := G x - G x' with hd
  have key : ∀ i, ⟪z i - z' i, (gProx G gamma ts z i - x) - (gProx G gamma ts z' i - x')⟫
      ≤ -(1 - gamma * L / 4) * ‖(gProx G gamma ts z i - x) - (gProx G gamma ts z' i - x')‖ ^ 2
        + (‖x - x'‖ ^ 2 - ⟪z i - z' i, x - x'⟫) := by
    intro i
    have ht := hok _ (List.getElem_mem i.2)
    have hb : 0 < gamma / ts[i].w := div_pos hg ht.pos
    have hf := prox_firm ht.convex hb.le
      (ht.exact ((2 : ℝ) • x - z i - gamma • G x) _ hb) (ht.exact ((2 : ℝ) • x' - z' i - gamma • G x') _ hb)
    have e1 : ts[(i : ℕ)].prox ((2 : ℝ) • x' - z' i - gamma • G x') (gamma / ts[(i : ℕ)].w) = gProx G gamma ts z' i :=
      rfl
    have e2 : ts[(i : ℕ)].prox ((2 : ℝ) • x - z i - gamma • G x) (gamma / ts[(i : ℕ)].w) = gProx G gamma ts z i := rfl
    simp only [Fin.getElem_fin] at hf
    rw [e1, e2] at hf
    set p := gProx G gamma ts z i with hp
    set p' := gProx G gamma ts z' i with hp'
    set r := (p - x) - (p' - x') with hr
    set a := x - x' with ha
    set b := z i - z' i with hbz
    have e3 : p - p' = r + a := by rw [hr, ha]; abel
    have e4 : (2 : ℝ) • x - z i - gamma • G x - ((2 : ℝ) • x' - z' i - gamma • G x') = (2 : ℝ) • a - b - gamma • d := by
      rw [ha, hbz, hd]; module
    clear_value a b d r
    rw [e3, e4, norm_add_sq_real, inner_sub_right, inner_sub_right, real_inner_smul_right, real_inner_smul_right,
      inner_add_left, inner_add_left, inner_add_left, real_inner_self_eq_norm_sq, real_inner_comm b r,
      real_inner_comm b a, real_inner_comm d a] at hf
    have hcs : -(‖d‖ * ‖r‖) ≤ ⟪r, d⟫ := by
      have := abs_real_inner_le_norm r d
      rw [mul_comm] at this
      exact (abs_le.1 this).1
    have hyoung : ‖d‖ * ‖r‖ ≤ 1 / L * ‖d‖ ^ 2 + L / 4 * ‖r‖ ^ 2 := by
      have h6 : 0 ≤ 1 / L * (‖d‖ - L / 2 * ‖r‖) ^ 2 := by positivity
      have h7 : 1 / L * (‖d‖ - L / 2 * ‖r‖) ^ 2 = 1 / L * ‖d‖ ^ 2 - ‖d‖ * ‖r‖ + L / 4 * ‖r‖ ^ 2 := by
        field_simp
        ring
      linarith
    have hgr : -(L / 4 * ‖r‖ ^ 2) ≤ ⟪r, d⟫ + ⟪d, a⟫ := by linarith
    have hgr2 := mul_le_mul_of_nonneg_left hgr hg.le
    nlinarith
  have hpos : ∀ i : Fin ts.length, 0 ≤ ts[i].w := fun i => (hok _ (List.getElem_mem i.2)).pos.le
  have hw1 : ∑ i : Fin ts.length, ts[i].w = 1 := by rw [← weights_sum]; exact hw
  have hmean : ∑ i, ts[i].w * (‖x - x'‖ ^ 2 - ⟪z i - z' i, x - x'⟫) = 0 := by
    have e : ∀ i, ts[i].w * (‖x - x'‖ ^ 2 - ⟪z i - z' i, x - x'⟫)
        = ts[i].w * ‖x - x'‖ ^ 2 - (⟪ts[i].w • z i, x - x'⟫ - ⟪ts[i].w • z' i, x - x'⟫) := by
      intro i
      rw [real_inner_smul_left, real_inner_smul_left, inner_sub_left]
      ring
    rw [Finset.sum_congr rfl fun i _ => e i, Finset.sum_sub_distrib, Finset.sum_sub_distrib, ← Finset.sum_mul, hw1,
      ← sum_inner, ← sum_inner]
    have e1 : ∑ i, ts[i].w • z i = x := rfl
    have e2 : ∑ i, ts[i].w • z' i = x' := rfl
    rw [e1, e2, ← inner_sub_left, real_inner_self_eq_norm_sq]
    ring
  have hpt : ∀ i, ts[i].w * ‖(z i + lam • (gProx G gamma ts z i - x))
        - (z' i + lam • (gProx G gamma ts z' i - x'))‖ ^ 2
      ≤ ts[i].w * ‖z i - z' i‖ ^ 2 + 2 * lam * (ts[i].w * (‖x - x'‖ ^ 2 - ⟪z i - z' i, x - x'⟫)) := by
    intro i
    set r := (gProx G gamma ts z i - x) - (gProx G gamma ts z' i - x') with hr
    have e : (z i + lam • (gProx G gamma ts z i - x)) - (z' i + lam • (gProx G gamma ts z' i - x'))
        = (z i - z' i) + lam • r := by rw [hr]; module
    rw [e, norm_add_sq_real, real_inner_smul_right, norm_smul, mul_pow, Real.norm_eq_abs, sq_abs]
    have h1 := mul_le_mul_of_nonneg_left (key i) (mul_nonneg (mul_nonneg two_pos.le hl.le) (hpos i))
    have h2 : 0 ≤ lam * (2 - gamma * L / 2 - lam) * (ts[i].w * ‖r‖ ^ 2) :=
      mul_nonneg (mul_nonneg hl.le (by linarith)) (mul_nonneg (hpos i) (sq_nonneg _))
    nlinarith
  have hsum := Finset.sum_le_sum fun i (_ : i ∈ Finset.univ) => hpt i
  rw [Finset.sum_add_distrib, ← Finset.mul_sum, hmean] at hsum
  linarith

end

/-! ## Condat -/

section
open Condat
variable {E H : Type} [NormedAddCommGroup E] [InnerProductSpace ℝ E] [NormedAddCommGroup H] [InnerProductSpace ℝ H]

/-- One half step brings two states closer together, in the metric of the algorithm. -/
theorem half_nonexpansive {C : Set E} {D : Set H} {F g : E → ℝ} {h : H → ℝ} {O : Ops E H} {Lf : ℝ}
    (ok : CondatOk C D F g h O) (hS : Smooth F O.grad Lf) (hLf : 0 < Lf) (s t : Condat.St E H) (hs : 0 < s.sigma)
    (ht : 0 < s.tau) (hst : t.sigma = s.sigma) (htt : t.tau = s.tau) :
    condatNorm O s.sigma s.tau ((half O s).1 - (half O t).1) ((half O s).2 - (half O t).2)
      + (condatNorm O s.sigma s.tau ((s.x - t.x) - ((half O s).1 - (half O t).1))
          ((s.y - t.y) - ((half O s).2 - (half O t).2))
          - Lf / 2 * ‖(s.x - t.x) - ((half O s).1 - (half O t).1)‖ ^ 2)
      ≤ condatNorm O s.sigma s.tau (s.x - t.x) (s.y - t.y) := by
  obtain ⟨⟨hxC, hx⟩, p, hpD, hy, hp⟩ := half_conditions ok s hs
  obtain ⟨⟨hxC', hx'⟩, p', hpD', hy', hp'⟩ := half_conditions ok t (by rw [hst]; exact hs)
  rw [hst] at hy'
  rw [htt] at hx'
  have i1 := hx _ hxC'
  have i2 := hx' _ hxC
  have i3 := hp p' hpD'
  have i4 := hp' p hpD
  have hco := cocoercive ok.tangents hS hLf s.x t.x
  set a₁ := (half O s).1 with ha₁
  set a₂ := (half O t).1 with ha₂
  set b₁ := (half O s).2 with hb₁
  set b₂ := (half O t).2 with hb₂
  set d := O.grad s.x - O.grad t.x with hd
  set X := s.x - t.x with hX
  set Y := s.y - t.y with hY
  set a := a₁ - a₂ with ha
  set b := b₁ - b₂ with hb
  have hadd : ∀ u v : E, O.op (u + v) = O.op u + O.op v := by
    intro u v
    apply ext_inner_right ℝ
    intro w
    rw [inner_add_left, ok.adjoint, ok.adjoint, ok.adjoint, inner_add_left]
  have hsm : ∀ (c : ℝ) (u : E), O.op (c • u) = c • O.op u := by
    intro c u
    apply ext_inner_right ℝ
    intro w
    rw [real_inner_smul_left, ok.adjoint, ok.adjoint, real_inner_smul_left]
  -- gradient terms
  have hcs : -(‖d‖ * ‖X - a‖) ≤ ⟪d, a - X⟫ := by
    have := abs_real_inner_le_norm d (a - X)
    rw [norm_sub_rev a] at this
    exact (abs_le.1 this).1
  have hyoung : ‖d‖ * ‖X - a‖ ≤ 1 / Lf * ‖d‖ ^ 2 + Lf / 4 * ‖X - a‖ ^ 2 := by
    have h6 : 0 ≤ 1 / Lf * (‖d‖ - Lf / 2 * ‖X - a‖) ^ 2 := by positivity
    have h7 : 1 / Lf * (‖d‖ - Lf / 2 * ‖X - a‖) ^ 2
        = 1 / Lf * ‖d‖ ^ 2 - ‖d‖ * ‖X - a‖ + Lf / 4 * ‖X - a‖ ^ 2 := by
      field_simp
      ring
    linarith
  have hgrad : -(Lf / 4 * ‖X - a‖ ^ 2) ≤ ⟪d, a⟫ := by
    have e : ⟪d, a⟫ = ⟪d, X⟫ + ⟪d, a - X⟫ := by
      rw [← inner_add_right]; congr 1; abel
    rw [e]
    linarith
  -- primal inequality
  have hadj : ⟪O.op a, Y⟫ = ⟪a, O.adj s.y - O.adj t.y⟫ := by
    rw [hY, inner_sub_right, ok.adjoint, ok.adjoint, inner_sub_right]
  have hprim : 0 ≤ ⟪X - a, a⟫ - s.tau * ⟪d, a⟫ - s.tau * ⟪O.op a, Y⟫ := by
    have e0 : a₂ - a₁ = -a := by rw [ha]; abel
    rw [e0, inner_neg_right] at i1
    have e1 : ⟪X - a, a⟫ - s.tau * ⟪d, a⟫ - s.tau * ⟪O.op a, Y⟫
        = ⟪(s.x - s.tau • O.grad s.x - s.tau • O.adj s.y - a₁)
          - (t.x - s.tau • O.grad t.x - s.tau • O.adj t.y - a₂), a⟫ := by
      have e2 : (s.x - s.tau • O.grad s.x - s.tau • O.adj s.y - a₁)
          - (t.x - s.tau • O.grad t.x - s.tau • O.adj t.y - a₂)
          = (X - a) - s.tau • d - s.tau • (O.adj s.y - O.adj t.y) := by
        rw [hX, ha, hd]; module
      rw [e2, inner_sub_left (X - a - s.tau • d), inner_sub_left (X - a) (s.tau • d), real_inner_smul_left,
        real_inner_smul_left, hadj, real_inner_comm a (O.adj s.y - O.adj t.y)]
    rw [e1, inner_sub_left]
    linarith
  -- dual inequality
  have hdual : 0 ≤ ⟪b, p - p'⟫ := by
    have e : ⟪b, p - p'⟫ = -⟪b₁, p' - p⟫ - ⟪b₂, p - p'⟫ := by
      rw [hb, inner_sub_left, ← inner_neg_right, neg_sub]
    rw [e]; linarith
  have hpe : s.sigma • (p - p') = (Y - b) + s.sigma • O.op ((2 : ℝ) • a - X) := by
    have e1 : s.sigma • p = (s.y - b₁) + s.sigma • O.op ((2 : ℝ) • a₁ - s.x) := by rw [hy]; abel
    have e2 : s.sigma • p' = (t.y - b₂) + s.sigma • O.op ((2 : ℝ) • a₂ - t.x) := by rw [hy']; abel
    rw [smul_sub, e1, e2]
    have e3 : O.op ((2 : ℝ) • a - X) = O.op ((2 : ℝ) • a₁ - s.x) - O.op ((2 : ℝ) • a₂ - t.x) := by
      rw [← ok.op_sub, ha, hX]; congr 1; module
    rw [e3, hY, hb]; module
  have hop : O.op ((2 : ℝ) • a - X) = -O.op (X - a) + O.op a := by
    have e1 : (2 : ℝ) • a - X = (-1 : ℝ) • (X - a) + a := by module
    rw [e1, hadd, hsm]; module
  have hdual2 : 0 ≤ ⟪b, Y - b⟫ + s.sigma * (-⟪O.op (X - a), b⟫ + ⟪O.op a, b⟫) := by
    have h5 := mul_nonneg hs.le hdual
    rw [← real_inner_smul_right, hpe, hop, inner_add_right, real_inner_smul_right, inner_add_right, inner_neg_right] at h5
    rwa [real_inner_comm b (O.op (X - a)), real_inner_comm b (O.op a)]
  -- combine
  have n1 : ‖X‖ ^ 2 = ‖X - a‖ ^ 2 + ‖a‖ ^ 2 + 2 * ⟪X - a, a⟫ := by
    have := norm_add_sq_real (X - a) a
    rw [sub_add_cancel] at this
    linarith
  have n2 : ‖Y‖ ^ 2 = ‖Y - b‖ ^ 2 + ‖b‖ ^ 2 + 2 * ⟪b, Y - b⟫ := by
    have := norm_add_sq_real (Y - b) b
    rw [sub_add_cancel, real_inner_comm] at this
    linarith
  have c1 : ⟪O.op X, Y⟫ = ⟪O.op (X - a), Y - b⟫ + ⟪O.op (X - a), b⟫ + ⟪O.op a, Y⟫ := by
    have e : O.op X = O.op (X - a) + O.op a := by rw [← hadd, sub_add_cancel]
    rw [e, inner_add_left, ← inner_add_right, sub_add_cancel]
  have m1 : 0 ≤ 1 / s.tau * ⟪X - a, a⟫ - ⟪d, a⟫ - ⟪O.op a, Y⟫ := by
    have h5 := mul_nonneg (show 0 ≤ 1 / s.tau by positivity) hprim
    have e : 1 / s.tau * (⟪X - a, a⟫ - s.tau * ⟪d, a⟫ - s.tau * ⟪O.op a, Y⟫)
        = 1 / s.tau * ⟪X - a, a⟫ - ⟪d, a⟫ - ⟪O.op a, Y⟫ := by
      field_simp
    linarith
  have m2 : 0 ≤ 1 / s.sigma * ⟪b, Y - b⟫ - ⟪O.op (X - a), b⟫ + ⟪O.op a, b⟫ := by
    have h5 := mul_nonneg (show 0 ≤ 1 / s.sigma by positivity) hdual2
    have e : 1 / s.sigma * (⟪b, Y - b⟫ + s.sigma * (-⟪O.op (X - a), b⟫ + ⟪O.op a, b⟫))
        = 1 / s.sigma * ⟪b, Y - b⟫ - ⟪O.op (X - a), b⟫ + ⟪O.op a, b⟫ := by
      field_simp
      ring
    linarith
  simp only [condatNorm]
  rw [n1, n2, c1]
  nlinarith

/-- The metric as a quadratic form. -/
theorem condatNorm_quad {C : Set E} {D : Set H} {F g : E → ℝ} {h : H → ℝ} {O : Ops E H}
    (ok : CondatOk C D F g h O) (sigma tau : ℝ) (u v : E × H) (t : ℝ) :
    condatNorm O sigma tau (u + t • v).1 (u + t • v).2 = condatNorm O sigma tau u.1 u.2
      + 2 * t * (1 / tau * ⟪u.1, v.1⟫ - ⟪O.op u.1, v.2⟫ - ⟪O.op v.1, u.2⟫ + 1 / sigma * ⟪u.2, v.2⟫)
      + t ^ 2 * condatNorm O sigma tau v.1 v.2 := by
  have hadd : ∀ u v : E, O.op (u + v) = O.op u + O.op v := by
    intro u v
    apply ext_inner_right ℝ
    intro w
    rw [inner_add_left, ok.adjoint, ok.adjoint, ok.adjoint, inner_add_left]
  have hsm : ∀ (c : ℝ) (u : E), O.op (c • u) = c • O.op u := by
    intro c u
    apply ext_inner_right ℝ
    intro w
    rw [real_inner_smul_left, ok.adjoint, ok.adjoint, real_inner_smul_left]
  simp only [condatNorm, Prod.fst_add, Prod.snd_add, Prod.smul_fst, Prod.smul_snd, hadd, hsm, norm_add_sq_real,
    norm_smul, mul_pow, Real.norm_eq_abs, sq_abs, inner_add_left, inner_add_right, real_inner_smul_left,
    real_inner_smul_right]
  ring

/-- One update with constant parameters brings two states closer together. -/
theorem condat_step_nonexpansive {C : Set E} {D : Set H} {F g : E → ℝ} {h : H → ℝ} {O : Ops E H} {Lf : ℝ}
    (ok : CondatOk C D F g h O) (hS : Smooth F O.grad Lf) (hLf : 0 < Lf) (U : Upd) (s t : Condat.St E H)
    (hs : 0 < s.sigma) (ht : 0 < s.tau) (hr0 : 0 ≤ s.rho)
    (hm : ∀ x y, Lf / 2 * ‖x‖ ^ 2 ≤ (2 - s.rho) * condatNorm O s.sigma s.tau x y)
    (hst : t.sigma = s.sigma) (htt : t.tau = s.tau) (hrt : t.rho = s.rho) :
    Real.sqrt (condatNorm O s.sigma s.tau ((Condat.step O U s).x - (Condat.step O U t).x)
      ((Condat.step O U s).y - (Condat.step O U t).y))
      ≤ Real.sqrt (condatNorm O s.sigma s.tau (s.x - t.x) (s.y - t.y)) := by
  have hf := half_nonexpansive ok hS hLf s t hs ht hst htt
  set A := (half O s).1 - (half O t).1 with hA
  set B := (half O s).2 - (half O t).2 with hB
  set w : E × H := (s.x - t.x, s.y - t.y) with hw
  set v : E × H := (A - (s.x - t.x), B - (s.y - t.y)) with hv
  have ex : (Condat.step O U s).x - (Condat.step O U t).x = (w + s.rho • v).1 := by
    simp only [Condat.step, hrt, hw, hv, hA, Prod.fst_add, Prod.smul_fst]; module
  have ey : (Condat.step O U s).y - (Condat.step O U t).y = (w + s.rho • v).2 := by
    simp only [Condat.step, hrt, hw, hv, hB, Prod.snd_add, Prod.smul_snd]; module
  rw [ex, ey]
  refine Real.sqrt_le_sqrt ?_
  have q1 := condatNorm_quad ok s.sigma s.tau w v s.rho
  have q2 := condatNorm_quad ok s.sigma s.tau w v 1
  have q3 := condatNorm_quad ok s.sigma s.tau 0 v (-1)
  have e4 : O.op 0 = 0 := by have := ok.op_sub 0 0; rw [sub_self] at this; rw [this]; exact sub_self _
  have e1 : w + (1 : ℝ) • v = (A, B) := by simp [hw, hv]
  have e2 : (0 : E × H) + (-1 : ℝ) • v = (s.x - t.x - A, s.y - t.y - B) := by simp [hv]
  rw [e1] at q2
  rw [e2] at q3
  simp only [Prod.fst_zero, Prod.snd_zero, inner_zero_left, inner_zero_right, e4, condatNorm, norm_zero] at q3
  have hm' := hm v.1 v.2
  have hn : ‖v.1‖ ^ 2 = ‖s.x - t.x - A‖ ^ 2 := by rw [hv, norm_sub_rev]
  have q3' : condatNorm O s.sigma s.tau (s.x - t.x - A) (s.y - t.y - B) = condatNorm O s.sigma s.tau v.1 v.2 := by
    simp only [condatNorm]
    linarith
  rw [hn] at hm'
  rw [q3'] at hf
  have h5 := mul_le_mul_of_nonneg_left hf hr0
  have h6 := mul_le_mul_of_nonneg_left hm' hr0
  simp only [hw] at q1 q2 ⊢
  nlinarith

end

end Verif
