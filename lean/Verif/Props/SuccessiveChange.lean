import Verif.Props.Stability
import Verif.Props.Relaxation

/-!
# C152: how fast successive solutions approach each other
-/

set_option linter.unusedSectionVars false

namespace Verif
open Spec FB Fista
open scoped RealInnerProductSpace

/-- A decreasing sequence whose sum is paid for by a decreasing distance. -/
theorem residual_rate (d r : ℕ → ℝ) (c : ℝ) (hc : 0 ≤ c) (hd : ∀ n, 0 ≤ d n) (hr : ∀ n, r (n + 1) ≤ r n)
    (hf : ∀ n, d (n + 1) + c * r n ≤ d n) (n : ℕ) : (n + 1) * (c * r n) ≤ d 0 := by
  have hanti : Antitone r := antitone_nat_of_succ_le hr
  have key : ∀ m, d m + c * ∑ k ∈ Finset.range m, r k ≤ d 0 := by
    intro m
    induction m with
    | zero => simp
    | succ m ih =>
      rw [Finset.sum_range_succ, mul_add]
      have := hf m
      linarith
  have h1 : (n + 1 : ℝ) * r n ≤ ∑ k ∈ Finset.range (n + 1), r k := by
    have := Finset.card_nsmul_le_sum (Finset.range (n + 1)) r (r n)
      (fun k hk => hanti (Nat.lt_succ_iff.1 (Finset.mem_range.1 hk)))
    rw [Finset.card_range, nsmul_eq_mul] at this
    push_cast at this
    exact this
  have h2 := mul_le_mul_of_nonneg_left h1 hc
  have h3 := key (n + 1)
  have h4 := hd (n + 1)
  have e : (n + 1 : ℝ) * (c * r n) = c * ((n + 1) * r n) := by ring
  rw [e]
  linarith

section
variable {E : Type} [NormedAddCommGroup E] [InnerProductSpace ℝ E] {S : Type}

/-- One update without acceleration, against a minimiser. -/
theorem fb_fejer {C : Set E} {F g : E → ℝ} {G : E → E} {prox : E → ℝ → E} {L : ℝ} (hg : ConvexOn ℝ C g)
    (hF : AboveTangents F G) (hS : Smooth F G L) (hL : 0 < L) (hp : ExactProx C g prox) {β : ℝ} (hb : 0 < β)
    {u : E} (hu : Minimises C (fun u => F u + g u) u) (x : E) :
    ‖prox (x - β • G x) β - u‖ ^ 2 + (1 - β * L / 2) * ‖prox (x - β • G x) β - x‖ ^ 2 ≤ ‖x - u‖ ^ 2 := by
  have hfix := fb_fixed_of_minimises hg hF hS hp hb hu
  have hok : ∀ t' ∈ [(⟨C, g, prox, 1⟩ : Term E)], t'.Ok := by
    intro t' h
    rw [List.mem_singleton] at h
    subst h
    exact ⟨hg, hp, one_pos⟩
  have hm : ∀ y : E, gMean [(⟨C, g, prox, 1⟩ : Term E)] (fun _ => y) = y := by
    intro y
    simp [gMean]
  have hq : ∀ (y : E) i, gProx G β [(⟨C, g, prox, 1⟩ : Term E)] (fun _ => y) i = prox (y - β • G y) β := by
    intro y i
    have hi : [(⟨C, g, prox, 1⟩ : Term E)][i] = ⟨C, g, prox, 1⟩ := by
      simp
    simp only [gProx, hm, hi, div_one]
    congr 1
    module
  have h := gen_fejer hF hS hL [⟨C, g, prox, 1⟩] hok (by simp) β 1 hb one_pos (fun _ => x) (fun _ => u)
    (fun i => by rw [hq, hm]; exact hfix)
  simp only [hq, hm] at h
  simp only [List.length_cons, List.length_nil, Nat.reduceAdd, Finset.univ_unique, Finset.sum_singleton, Fin.getElem_fin,
    Fin.default_eq_zero, Fin.val_zero, List.getElem_cons_zero, one_mul, one_smul] at h
  have e : x + (prox (x - β • G x) β - x) - u = prox (x - β • G x) β - u := by abel
  rw [e] at h
  linarith

/-- C152 for `ForwardBackward` without acceleration, `0 < β < 2/L`: the change from one iterate to the next never increases,
and the change made by update `n + 1` is at most the distance to the solution set over `√((1 - βL/2)(n + 1))`. -/
theorem C152_forward_backward {C : Set E} {F g : E → ℝ} {G : E → E} {prox : E → ℝ → E} {L : ℝ} (hg : ConvexOn ℝ C g)
    (hF : AboveTangents F G) (hS : Smooth F G L) (hL : 0 < L) (hp : ExactProx C g prox) (x0 : E) (β : ℝ) (r : S)
    (hb : 0 < β) (hbL : β * L ≤ 2) :
    let x := fun n => (afterSteps G prox (userRules none none) ⟨x0, x0, none, none, β, 1, r⟩ n).xOld
    (∀ n, ‖x (n + 2) - x (n + 1)‖ ≤ ‖x (n + 1) - x n‖) ∧
      ∀ u, Minimises C (fun u => F u + g u) u → ∀ n : ℕ,
        (n + 1) * ((1 - β * L / 2) * ‖x (n + 1) - x n‖ ^ 2) ≤ ‖x0 - u‖ ^ 2 := by
  intro x
  have hx : ∀ n, x (n + 1) = prox (x n - β • G (x n)) β := plain_iterates G prox x0 β r
  have hmono : ∀ n, ‖x (n + 2) - x (n + 1)‖ ≤ ‖x (n + 1) - x n‖ := by
    intro n
    have h := fb_map_nonexpansive hg hF hS hL.le hp hb hbL (x (n + 1)) (x n)
    rw [← hx (n + 1), ← hx n] at h
    exact h
  refine ⟨hmono, fun u hu n => ?_⟩
  refine residual_rate (fun n => ‖x n - u‖ ^ 2) (fun n => ‖x (n + 1) - x n‖ ^ 2) (1 - β * L / 2) (by linarith)
    (fun n => sq_nonneg _) (fun n => pow_le_pow_left₀ (norm_nonneg _) (hmono n) 2) (fun n => ?_) n
  have h := fb_fejer hg hF hS hL hp hb hu (x n)
  rw [← hx n] at h
  exact h

/-- C152: a small change certifies a nearly optimal solution (`0 < β ≤ 1/L`): the excess of the objective after an update is at
most the change times the distance to a minimiser, over the step size. -/
theorem C152_small_change_certifies {C : Set E} {F g : E → ℝ} {G : E → E} {prox : E → ℝ → E} {L : ℝ}
    (hg : ConvexOn ℝ C g) (hF : AboveTangents F G) (hS : Smooth F G L) (hp : ExactProx C g prox) (x0 : E) (β : ℝ) (r : S)
    (hb : 0 < β) (hbL : β * L ≤ 1) {u : E} (hu : Minimises C (fun u => F u + g u) u) (n : ℕ) :
    let x := fun n => (afterSteps G prox (userRules none none) ⟨x0, x0, none, none, β, 1, r⟩ n).xOld
    (F (x (n + 1)) + g (x (n + 1))) - (F u + g u) ≤ ‖x (n + 1) - x n‖ * ‖x0 - u‖ / β := by
  intro x
  have hD := (ista_descent hg hF hS hp x0 β r hb hbL (X := x) rfl).1
  have hnn : ∀ k, 0 ≤ (F (x (k + 1)) + g (x (k + 1))) - (F u + g u) := fun k =>
    sub_nonneg.2 (hu.2 _ ((ista_descent hg hF hS hp x0 β r hb hbL (X := x) rfl).2.1 k))
  have hdist : ∀ k, ‖x k - u‖ ≤ ‖x0 - u‖ := by
    intro k
    induction k with
    | zero => exact le_rfl
    | succ k ih =>
      refine le_trans ?_ ih
      have h1 := hD k u hu.1
      have h2 := mul_nonneg (mul_nonneg two_pos.le hb.le) (hnn k)
      exact le_of_sq_le_sq (by linarith) (norm_nonneg _)
  have h1 := hD n u hu.1
  have h2 : ‖x n - u‖ ^ 2 - ‖x (n + 1) - u‖ ^ 2 ≤ 2 * (‖x (n + 1) - x n‖ * ‖x n - u‖) := by
    have e : x (n + 1) - u = (x n - u) + (x (n + 1) - x n) := by abel
    have h3 := abs_real_inner_le_norm (x n - u) (x (n + 1) - x n)
    have h4 := (abs_le.1 h3).1
    rw [e, norm_add_sq_real]
    nlinarith [sq_nonneg ‖x (n + 1) - x n‖]
  have h3 := mul_le_mul_of_nonneg_left (hdist n) (norm_nonneg (x (n + 1) - x n))
  rw [le_div_iff₀ hb]
  linarith

/-- C152: relaxation above one breaks the monotonicity: for `F = ‖·‖²/2`, `g = 0` and every `λ > 1` the second change is larger than the
first one, for every small enough step. -/
theorem C152_relaxation_breaks_monotonicity (lam β : ℝ) (hb : 0 < β) (hb1 : β < 1) (hl : 1 < (1 - β) * lam) (x0 : E)
    (hx0 : x0 ≠ 0) (r : S) :
    let x := fun n => (afterSteps (fun x : E => x) (fun x _ => x) (userRules none none)
      ⟨x0, x0, none, none, β, lam, r⟩ n).xOld
    ‖x 1 - x 0‖ < ‖x 2 - x 1‖ := by
  intro x
  have hst := relaxed_steps (fun x : E => x) (fun x _ => x) x0 β lam r
  have e1 : x 1 = x0 - β • x0 := (hst 0).1
  have e2 : x 2 = (x0 + lam • (x 1 - x0)) - β • (x0 + lam • (x 1 - x0)) := by
    rw [← show _ = x0 + lam • (x 1 - x0) from (hst 0).2.1]
    exact (hst 1).1
  have h1 : x 1 - x 0 = (-β) • x0 := by
    rw [e1]
    show x0 - β • x0 - x0 = _
    module
  have h2 : x 2 - x 1 = (-((1 - β) * lam * β)) • x0 := by
    rw [e2, e1]
    module
  rw [h1, h2, norm_smul, norm_smul]
  refine mul_lt_mul_of_pos_right ?_ (norm_pos_iff.2 hx0)
  rw [Real.norm_eq_abs, Real.norm_eq_abs, abs_neg, abs_neg, abs_of_pos hb,
    abs_of_pos (mul_pos (by linarith) hb)]
  nlinarith

end

section
variable {E : Type} [NormedAddCommGroup E] [InnerProductSpace ℝ E] {S : Type}

/-- The weighted mean is bounded by the weighted norm. -/
theorem gMean_sq_le (ts : List (Term E)) (hok : ∀ t ∈ ts, t.Ok) (hw : (ts.map (·.w)).sum = 1) (u : Fin ts.length → E) :
    ‖gMean ts u‖ ^ 2 ≤ ∑ i, ts[i].w * ‖u i‖ ^ 2 := by
  have hpos : ∀ i : Fin ts.length, 0 ≤ ts[i].w := fun i => (hok _ (List.getElem_mem i.2)).pos.le
  have hw1 : ∑ i : Fin ts.length, ts[i].w = 1 := by rw [← weights_sum]; exact hw
  have h1 : ‖gMean ts u‖ ≤ ∑ i, ts[i].w * ‖u i‖ := by
    refine (norm_sum_le _ _).trans (Finset.sum_le_sum fun i _ => ?_)
    rw [norm_smul, Real.norm_eq_abs, abs_of_nonneg (hpos i)]
  have h2 : (∑ i, ts[i].w * ‖u i‖) ^ 2 ≤ ∑ i, ts[i].w * ‖u i‖ ^ 2 := by
    set m := ∑ i, ts[i].w * ‖u i‖ with hm
    have h3 : 0 ≤ ∑ i, ts[i].w * (‖u i‖ - m) ^ 2 :=
      Finset.sum_nonneg fun i _ => mul_nonneg (hpos i) (sq_nonneg _)
    have h4 : ∑ i, ts[i].w * (‖u i‖ - m) ^ 2 =
        ∑ i, ts[i].w * ‖u i‖ ^ 2 - 2 * m * (∑ i, ts[i].w * ‖u i‖) + (∑ i : Fin ts.length, ts[i].w) * m ^ 2 := by
      rw [Finset.mul_sum, Finset.sum_mul, ← Finset.sum_sub_distrib, ← Finset.sum_add_distrib]
      refine Finset.sum_congr rfl ?_
      intros
      ring
    rw [← hm, hw1] at h4
    nlinarith
  exact (pow_le_pow_left₀ (norm_nonneg _) h1 2).trans h2

/-- C152 for `GenForwardBackward` with constant parameters, `0 < λ ≤ 2 - γL/2`: the change made by update `n + 1` in the solution is
at most a constant over `√(n + 1)`, explicit in terms of a point `x` and subgradients `vᵢ` of the terms at `x` with `∇F(x) + ∑ vᵢ = 0`. -/
theorem C152_gen_forward_backward {F : E → ℝ} {G : E → E} {L : ℝ} (hF : AboveTangents F G)
    (hS : Smooth F G L) (hL : 0 < L) (ts : List (Term E)) (hok : ∀ t ∈ ts, t.Ok)
    (hw : (ts.map (·.w)).sum = 1) (x0 : E) (gamma lam : ℝ) (r : S)
    (hg : 0 < gamma) (hl : 0 < lam) (hc : lam ≤ 2 - gamma * L / 2) (x : E) (v : Fin ts.length → E)
    (hx : ∀ i : Fin ts.length, x ∈ ts[i].C) (hv : ∀ i : Fin ts.length, ∀ u ∈ ts[i].C, ts[i].g x + ⟪v i, u - x⟫ ≤ ts[i].g u)
    (h0 : G x + ∑ i, v i = 0) (n : ℕ) :
    let s := fun n => (genAfter G (ts.map (·.prox)) (ts.map (·.w)) none none (genInit x0 ts.length gamma lam r) n).xOld
    (n + 1) * ((2 - gamma * L / 2 - lam) * ‖s (n + 1) - s n‖ ^ 2) ≤
      lam * ∑ i, ts[i].w * ‖x0 - (x - gamma • G x - (gamma / ts[i].w) • v i)‖ ^ 2 := by
  intro s
  obtain ⟨z, hz0, hzx, hz⟩ := gen_form G ts hw x0 gamma lam r
  have hpos : ∀ i : Fin ts.length, 0 < ts[i].w := fun i => (hok _ (List.getElem_mem i.2)).pos
  have hw1 : ∑ i : Fin ts.length, ts[i].w = 1 := by rw [← weights_sum]; exact hw
  set y : Fin ts.length → E := fun i => x - gamma • G x - (gamma / ts[i].w) • v i with hy
  have hmy : gMean ts y = x := by
    have e : ∀ i : Fin ts.length, ts[i].w • y i = ts[i].w • (x - gamma • G x) - gamma • v i := by
      intro i
      rw [hy]
      simp only
      rw [smul_sub, smul_smul, mul_div_cancel₀ _ (hpos i).ne']
    rw [gMean, Finset.sum_congr rfl fun i _ => e i, Finset.sum_sub_distrib, ← Finset.sum_smul, hw1, one_smul,
      ← Finset.smul_sum, sub_sub, ← smul_add, h0, smul_zero, sub_zero]
  have hfix : ∀ i, gProx G gamma ts y i = gMean ts y := by
    intro i
    have ht := hok _ (List.getElem_mem i.2)
    have hb : 0 < gamma / ts[i].w := div_pos hg (hpos i)
    rw [gProx, hmy]
    refine (ht.exact _ _ hb).unique ht.convex hb.le (isProxOn_of_variational (hx i) fun u hu => ?_)
    have e : (2 : ℝ) • x - y i - gamma • G x - x = (gamma / ts[i].w) • v i := by
      rw [hy]; module
    rw [e, real_inner_smul_left]
    have := mul_le_mul_of_nonneg_left (hv i u hu) hb.le
    simp only [Fin.getElem_fin] at this ⊢
    linarith
  have hdz : ∀ n i, z (n + 1) i - z n i = lam • (gProx G gamma ts (z n) i - gMean ts (z n)) := by
    intro n i
    rw [hz n]
    simp
  have hres : ∀ n, ∑ i, ts[i].w * ‖z (n + 1) i - z n i‖ ^ 2
      = lam ^ 2 * ∑ i, ts[i].w * ‖gProx G gamma ts (z n) i - gMean ts (z n)‖ ^ 2 := by
    intro n
    rw [Finset.mul_sum]
    refine Finset.sum_congr rfl fun i _ => ?_
    rw [hdz, norm_smul, mul_pow, Real.norm_eq_abs, sq_abs]
    ring
  have h := residual_rate (fun n => lam * ∑ i, ts[i].w * ‖z n i - y i‖ ^ 2)
    (fun n => ∑ i, ts[i].w * ‖z (n + 1) i - z n i‖ ^ 2) (2 - gamma * L / 2 - lam) (by linarith)
    (fun n => mul_nonneg hl.le (Finset.sum_nonneg fun i _ => mul_nonneg (hpos i).le (sq_nonneg _)))
    (fun n => by
      have h := gen_nonexpansive hF hS hL ts hok hw gamma lam hg hl hc (z (n + 1)) (z n)
      have e1 := hz (n + 1)
      have e2 := hz n
      simp only [← congrFun e1, ← congrFun e2] at h
      exact h)
    (fun n => by
      have h := gen_fejer hF hS hL ts hok hw gamma lam hg hl (z n) y hfix
      have e2 := hz n
      simp only [← congrFun e2] at h
      rw [hres]
      have := mul_le_mul_of_nonneg_left h hl.le
      linarith) n
  simp only [hz0] at h
  refine le_trans ?_ h
  have hs : s (n + 1) - s n = gMean ts (fun i => z (n + 1) i - z n i) := by
    show (genAfter _ _ _ _ _ _ _).xOld - (genAfter _ _ _ _ _ _ _).xOld = _
    rw [hzx, hzx]
    simp only [gMean, smul_sub, Finset.sum_sub_distrib]
  rw [hs]
  have h2 := gMean_sq_le ts hok hw (fun i => z (n + 1) i - z n i)
  exact mul_le_mul_of_nonneg_left (mul_le_mul_of_nonneg_left h2 (by linarith)) (by positivity)

end

section
open Condat
variable {E H : Type} [NormedAddCommGroup E] [InnerProductSpace ℝ E] [NormedAddCommGroup H] [InnerProductSpace ℝ H]

/-- C152 for `Condat` with constant parameters: in the metric of the algorithm, the change of the pair of primal and dual iterates
never increases, and when the step-size condition holds with a margin `δ > 0` the change made by update `n + 1` is at most the
distance to a saddle point times `√(ρ/(δ(n + 1)))`. -/
theorem C152_condat {C : Set E} {D : Set H} {F g : E → ℝ} {h : H → ℝ} {O : Ops E H} {Lf nL : ℝ}
    (ok : CondatOk C D F g h O) (hS : Smooth F O.grad Lf) (hLf : 0 < Lf) (hn : ∀ x, ‖O.op x‖ ≤ nL * ‖x‖)
    (s : Condat.St E H) (hs : 0 < s.sigma) (ht : 0 < s.tau) (hr0 : 0 ≤ s.rho) (δ : ℝ) (hδ : 0 ≤ δ) (hr2 : s.rho + δ < 2)
    (hc : Lf / 2 ≤ (2 - (s.rho + δ)) * (1 / s.tau - s.sigma * nL ^ 2)) :
    let w := condatAfter O ⟨none, none, none⟩ s
    (∀ n, condatNorm O s.sigma s.tau ((w (n + 2)).x - (w (n + 1)).x) ((w (n + 2)).y - (w (n + 1)).y) ≤
      condatNorm O s.sigma s.tau ((w (n + 1)).x - (w n).x) ((w (n + 1)).y - (w n).y)) ∧
    ∀ x y, IsSaddle C D F (fun u => 1 / s.tau * g u) h O.op x y → ∀ n : ℕ,
      (n + 1) * (δ * condatNorm O s.sigma s.tau ((w (n + 1)).x - (w n).x) ((w (n + 1)).y - (w n).y)) ≤
        s.rho * condatNorm O s.sigma s.tau (s.x - x) (s.y - y) := by
  intro w
  have hmδ := C79_metric_condition O s.sigma s.tau (s.rho + δ) Lf nL hs hr2 hn hc
  have hN0 : ∀ a b, 0 ≤ condatNorm O s.sigma s.tau a b := fun a b =>
    nonneg_of_mul_nonneg_right (le_trans (by positivity) (hmδ a b)) (by linarith)
  have hm : ∀ a b, Lf / 2 * ‖a‖ ^ 2 ≤ (2 - s.rho) * condatNorm O s.sigma s.tau a b := fun a b => by
    have h1 := hmδ a b
    have h2 := mul_nonneg hδ (hN0 a b)
    linarith
  have hpar : ∀ k, (w k).rho = s.rho ∧ (w k).sigma = s.sigma ∧ (w k).tau = s.tau := by
    intro k
    induction k with
    | zero => exact ⟨rfl, rfl, rfl⟩
    | succ k ih => exact ih
  have hw : ∀ k, w (k + 1) = Condat.step O ⟨none, none, none⟩ (w k) := fun k => rfl
  have hmono : ∀ n, condatNorm O s.sigma s.tau ((w (n + 2)).x - (w (n + 1)).x) ((w (n + 2)).y - (w (n + 1)).y) ≤
      condatNorm O s.sigma s.tau ((w (n + 1)).x - (w n).x) ((w (n + 1)).y - (w n).y) := by
    intro n
    obtain ⟨p1, p2, p3⟩ := hpar (n + 1)
    obtain ⟨q1, q2, q3⟩ := hpar n
    have h1 := condat_step_nonexpansive ok hS hLf ⟨none, none, none⟩ (w (n + 1)) (w n) (by rw [p2]; exact hs)
      (by rw [p3]; exact ht) (by rw [p1]; exact hr0) (by rw [p1, p2, p3]; exact hm) (q2.trans p2.symm) (q3.trans p3.symm)
      (q1.trans p1.symm)
    rw [p2, p3, ← hw (n + 1), ← hw n] at h1
    exact (Real.sqrt_le_sqrt_iff (hN0 _ _)).1 h1
  refine ⟨hmono, fun x y hsad n => ?_⟩
  refine residual_rate (fun n => s.rho * condatNorm O s.sigma s.tau ((w n).x - x) ((w n).y - y))
    (fun n => condatNorm O s.sigma s.tau ((w (n + 1)).x - (w n).x) ((w (n + 1)).y - (w n).y)) δ hδ
    (fun n => mul_nonneg hr0 (hN0 _ _)) hmono (fun n => ?_) n
  obtain ⟨q1, q2, q3⟩ := hpar n
  have h1 := C79_condat_fejer ok hS hLf ⟨none, none, none⟩ (w n) (by rw [q2]; exact hs) (by rw [q3]; exact ht)
    (by rw [q1]; exact hr0) (by rw [q3]; exact hsad)
  rw [q1, q2, q3, ← hw n] at h1
  have h2 := hmδ ((w n).x - (half O (w n)).1) ((w n).y - (half O (w n)).2)
  have e4 : O.op 0 = 0 := by have := ok.op_sub 0 0; rw [sub_self] at this; rw [this]; exact sub_self _
  have h3 : condatNorm O s.sigma s.tau ((w (n + 1)).x - (w n).x) ((w (n + 1)).y - (w n).y)
      = s.rho ^ 2 * condatNorm O s.sigma s.tau ((w n).x - (half O (w n)).1) ((w n).y - (half O (w n)).2) := by
    have hq := condatNorm_quad ok s.sigma s.tau 0 ((w n).x - (half O (w n)).1, (w n).y - (half O (w n)).2) (-s.rho)
    have ex : (w (n + 1)).x - (w n).x = -s.rho • ((w n).x - (half O (w n)).1) := by
      rw [hw]; simp only [Condat.step, q1]; module
    have ey : (w (n + 1)).y - (w n).y = -s.rho • ((w n).y - (half O (w n)).2) := by
      rw [hw]; simp only [Condat.step, q1]; module
    rw [ex, ey]
    simp only [zero_add, Prod.smul_fst, Prod.smul_snd, Prod.fst_zero, Prod.snd_zero, inner_zero_left, inner_zero_right, e4] at hq
    rw [hq]
    simp [condatNorm, e4]
  rw [h3]
  have h4 := mul_le_mul_of_nonneg_left h1 hr0
  have h5 := mul_le_mul_of_nonneg_left h2 (sq_nonneg s.rho)
  nlinarith

end

section
variable {ι : Type} [Fintype ι]

/-- C152 for `VanillaGenericGradOpt` (`epoch_size = 1`, constant step `0 < η ≤ 2/L`) on real data: the solutions before and after
the last update of a run of `n + 1` updates. -/
theorem C152_vanilla {C : Set (EuclideanSpace ℝ ι)} {F g : EuclideanSpace ℝ ι → ℝ}
    {G : EuclideanSpace ℝ ι → EuclideanSpace ℝ ι} {L : ℝ} (prox : (ι → ℝ) → (ι → ℝ) → (ι → ℝ))
    (hg : ConvexOn ℝ C g) (hF : AboveTangents F G) (hS : Smooth F G L) (hL : 0 < L)
    (hp : ExactProx C g fun y b => WithLp.toLp 2 (prox y.ofLp fun _ => b)) (x0 : ι → ℝ) (eta eps : ℝ)
    (st : Option ℝ) (he : 0 < eta) (heL : eta * L ≤ 2) (u : EuclideanSpace ℝ ι)
    (hu : Minimises C (fun u => F u + g u) u) (idxs : List ℕ) (i : ℕ) :
    ∃ c s t t', GD.init .vanilla x0 prox (.float eta) (.float eps) none 1 st = .ok (c, s) ∧
      GD.run c (idxs.map fun k => (k, fun x i => (G (WithLp.toLp 2 x)).ofLp i)) s = .ok t ∧
      GD.run c ((idxs ++ [i]).map fun k => (k, fun x i => (G (WithLp.toLp 2 x)).ofLp i)) s = .ok t' ∧
      (idxs.length + 1) * ((1 - eta * L / 2) * ‖WithLp.toLp 2 t'.xNew - WithLp.toLp 2 t.xNew‖ ^ 2) ≤
        ‖WithLp.toLp 2 x0 - u‖ ^ 2 := by
  obtain ⟨c, s, t, h1, h2, h3⟩ := vanilla_run_eq_fb prox G x0 eta eps st idxs
  obtain ⟨c', s', t', h1', h2', h3'⟩ := vanilla_run_eq_fb prox G x0 eta eps st (idxs ++ [i])
  rw [h1] at h1'
  cases h1'
  refine ⟨c, s, t, t', h1, h2, h2', ?_⟩
  rw [h3, h3', List.length_append]
  exact (C152_forward_backward hg hF hS hL hp (WithLp.toLp 2 x0) eta () he heL).2 u hu idxs.length

end

/-- `½(x - 3)² + |x|` from `7` with step `3/2`: change `n + 1` is at most `10/√(n + 1)`. -/
example (n : ℕ) :
    let x := fun n => (afterSteps (fun x : ℝ => x - 3) softR (userRules none none) ⟨7, 7, none, none, 3 / 2, 1, ()⟩ n).xOld
    (n + 1) * (1 / 4 * ‖x (n + 1) - x n‖ ^ 2) ≤ 25 := by
  intro x
  have h := (C152_forward_backward (S := Unit) abs_convex sq_above sq_smooth one_pos softR_exact 7 (3 / 2) () (by norm_num)
    (by norm_num)).2 2 two_minimises n
  norm_num at h ⊢
  exact h

example (n : ℕ) := C152_small_change_certifies (S := Unit) abs_convex sq_above sq_smooth softR_exact 7 (1 / 2) () (by norm_num)
  (by norm_num) two_minimises n

/-- Relaxation `3/2` and step `1/10`. -/
example := C152_relaxation_breaks_monotonicity (E := ℝ) (3 / 2) (1 / 10) (by norm_num) (by norm_num) (by norm_num) 1
  one_ne_zero ()

/-- `½(x - 3)² + |x| + |x|`, weights `1/4` and `3/4`: the minimiser is `1`, with subgradients `1` and `1`. -/
example := C152_gen_forward_backward (S := Unit) sq_above sq_smooth one_pos
  [(⟨Set.univ, fun x => |x|, softR, 1/4⟩ : Term ℝ), ⟨Set.univ, fun x => |x|, softR, 3/4⟩]
  (by
    intro t ht
    simp only [List.mem_cons, List.not_mem_nil, or_false] at ht
    rcases ht with rfl | rfl
    · exact ⟨abs_convex, softR_exact, by norm_num⟩
    · exact ⟨abs_convex, softR_exact, by norm_num⟩)
  (by norm_num) 7 1 1 () one_pos one_pos (by norm_num) 1 (fun _ => 1)
  (fun i => by fin_cases i <;> simp)
  (fun i u _ => by
    have h : (1 : ℝ) + (u - 1) ≤ |u| := by linarith [le_abs_self u]
    fin_cases i <;> simpa using h)
  (by norm_num [Fin.sum_univ_two])

example (n : ℕ) := (C152_condat condat_example_ok sq_smooth one_pos (nL := 1) (fun x => by simp)
  ⟨0, 0, 1 / 2, 1 / 2, 1 / 2⟩ (by norm_num) (by norm_num) (by norm_num) 1 (by norm_num) (by norm_num) (by norm_num)).2 2 1
  (condat_example_saddle (1 / 2)) n

end Verif
