import Verif.Lemmas.Momentum
import Verif.Props.AdaGrad

/-!
# C144: convergence of gradient descent with momentum

`MomentumGradOpt` on real data with one gradient, constant `eta` and no regulariser, with every pattern of resets.
-/

set_option linter.unusedSectionVars false

namespace Verif
open GD Spec RealInnerProductSpace Topology

section
variable {ι : Type} [Fintype ι]

/-- The configuration and the state that the constructor of `MomentumGradOpt` produces. -/
theorem momentum_init (β : ℝ) (x0 : ι → ℝ) (prox : (ι → ℝ) → (ι → ℝ) → (ι → ℝ)) (eta eps : ℝ) (n : ℕ) (st : Option ℝ) :
    GD.init (.momentum β) x0 prox (.float eta) (.float eps) none n st
      = .ok (⟨.momentum β, n, 0, none, prox⟩, ⟨x0, x0, fun _ => 0, fun _ => 1, eta, 1, 1, fun _ _ => 0⟩) := rfl

theorem momentum_invariant (G : EuclideanSpace ℝ ι → EuclideanSpace ℝ ι) (β : ℝ) (prox : (ι → ℝ) → (ι → ℝ) → (ι → ℝ))
    (eta : ℝ) (n : ℕ) (x0 : ι → ℝ) (idx : ℕ → ℕ) (k : ℕ) :
    let s := gdRun (⟨.momentum β, n, 0, none, prox⟩ : Conf ι ℝ) (firstUpdates G idx k)
      ⟨x0, x0, fun _ => 0, fun _ => 1, eta, 1, 1, fun _ _ => 0⟩
    s.speed = (fun _ => 1) ∧ s.eta = eta ∧ s.xOld = s.xNew := by
  induction k with
  | zero => exact ⟨rfl, rfl, rfl⟩
  | succ k ih =>
    simp only [gdRun_firstUpdates_succ] at ih ⊢
    obtain ⟨i1, i2, -⟩ := ih
    refine ⟨?_, ?_, rfl⟩
    · rw [next_speed]; exact i1
    · rw [next_eta]; exact i2

theorem momentum_run (G : EuclideanSpace ℝ ι → EuclideanSpace ℝ ι) (β : ℝ) (prox : (ι → ℝ) → (ι → ℝ) → (ι → ℝ))
    (hp : ∀ v s, prox v s = v) (eta : ℝ) (n : ℕ) (x0 : ι → ℝ) (idx : ℕ → ℕ) :
    let s := fun k => gdRun (⟨.momentum β, n, 0, none, prox⟩ : Conf ι ℝ) (firstUpdates G idx k)
      ⟨x0, x0, fun _ => 0, fun _ => 1, eta, 1, 1, fun _ _ => 0⟩
    MomentumRun G eta β (fun k => WithLp.toLp 2 (s k).xNew) (fun k => WithLp.toLp 2 (s k).dir) := by
  intro s
  refine ⟨rfl, fun k => ?_, fun k => ?_⟩
  · obtain ⟨i1, i2, i3⟩ := momentum_invariant G β prox eta n x0 idx k
    have e : s (k + 1) = gdNext _ (idx k) (fun x i => (G (WithLp.toLp 2 x)).ofLp i) (s k) :=
      gdRun_firstUpdates_succ _ G idx k _
    simp only [e]
    rw [(next_of_identity _ hp (idx k) _ (s k)).1]
    have j1 : (s k).speed = fun _ => 1 := i1
    have j2 : (s k).eta = eta := i2
    have j3 : (s k).xOld = (s k).xNew := i3
    ext i
    simp only [prepare, updateSpeed, updateDir, stepOf, j1, j2, j3]
    simp
    ring
  · obtain ⟨i1, i2, i3⟩ := momentum_invariant G β prox eta n x0 idx k
    have e : s (k + 1) = gdNext _ (idx k) (fun x i => (G (WithLp.toLp 2 x)).ofLp i) (s k) :=
      gdRun_firstUpdates_succ _ G idx k _
    have j3 : (s k).xOld = (s k).xNew := i3
    simp only [e]
    by_cases h0 : idx k % n = 0
    · right
      simp only [gdNext, h0, if_true, GD.reset]
      rfl
    · left
      simp only [gdNext, h0, if_false]
      ext i
      simp only [prepare, updateSpeed, updateDir, j3]
      simp

/-- C144: with momentum `0 ≤ β` and `0 < eta ≤ 2(1-β)/L`, no update makes the cost larger than it was at the start, for
every function with `L`-Lipschitz gradient, convex or not, every epoch size and every sequence of indices. -/
theorem C144_momentum_never_above_start {F : EuclideanSpace ℝ ι → ℝ} {G : EuclideanSpace ℝ ι → EuclideanSpace ℝ ι}
    {L : ℝ} (hS : Smooth F G L) (prox : (ι → ℝ) → (ι → ℝ) → (ι → ℝ)) (hp : ∀ v s, prox v s = v) (x0 : ι → ℝ)
    {β eta : ℝ} (hβ : 0 ≤ β) (he : 0 < eta) (hc : L * eta ≤ 2 * (1 - β)) (eps : ℝ) (st : Option ℝ) (epoch : ℕ)
    (hepoch : epoch ≠ 0) (idx : ℕ → ℕ) (n : ℕ) :
    ∃ c s t, GD.init (.momentum β) x0 prox (.float eta) (.float eps) none epoch st = .ok (c, s) ∧
      run c (firstUpdates G idx n) s = .ok t ∧ F (WithLp.toLp 2 t.xNew) ≤ F (WithLp.toLp 2 x0) := by
  refine ⟨_, _, _, momentum_init β x0 prox eta eps epoch st, run_eq _ hepoch _ _, ?_⟩
  have h := (momentum_run G β prox hp eta epoch x0 idx).energy hS he.le hβ n
  have h1 : 0 ≤ eta * (1 - β - L * eta / 2) * ∑ k ∈ Finset.range n, ‖β • WithLp.toLp 2 (gdRun (⟨.momentum β, epoch, 0, none, prox⟩ : Conf ι ℝ) (firstUpdates G idx k)
      ⟨x0, x0, fun _ => 0, fun _ => 1, eta, 1, 1, fun _ _ => 0⟩).dir + G (WithLp.toLp 2 (gdRun (⟨.momentum β, epoch, 0, none, prox⟩ : Conf ι ℝ) (firstUpdates G idx k)
      ⟨x0, x0, fun _ => 0, fun _ => 1, eta, 1, 1, fun _ _ => 0⟩).xNew)‖ ^ 2 :=
    mul_nonneg (mul_nonneg he.le (by linarith)) (Finset.sum_nonneg fun k _ => sq_nonneg _)
  refine le_trans ?_ h
  rw [add_assoc]
  exact le_add_of_nonneg_right (add_nonneg (mul_nonneg (by positivity) (sq_nonneg _)) h1)

/-- C144: with `0 ≤ β` and `0 < eta < 2(1-β)/L`, among the first `n` iterates there is one with a gradient of size
`O(1/√n)`, for every function with `L`-Lipschitz gradient that is bounded below, convex or not. -/
theorem C144_momentum_gradients_vanish {F : EuclideanSpace ℝ ι → ℝ} {G : EuclideanSpace ℝ ι → EuclideanSpace ℝ ι}
    {L : ℝ} (hS : Smooth F G L) {b : ℝ} (hb : ∀ x, b ≤ F x) (prox : (ι → ℝ) → (ι → ℝ) → (ι → ℝ))
    (hp : ∀ v s, prox v s = v) (x0 : ι → ℝ) {β eta : ℝ} (hβ : 0 ≤ β) (he : 0 < eta) (hc : L * eta < 2 * (1 - β))
    (eps : ℝ) (st : Option ℝ) (epoch : ℕ) (hepoch : epoch ≠ 0) (idx : ℕ → ℕ) (n : ℕ) (hn : 0 < n) :
    ∃ c s k t, GD.init (.momentum β) x0 prox (.float eta) (.float eps) none epoch st = .ok (c, s) ∧ k < n ∧
      run c (firstUpdates G idx k) s = .ok t ∧
      n * ‖G (WithLp.toLp 2 t.xNew)‖ ^ 2
        ≤ 2 * (1 + β ^ 2) * (F (WithLp.toLp 2 x0) - b) / (eta * (1 - β - L * eta / 2)) := by
  have h := (momentum_run G β prox hp eta epoch x0 idx).gradients hS he hβ (by linarith) hb n
  by_contra hcon
  refine absurd h (not_le.2 ?_)
  have h2 : ∀ k ∈ Finset.range n, 2 * (1 + β ^ 2) * (F (WithLp.toLp 2 x0) - b) / (eta * (1 - β - L * eta / 2)) / n
      < ‖G (WithLp.toLp 2 (gdRun (⟨.momentum β, epoch, 0, none, prox⟩ : Conf ι ℝ) (firstUpdates G idx k)
        ⟨x0, x0, fun _ => 0, fun _ => 1, eta, 1, 1, fun _ _ => 0⟩).xNew)‖ ^ 2 := by
    intro k hk
    by_contra h3
    refine hcon ⟨_, _, k, _, momentum_init β x0 prox eta eps epoch st, Finset.mem_range.1 hk, run_eq _ hepoch _ _, ?_⟩
    rw [not_lt, le_div_iff₀ (by exact_mod_cast hn)] at h3
    rwa [mul_comm]
  have h3 := Finset.sum_lt_sum_of_nonempty (Finset.nonempty_range_iff.2 hn.ne') h2
  rw [Finset.sum_const, Finset.card_range, nsmul_eq_mul, mul_div_cancel₀ _ (by exact_mod_cast hn.ne')] at h3
  exact h3

/-- C144: for convex costs with a minimiser the excess of the cost after `n` updates is at most a constant over `n`. -/
theorem C144_momentum_rate {F : EuclideanSpace ℝ ι → ℝ} {G : EuclideanSpace ℝ ι → EuclideanSpace ℝ ι} {L : ℝ}
    (hF : AboveTangents F G) (hS : Smooth F G L) {u : EuclideanSpace ℝ ι} (hu : Minimises Set.univ F u)
    (prox : (ι → ℝ) → (ι → ℝ) → (ι → ℝ)) (hp : ∀ v s, prox v s = v) (x0 : ι → ℝ) {β eta : ℝ} (hβ : 0 ≤ β) (hβ1 : β < 1)
    (he : 0 < eta) (hc : L * eta < 2 * (1 - β)) (eps : ℝ) (st : Option ℝ) (epoch : ℕ) (hepoch : epoch ≠ 0)
    (idx : ℕ → ℕ) (n : ℕ) :
    ∃ c s t, GD.init (.momentum β) x0 prox (.float eta) (.float eps) none epoch st = .ok (c, s) ∧
      run c (firstUpdates G idx n) s = .ok t ∧
      n * (F (WithLp.toLp 2 t.xNew) - F u) ≤ ‖WithLp.toLp 2 x0 - u‖ ^ 2 / (2 * eta)
        + ((1 + β) / (1 - β) + β) / (2 * (1 - β - L * eta / 2)) * (F (WithLp.toLp 2 x0) - F u) :=
  ⟨_, _, _, momentum_init β x0 prox eta eps epoch st, run_eq _ hepoch _ _,
    (momentum_run G β prox hp eta epoch x0 idx).rate hF hS he hβ hβ1 (by linarith) (fun w => hu.2 w (Set.mem_univ _)) n⟩

/-- C144: for convex costs with a minimiser the iterates converge to a minimiser, for `0 ≤ β < 1`, `0 < eta < 2(1-β)/L`,
from every starting array, for every epoch size and every sequence of indices (hence of resets). -/
theorem C144_momentum_converges {F : EuclideanSpace ℝ ι → ℝ} {G : EuclideanSpace ℝ ι → EuclideanSpace ℝ ι} {L : ℝ}
    (hF : AboveTangents F G) (hS : Smooth F G L) (hL : 0 < L) (hex : ∃ x, Minimises Set.univ F x)
    (prox : (ι → ℝ) → (ι → ℝ) → (ι → ℝ)) (hp : ∀ v s, prox v s = v) (x0 : ι → ℝ) {β eta : ℝ} (hβ : 0 ≤ β) (hβ1 : β < 1)
    (he : 0 < eta) (hc : L * eta < 2 * (1 - β)) (eps : ℝ) (st : Option ℝ) (epoch : ℕ) (hepoch : epoch ≠ 0) (idx : ℕ → ℕ) :
    ∃ z, Minimises Set.univ F z ∧ ∀ δ > 0, ∃ N, ∀ n, N ≤ n →
      ∃ c s t, GD.init (.momentum β) x0 prox (.float eta) (.float eps) none epoch st = .ok (c, s) ∧
        run c (firstUpdates G idx n) s = .ok t ∧ ‖WithLp.toLp 2 t.xNew - z‖ < δ := by
  obtain ⟨y, -, hy⟩ := hex
  obtain ⟨z, hz, hlim⟩ := (momentum_run G β prox hp eta epoch x0 idx).converges hF hS (smooth_grad_continuous hF hS hL)
    he hβ hβ1 (by linarith) ⟨y, fun w => hy w (Set.mem_univ _)⟩
  refine ⟨z, ⟨Set.mem_univ _, fun w _ => hz w⟩, fun δ hδ => ?_⟩
  obtain ⟨N, hN⟩ := Filter.eventually_atTop.1 (Metric.tendsto_nhds.1 hlim δ hδ)
  refine ⟨N, fun n hn => ⟨_, _, _, momentum_init β x0 prox eta eps epoch st, run_eq _ hepoch _ _, ?_⟩⟩
  rw [← dist_eq_norm]
  exact hN n hn

/-- C144: the step cannot be as large as `2(1+β)/L`.  On the convex cost `L/2 ‖x‖²`, with the indices `0, 1, 2, …` of a call of
`iterate` shorter than an epoch, the array stays further from the minimiser `0` than it was at the start. -/
theorem C144_too_large_step_fails {L : ℝ} (hL : 0 < L) (prox : (ι → ℝ) → (ι → ℝ) → (ι → ℝ)) (hp : ∀ v s, prox v s = v)
    (x0 : ι → ℝ) {β : ℝ} (hβ : 0 ≤ β) (hβ1 : β < 1) (eps : ℝ) (st : Option ℝ) (epoch n : ℕ) (hn : n < epoch) :
    AboveTangents (fun x : EuclideanSpace ℝ ι => L / 2 * ‖x‖ ^ 2) (fun x => L • x) ∧
    Smooth (fun x : EuclideanSpace ℝ ι => L / 2 * ‖x‖ ^ 2) (fun x => L • x) L ∧
    ∃ c s t, GD.init (.momentum β) x0 prox (.float (2 * (1 + β) / L)) (.float eps) none epoch st = .ok (c, s) ∧
      run c (firstUpdates (fun x => L • x) id (n + 1)) s = .ok t ∧
      (1 + 2 * β) * ‖WithLp.toLp 2 x0‖ ≤ ‖WithLp.toLp 2 t.xNew‖ := by
  have e : ∀ x u : EuclideanSpace ℝ ι, ‖u‖ ^ 2 = ‖x‖ ^ 2 + 2 * ⟪x, u - x⟫ + ‖u - x‖ ^ 2 := by
    intro x u
    have := norm_add_sq_real x (u - x)
    rwa [add_sub_cancel] at this
  refine ⟨fun x u => ?_, fun x u => ?_, ?_⟩
  · simp only [e x u, real_inner_smul_left]
    nlinarith [mul_nonneg hL.le (sq_nonneg ‖u - x‖)]
  · simp only [e x u, real_inner_smul_left]
    nlinarith
  have hepoch : epoch ≠ 0 := by omega
  refine ⟨_, _, _, momentum_init β x0 prox (2 * (1 + β) / L) eps epoch st, run_eq _ hepoch _ _, ?_⟩
  have hR := momentum_run (fun x : EuclideanSpace ℝ ι => L • x) β prox hp (2 * (1 + β) / L) epoch x0 id
  set s := fun k => gdRun (⟨.momentum β, epoch, 0, none, prox⟩ : Conf ι ℝ)
    (firstUpdates (fun x : EuclideanSpace ℝ ι => L • x) id k)
    ⟨x0, x0, fun _ => 0, fun _ => 1, 2 * (1 + β) / L, 1, 1, fun _ _ => 0⟩ with hs
  have hb : (1 - β) ≠ 0 := by linarith
  have hdir0 : WithLp.toLp 2 (s 1).dir = 0 := by
    have e1 : s 1 = gdNext _ (id 0) (fun x i => ((fun x : EuclideanSpace ℝ ι => L • x) (WithLp.toLp 2 x)).ofLp i) (s 0) :=
      gdRun_firstUpdates_succ _ _ id 0 _
    rw [e1]
    simp only [gdNext, id, Nat.zero_mod, if_true, GD.reset]
    rfl
  have hdir : ∀ k, k + 1 < epoch → WithLp.toLp 2 (s (k + 2)).dir
      = β • WithLp.toLp 2 (s (k + 1)).dir + L • WithLp.toLp 2 (s (k + 1)).xNew := by
    intro k hk
    have e1 : s (k + 2) = gdNext _ (id (k + 1))
        (fun x i => ((fun x : EuclideanSpace ℝ ι => L • x) (WithLp.toLp 2 x)).ofLp i) (s (k + 1)) :=
      gdRun_firstUpdates_succ _ _ id (k + 1) _
    have j3 : (s (k + 1)).xOld = (s (k + 1)).xNew := (momentum_invariant _ β prox _ epoch x0 id (k + 1)).2.2
    have h0 : ¬ (k + 1) % epoch = 0 := by rw [Nat.mod_eq_of_lt hk]; omega
    rw [e1]
    simp only [gdNext, id, h0, if_false]
    ext i
    simp only [prepare, updateSpeed, updateDir, j3]
    simp
  have key : ∀ k, k < epoch →
      WithLp.toLp 2 (s (k + 1)).xNew
        = (-(1 + 2 * β) / (1 - β) * ((1 + β) * (-1) ^ k - 2 * β * (-β) ^ k)) • WithLp.toLp 2 x0 ∧
      WithLp.toLp 2 (s (k + 1)).dir
        = (-(1 + 2 * β) / (1 - β) * L * ((-β) ^ k - (-1) ^ k)) • WithLp.toLp 2 x0 := by
    intro k
    induction k with
    | zero =>
      intro _
      refine ⟨?_, ?_⟩
      · have h1 := hR.step 0
        simp only [zero_add] at h1 ⊢
        rw [h1, hR.start]
        show WithLp.toLp 2 x0 - (2 * (1 + β) / L) • (β • 0 + L • WithLp.toLp 2 x0) = _
        rw [smul_zero, zero_add, smul_smul]
        nth_rw 1 [← one_smul ℝ (WithLp.toLp 2 x0)]
        rw [← sub_smul]
        congr 1
        field_simp
        ring
      · rw [hdir0]
        simp
    | succ k ih =>
      intro hk
      obtain ⟨i1, i2⟩ := ih (by omega)
      have h2 := hdir k (by omega)
      refine ⟨?_, ?_⟩
      · have h1 := hR.step (k + 1)
        simp only at h1
        rw [h1, i1, i2, smul_smul, smul_smul, ← add_smul, smul_smul, ← sub_smul]
        congr 1
        rw [pow_succ (-1 : ℝ), pow_succ (-β)]
        field_simp
        ring
      · rw [h2, i1, i2, smul_smul, smul_smul, ← add_smul]
        congr 1
        rw [pow_succ (-1 : ℝ), pow_succ (-β)]
        field_simp
        ring
  have h1 := (key n hn).1
  show (1 + 2 * β) * ‖WithLp.toLp 2 x0‖ ≤ ‖WithLp.toLp 2 (s (n + 1)).xNew‖
  rw [h1, norm_smul]
  refine mul_le_mul_of_nonneg_right ?_ (norm_nonneg _)
  have hbp : 0 < 1 - β := by linarith
  rw [Real.norm_eq_abs, abs_mul, abs_div, abs_neg, abs_of_pos (by linarith : 0 < 1 + 2 * β), abs_of_pos hbp,
    div_mul_eq_mul_div, le_div_iff₀ hbp]
  refine mul_le_mul_of_nonneg_left ?_ (by linarith)
  have h2 : |(1 + β) * (-1 : ℝ) ^ n| = 1 + β := by
    rw [abs_mul, abs_pow, abs_neg, abs_one, one_pow, mul_one, abs_of_pos (by linarith)]
  have h3 : |2 * β * (-β) ^ n| ≤ 2 * β := by
    rw [abs_mul, abs_pow, abs_neg, abs_of_nonneg hβ, abs_of_nonneg (by linarith : 0 ≤ 2 * β)]
    exact mul_le_of_le_one_right (by linarith) (pow_le_one₀ hβ hβ1.le)
  have h4 := abs_sub_abs_le_abs_sub ((1 + β) * (-1 : ℝ) ^ n) (2 * β * (-β) ^ n)
  linarith

end

/-- `½‖x‖²` on arrays with two entries, `β = 0.9`, `eta = 0.1`, an epoch of 5 updates. -/
example := C144_momentum_converges (ι := Fin 2) half_sq_convex_smooth.1 half_sq_convex_smooth.2 one_pos
  ⟨0, Set.mem_univ _, fun u _ => by
    have := sq_nonneg ‖u‖
    simp only [norm_zero]; linarith⟩ (fun v _ => v) (fun _ _ => rfl) ![3, -5] (β := 9 / 10) (eta := 1 / 10) (by norm_num)
  (by norm_num) (by norm_num) (by norm_num) 0 none 5 (by norm_num) id

example := C144_too_large_step_fails (ι := Fin 2) two_pos (fun v _ => v) (fun _ _ => rfl) ![3, -5] (β := 9 / 10)
  (by norm_num) (by norm_num) 0 none 100 99 (by norm_num)

end Verif
