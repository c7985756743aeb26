import Verif.Lemmas.AdaGrad
import Verif.Props.Convergence
import Verif.Props.Pipeline

/-!
# C133, C134: convergence of the gradient descents with adaptive steps

`AdaGenericGradOpt`, `RMSpropGradOpt` and `ADAMGradOpt` on real data with one gradient and constant `eta`.
-/

set_option linter.unusedSectionVars false

namespace Verif
open GD Spec RealInnerProductSpace Topology

section
variable {ι : Type} [Fintype ι]

/-- The updates of a run: one gradient function and the indices given. -/
def constHistory (G : EuclideanSpace ℝ ι → EuclideanSpace ℝ ι) (idxs : List ℕ) : History ι ℝ :=
  idxs.map fun k => (k, fun x i => (G (WithLp.toLp 2 x)).ofLp i)

theorem next_of_identity (c : Conf ι ℝ) (hp : ∀ v s, c.prox v s = v) (idx : ℕ) (g : (ι → ℝ) → ι → ℝ) (s : GD.St ι ℝ) :
    (gdNext c idx g s).xNew = (fun i => (prepare c idx g s).xOld i
      - stepOf c (prepare c idx g s) i * (prepare c idx g s).dir i) ∧
    (gdNext c idx g s).xOld = (gdNext c idx g s).xNew := by
  refine ⟨?_, rfl⟩
  simp only [gdNext, hp]
  split <;> simp [reset_xNew]

theorem ada_run_eq (G : EuclideanSpace ℝ ι → EuclideanSpace ℝ ι) (prox : (ι → ℝ) → (ι → ℝ) → (ι → ℝ))
    (hp : ∀ v s, prox v s = v) (eta eps : ℝ) (n : ℕ) (x0 : ι → ℝ) (idxs : List ℕ) :
    (gdRun (⟨.ada, n, eps, none, prox⟩ : Conf ι ℝ) (constHistory G idxs)
        ⟨x0, x0, fun _ => 0, fun _ => 0, eta, 1, 1, fun _ _ => 0⟩).xNew
      = (adaSeq G eta eps (WithLp.toLp 2 x0) idxs.length).1.ofLp ∧
    (gdRun (⟨.ada, n, eps, none, prox⟩ : Conf ι ℝ) (constHistory G idxs)
        ⟨x0, x0, fun _ => 0, fun _ => 0, eta, 1, 1, fun _ _ => 0⟩).xOld
      = (adaSeq G eta eps (WithLp.toLp 2 x0) idxs.length).1.ofLp ∧
    (gdRun (⟨.ada, n, eps, none, prox⟩ : Conf ι ℝ) (constHistory G idxs)
        ⟨x0, x0, fun _ => 0, fun _ => 0, eta, 1, 1, fun _ _ => 0⟩).speed
      = (adaSeq G eta eps (WithLp.toLp 2 x0) idxs.length).2 ∧
    (gdRun (⟨.ada, n, eps, none, prox⟩ : Conf ι ℝ) (constHistory G idxs)
        ⟨x0, x0, fun _ => 0, fun _ => 0, eta, 1, 1, fun _ _ => 0⟩).eta = eta := by
  induction idxs using List.reverseRecOn with
  | nil => exact ⟨rfl, rfl, rfl, rfl⟩
  | append_singleton l k ih =>
    obtain ⟨-, i2, i3, i4⟩ := ih
    have e : constHistory G (l ++ [k]) = constHistory G l ++ [(k, fun x i => (G (WithLp.toLp 2 x)).ofLp i)] := by
      simp [constHistory]
    rw [e, gdRun_append]
    generalize gdRun (⟨.ada, n, eps, none, prox⟩ : Conf ι ℝ) (constHistory G l)
      ⟨x0, x0, fun _ => 0, fun _ => 0, eta, 1, 1, fun _ _ => 0⟩ = s at i2 i3 i4
    have hx : (gdNext (⟨.ada, n, eps, none, prox⟩ : Conf ι ℝ) k (fun x i => (G (WithLp.toLp 2 x)).ofLp i) s).xNew
        = (adaSeq G eta eps (WithLp.toLp 2 x0) (l ++ [k]).length).1.ofLp := by
      rw [(next_of_identity _ hp k _ s).1]
      funext i
      simp only [prepare, updateSpeed, updateDir, stepOf, i2, i3, i4, List.length_append, List.length_singleton,
        Real.norm_eq_abs, sq_abs]
      rfl
    refine ⟨hx, hx, ?_, ?_⟩
    · simp only [gdRun, next_speed]
      funext i
      simp only [prepare, updateSpeed, updateDir, i2, i3, List.length_append, List.length_singleton,
        Real.norm_eq_abs, sq_abs]
      rfl
    · simp only [gdRun, next_eta, i4]

/-! ## C133 -/

/-- C133: without a regulariser (`IdentityProx`), AdaGrad's accumulated squared gradients never exceed an explicit constant,
for every function with Lipschitz gradient that is bounded below, convex or not, for every `eta > 0`, `epsilon > 0`,
starting array and number of updates. -/
theorem C133_adagrad_gradients_summable {F : EuclideanSpace ℝ ι → ℝ} {G : EuclideanSpace ℝ ι → EuclideanSpace ℝ ι}
    {L : ℝ} (hS : Smooth F G L) (hL : 0 ≤ L) {m : ℝ} (hm : ∀ x, m ≤ F x) (prox : (ι → ℝ) → (ι → ℝ) → (ι → ℝ))
    (hp : ∀ v s, prox v s = v) (x0 : ι → ℝ) {eta eps : ℝ} (he : 0 < eta) (hε : 0 < eps) (st : Option ℝ) (n : ℕ)
    (hn : n ≠ 0) (idxs : List ℕ) :
    ∃ c s t, GD.init .ada x0 prox (.float eta) (.float eps) none n st = .ok (c, s) ∧
      run c (constHistory G idxs) s = .ok t ∧
      ∀ i, ((seen c (constHistory G idxs) s).map fun p => (p.2 i) ^ 2).sum
        ≤ (2 * (F (WithLp.toLp 2 x0) - m) / eta + Fintype.card ι * (L * eta) ^ 3 / eps ^ 2 + eps) ^ 2 := by
  obtain ⟨c, s, t, h1, h2, h3⟩ := C54_ada_accumulator x0 prox eta eps none n hn st (constHistory G idxs)
  refine ⟨c, s, t, h1, h2, fun i => ?_⟩
  have h4 := h3 i
  simp only [Real.norm_eq_abs, sq_abs] at h4
  rw [← h4]
  simp only [GD.init, GD.checkParam, Except.ok.injEq, Prod.mk.injEq] at h1
  obtain ⟨rfl, rfl⟩ := h1
  rw [run_eq _ hn] at h2
  cases h2
  have h5 := (ada_run_eq G prox hp eta eps n x0 idxs).2.2.1
  simp only [initSpeed, initEps]
  rw [h5]
  exact ada_S_bounded hS hL he hε hm _ _ i

/-- C133: without a regulariser, AdaGrad converges to a minimiser of every convex function with Lipschitz gradient that has
one, from every starting array, for **every** `eta > 0` and `epsilon > 0`, whatever the epoch size and the indices. -/
theorem C133_adagrad_converges {F : EuclideanSpace ℝ ι → ℝ} {G : EuclideanSpace ℝ ι → EuclideanSpace ℝ ι}
    {L : ℝ} (hF : AboveTangents F G) (hS : Smooth F G L) (hL : 0 < L) (hex : ∃ x, Minimises Set.univ F x)
    (prox : (ι → ℝ) → (ι → ℝ) → (ι → ℝ)) (hp : ∀ v s, prox v s = v) (x0 : ι → ℝ) {eta eps : ℝ} (he : 0 < eta)
    (hε : 0 < eps) (st : Option ℝ) (n : ℕ) (hn : n ≠ 0) :
    ∃ z, Minimises Set.univ F z ∧ ∀ δ > 0, ∃ N, ∀ idxs : List ℕ, N ≤ idxs.length →
      ∃ c s t, GD.init .ada x0 prox (.float eta) (.float eps) none n st = .ok (c, s) ∧
        run c (constHistory G idxs) s = .ok t ∧ ‖WithLp.toLp 2 t.xNew - z‖ < δ := by
  obtain ⟨y, -, hy⟩ := hex
  have hy' : ∀ u, F y ≤ F u := fun u => hy u (Set.mem_univ _)
  obtain ⟨z, hz, hlim⟩ := ada_converges hF (smooth_grad_continuous hF hS hL) he hε (WithLp.toLp 2 x0)
    (fun k i => ada_S_bounded hS hL.le he hε hy' (WithLp.toLp 2 x0) k i) ⟨y, hy'⟩
  refine ⟨z, ⟨Set.mem_univ _, fun u _ => hz u⟩, fun δ hδ => ?_⟩
  obtain ⟨N, hN⟩ := Filter.eventually_atTop.1 (Metric.tendsto_nhds.1 hlim δ hδ)
  refine ⟨N, fun idxs hlen => ⟨_, _, _, rfl, run_eq _ hn _ _, ?_⟩⟩
  have h := hN idxs.length hlen
  rw [dist_eq_norm] at h
  have h2 := (ada_run_eq G prox hp eta eps n x0 idxs).1
  simp only [initSpeed, initEps]
  rw [h2]
  exact h

theorem half_sq_convex_smooth {E : Type} [NormedAddCommGroup E] [InnerProductSpace ℝ E] :
    AboveTangents (fun x : E => ‖x‖ ^ 2 / 2) id ∧ Smooth (fun x : E => ‖x‖ ^ 2 / 2) id 1 := by
  have e : ∀ x u : E, ‖u‖ ^ 2 = ‖x‖ ^ 2 + 2 * ⟪x, u - x⟫ + ‖u - x‖ ^ 2 := by
    intro x u
    have := norm_add_sq_real x (u - x)
    rwa [add_sub_cancel] at this
  constructor
  · intro x u
    simp only [id, e x u]
    linarith [sq_nonneg ‖u - x‖]
  · intro x u
    simp only [id, e x u]
    linarith

/-- A cost with minimiser: `½‖x‖²` on arrays with two entries, `eta = 100`. -/
example : ∃ z, Minimises Set.univ (fun x : EuclideanSpace ℝ (Fin 2) => ‖x‖ ^ 2 / 2) z ∧
    ∀ δ > 0, ∃ N, ∀ idxs : List ℕ, N ≤ idxs.length →
      ∃ c s t, GD.init .ada ![3, -5] (fun v _ => v) (.float 100) (.float (1 / 10 ^ 6)) none 1 none = .ok (c, s) ∧
        run c (constHistory id idxs) s = .ok t ∧ ‖WithLp.toLp 2 t.xNew - z‖ < δ :=
  C133_adagrad_converges half_sq_convex_smooth.1 half_sq_convex_smooth.2 one_pos
    ⟨0, Set.mem_univ _, fun u _ => by
      have := sq_nonneg ‖u‖
      simp only [norm_zero]; linarith⟩ _ (fun _ _ => rfl) _ (by norm_num) (by norm_num)
    none 1 one_ne_zero

/-- Least-squares problems on finite arrays have solutions. -/
theorem least_squares_solution {Y : Type} [NormedAddCommGroup Y] [InnerProductSpace ℝ Y]
    (op : EuclideanSpace ℝ ι → Y) (adj : Y → EuclideanSpace ℝ ι) (y : Y)
    (hadd : ∀ a b, op (a + b) = op a + op b) (hadj : ∀ a b, ⟪op a, b⟫ = ⟪a, adj b⟫) :
    ∃ x, ∀ u, ‖y - op x‖ ≤ ‖y - op u‖ := by
  have hsmul : ∀ (c : ℝ) a, op (c • a) = c • op a := by
    intro c a
    refine ext_inner_right ℝ fun b => ?_
    rw [hadj, real_inner_smul_left, real_inner_smul_left, hadj]
  let T : EuclideanSpace ℝ ι →ₗ[ℝ] Y := { toFun := op, map_add' := hadd, map_smul' := hsmul }
  have hc : IsComplete ((LinearMap.range T : Submodule ℝ Y) : Set Y) := Submodule.complete_of_finiteDimensional _
  obtain ⟨v, hv, h⟩ := (LinearMap.range T).exists_norm_eq_iInf_of_complete_subspace hc y
  obtain ⟨x, rfl⟩ := hv
  refine ⟨x, fun u => ?_⟩
  change ‖y - T x‖ ≤ ‖y - T u‖
  rw [h]
  exact ciInf_le (f := fun w : ((LinearMap.range T : Submodule ℝ Y) : Set Y) => ‖y - w‖)
    ⟨0, by rintro _ ⟨w, rfl⟩; exact norm_nonneg _⟩ ⟨T u, u, rfl⟩

/-- C133: in particular, with `GradBasic` and any linear operator with its adjoint, AdaGrad converges to a least-squares
solution. -/
theorem C133_adagrad_least_squares {Y : Type} [NormedAddCommGroup Y] [InnerProductSpace ℝ Y]
    (op : EuclideanSpace ℝ ι → Y) (adj : Y → EuclideanSpace ℝ ι) (y : Y)
    (hadd : ∀ a b, op (a + b) = op a + op b) (hadj : ∀ a b, ⟪op a, b⟫ = ⟪a, adj b⟫) (N : ℝ) (hN : ∀ v, ‖op v‖ ≤ N * ‖v‖)
    (prox : (ι → ℝ) → (ι → ℝ) → (ι → ℝ)) (hp : ∀ v s, prox v s = v) (x0 : ι → ℝ) {eta eps : ℝ} (he : 0 < eta)
    (hε : 0 < eps) (st : Option ℝ) (n : ℕ) (hn : n ≠ 0) :
    ∃ z, (∀ u, ‖y - op z‖ ≤ ‖y - op u‖) ∧ ∀ δ > 0, ∃ N, ∀ idxs : List ℕ, N ≤ idxs.length →
      ∃ c s t, GD.init .ada x0 prox (.float eta) (.float eps) none n st = .ok (c, s) ∧
        run c (constHistory (Linear.gradBasic op adj y) idxs) s = .ok t ∧ ‖WithLp.toLp 2 t.xNew - z‖ < δ := by
  obtain ⟨hF, hS⟩ := gradBasic_models op adj y hadd hadj N hN
  have hS' : Smooth (Linear.gradCost op y) (Linear.gradBasic op adj y) (N ^ 2 + 1) := fun a b => (hS a b).trans (by
    have := sq_nonneg ‖b - a‖
    linarith)
  have hiff : ∀ z u, Linear.gradCost op y z ≤ Linear.gradCost op y u ↔ ‖y - op z‖ ≤ ‖y - op u‖ := by
    intro z u
    unfold Linear.gradCost
    rw [mul_le_mul_iff_right₀ (by norm_num)]
    exact pow_le_pow_iff_left₀ (norm_nonneg _) (norm_nonneg _) two_ne_zero
  obtain ⟨x, hx⟩ := least_squares_solution op adj y hadd hadj
  obtain ⟨z, hz, h⟩ := C133_adagrad_converges hF hS' (by positivity)
    ⟨x, Set.mem_univ _, fun u _ => (hiff x u).2 (hx u)⟩ prox hp x0 he hε st n hn
  exact ⟨z, fun u => (hiff z u).1 (hz.2 u (Set.mem_univ _)), h⟩

/-- The operator that forgets the second of two entries. -/
example : ∃ z : EuclideanSpace ℝ (Fin 2), (∀ u : EuclideanSpace ℝ (Fin 2), ‖(7 : ℝ) - z 0‖ ≤ ‖(7 : ℝ) - u 0‖) ∧
    ∀ δ > 0, ∃ N, ∀ idxs : List ℕ, N ≤ idxs.length →
      ∃ c s t, GD.init .ada ![3, -5] (fun v _ => v) (.float 1) (.float (1 / 10 ^ 6)) none 1 none = .ok (c, s) ∧
        run c (constHistory (Linear.gradBasic (fun u => u 0) (fun b => EuclideanSpace.single 0 b) (7 : ℝ)) idxs) s = .ok t ∧
        ‖WithLp.toLp 2 t.xNew - z‖ < δ :=
  C133_adagrad_least_squares (fun u : EuclideanSpace ℝ (Fin 2) => u 0) (fun b => EuclideanSpace.single 0 b) (7 : ℝ)
    (fun _ _ => rfl) (fun a b => by
      have := EuclideanSpace.inner_single_right (𝕜 := ℝ) (0 : Fin 2) b a
      rw [this]; simp) 1 (fun v => by
      rw [one_mul]; exact PiLp.norm_apply_le v 0) _ (fun _ _ => rfl) _ one_pos (by norm_num) none 1 one_ne_zero

/-! ### With a projection -/

/-- One coordinate of AdaGrad with a non-expansive regularisation step. -/
theorem ada_regret_coord {η ε D : ℝ} (hε : 0 < ε) {z : ℝ} (x g S : ℕ → ℝ) (hS0 : S 0 = 0)
    (hS : ∀ k, S (k + 1) = S k + g k ^ 2) (n : ℕ) (hD : ∀ k, k < n + 1 → |x k - z| ≤ D)
    (hx : ∀ k, k < n → |x (k + 1) - z| ≤ |x k - η / (Real.sqrt (S (k + 1)) + ε) * g k - z|) :
    ∑ k ∈ Finset.range n, 2 * η * (g k * (x k - z))
      ≤ (Real.sqrt (S n) + ε) * (D ^ 2 - (x n - z) ^ 2) + 2 * η ^ 2 * Real.sqrt (S n) := by
  have hSn : ∀ k, 0 ≤ S k := by
    intro k
    induction k with
    | zero => rw [hS0]
    | succ k ih => rw [hS]; positivity
  induction n with
  | zero =>
    have h := hD 0 (by omega)
    have h2 : (x 0 - z) ^ 2 ≤ D ^ 2 := by
      rw [← sq_abs (x 0 - z)]; exact pow_le_pow_left₀ (abs_nonneg _) h 2
    rw [hS0, Real.sqrt_zero]
    simp only [Finset.range_zero, Finset.sum_empty, zero_add, mul_zero, add_zero]
    exact mul_nonneg hε.le (by linarith)
  | succ n ih =>
    have ih' := ih (fun k hk => hD k (by omega)) (fun k hk => hx k (by omega))
    rw [Finset.sum_range_succ]
    have hd : (x n - z) ^ 2 ≤ D ^ 2 := by
      rw [← sq_abs (x n - z)]; exact pow_le_pow_left₀ (abs_nonneg _) (hD n (by omega)) 2
    have hstep := hx n (by omega)
    set r := Real.sqrt (S n) with hr
    set r' := Real.sqrt (S (n + 1)) with hr'
    have hr0 : 0 ≤ r := Real.sqrt_nonneg _
    have hr'0 : 0 ≤ r' := Real.sqrt_nonneg _
    have hrr : r ≤ r' := Real.sqrt_le_sqrt (by rw [hS]; nlinarith [sq_nonneg (g n)])
    have e1 : r ^ 2 = S n := Real.sq_sqrt (hSn n)
    have e2 : r' ^ 2 = S n + g n ^ 2 := by rw [hr', Real.sq_sqrt (hSn _), hS]
    have hh : 0 < r' + ε := by linarith
    have h1 : (x (n + 1) - z) ^ 2 ≤ (x n - η / (r' + ε) * g n - z) ^ 2 := sq_le_sq.2 hstep
    have h2 : (r' + ε) * (x (n + 1) - z) ^ 2
        ≤ (r' + ε) * (x n - z) ^ 2 - 2 * η * (g n * (x n - z)) + η ^ 2 * (g n ^ 2 / (r' + ε)) := by
      have := mul_le_mul_of_nonneg_left h1 hh.le
      refine this.trans (le_of_eq ?_)
      field_simp
      ring
    have h3 : g n ^ 2 / (r' + ε) ≤ 2 * (r' - r) := by
      rw [div_le_iff₀ hh]
      nlinarith
    have h4 : η ^ 2 * (g n ^ 2 / (r' + ε)) ≤ η ^ 2 * (2 * (r' - r)) := mul_le_mul_of_nonneg_left h3 (sq_nonneg _)
    have h5 : (r + ε) * (D ^ 2 - (x n - z) ^ 2) ≤ (r' + ε) * (D ^ 2 - (x n - z) ^ 2) :=
      mul_le_mul_of_nonneg_right (by linarith) (by linarith)
    linarith

/-- The first `n` updates with the indices `idx 0, idx 1, …`. -/
def firstUpdates (G : EuclideanSpace ℝ ι → EuclideanSpace ℝ ι) (idx : ℕ → ℕ) (n : ℕ) : History ι ℝ :=
  constHistory G ((List.range n).map idx)

theorem firstUpdates_succ (G : EuclideanSpace ℝ ι → EuclideanSpace ℝ ι) (idx : ℕ → ℕ) (n : ℕ) :
    firstUpdates G idx (n + 1) = firstUpdates G idx n ++ [(idx n, fun x i => (G (WithLp.toLp 2 x)).ofLp i)] := by
  simp [firstUpdates, constHistory, List.range_succ]

theorem gdRun_firstUpdates_succ (c : Conf ι ℝ) (G : EuclideanSpace ℝ ι → EuclideanSpace ℝ ι) (idx : ℕ → ℕ) (n : ℕ)
    (s : GD.St ι ℝ) : gdRun c (firstUpdates G idx (n + 1)) s
      = gdNext c (idx n) (fun x i => (G (WithLp.toLp 2 x)).ofLp i) (gdRun c (firstUpdates G idx n) s) := by
  rw [firstUpdates_succ, gdRun_append]; rfl

/-- C133: with any regularisation step that moves no entry away from the minimiser `z` (such as `Positivity` or the
projection on a box), and any convex cost, smooth or not, as long as the iterates stay within `D` of `z` and the gradients
within `B`, one of the first `n` iterates is within `O(1/√n)` of the minimal cost. -/
theorem C133_adagrad_projected_rate {F : EuclideanSpace ℝ ι → ℝ} {G : EuclideanSpace ℝ ι → EuclideanSpace ℝ ι}
    (hF : AboveTangents F G) (prox : (ι → ℝ) → (ι → ℝ) → (ι → ℝ)) (z : ι → ℝ)
    (hp : ∀ v s i, |prox v s i - z i| ≤ |v i - z i|) (x0 : ι → ℝ) {eta eps D B : ℝ} (he : 0 < eta) (hε : 0 < eps)
    (st : Option ℝ) (epoch : ℕ) (hepoch : epoch ≠ 0) (idx : ℕ → ℕ) (n : ℕ) (hn : 0 < n) :
    ∃ c s, GD.init .ada x0 prox (.float eta) (.float eps) none epoch st = .ok (c, s) ∧
      ((∀ k, k ≤ n → ∀ t, run c (firstUpdates G idx k) s = .ok t →
          ∀ i, |t.xNew i - z i| ≤ D ∧ |G (WithLp.toLp 2 t.xNew) i| ≤ B) →
        ∃ k, k < n ∧ ∃ t, run c (firstUpdates G idx k) s = .ok t ∧
          F (WithLp.toLp 2 t.xNew) - F (WithLp.toLp 2 z)
            ≤ Fintype.card ι * ((D ^ 2 / (2 * eta) + eta) * B / Real.sqrt n + D ^ 2 * eps / (2 * eta * n))) := by
  refine ⟨_, _, rfl, fun hb => ?_⟩
  have hrun : ∀ h s, run (⟨.ada, epoch, eps, none, prox⟩ : Conf ι ℝ) h s = .ok (gdRun ⟨.ada, epoch, eps, none, prox⟩ h s) :=
    fun h s => run_eq _ hepoch h s
  simp only [initEps, initSpeed, hrun, Except.ok.injEq, forall_eq', exists_eq_left'] at hb ⊢
  set c : Conf ι ℝ := ⟨.ada, epoch, eps, none, prox⟩ with hc
  set s : GD.St ι ℝ := ⟨x0, x0, fun _ => 0, fun _ => 0, eta, 1, 1, fun _ _ => 0⟩ with hs
  set u := fun k => gdRun c (firstUpdates G idx k) s with hu
  have hold : ∀ k, (u k).xOld = (u k).xNew := by
    intro k
    cases k with
    | zero => rfl
    | succ k => simp only [hu]; rw [gdRun_firstUpdates_succ]; rfl
  have heta : ∀ k, (u k).eta = eta := by
    intro k
    induction k with
    | zero => rfl
    | succ k ih => simp only [hu] at ih ⊢; rw [gdRun_firstUpdates_succ, next_eta]; exact ih
  have hspeed : ∀ k i, (u (k + 1)).speed i = (u k).speed i + (G (WithLp.toLp 2 (u k).xNew) i) ^ 2 := by
    intro k i
    have h1 := hold k
    simp only [hu] at h1 ⊢
    rw [gdRun_firstUpdates_succ, next_speed]
    simp only [prepare, updateSpeed, updateDir, hc, Real.norm_eq_abs, sq_abs]
    rw [h1]
  have hstep : ∀ k i, |(u (k + 1)).xNew i - z i|
      ≤ |(u k).xNew i - eta / (Real.sqrt ((u (k + 1)).speed i) + eps) * G (WithLp.toLp 2 (u k).xNew) i - z i| := by
    intro k i
    have h1 := hold k
    have h2 := heta k
    have h3 := hspeed k i
    simp only [hu] at h1 h2 h3 ⊢
    rw [h3, gdRun_firstUpdates_succ]
    generalize gdRun c (firstUpdates G idx k) s = w at h1 h2
    have key : ∀ v : ι → ℝ, (∀ j, v j = w.xNew j
          - eta / (Real.sqrt (w.speed j + (G (WithLp.toLp 2 w.xNew) j) ^ 2) + eps) * G (WithLp.toLp 2 w.xNew) j) →
        ∀ q : ι → ℝ, (|q i - z i| ≤ |v i - z i|) → |q i - z i| ≤ |w.xNew i
          - eta / (Real.sqrt (w.speed i + (G (WithLp.toLp 2 w.xNew) i) ^ 2) + eps) * G (WithLp.toLp 2 w.xNew) i - z i| := by
      intro v hv q hq; rwa [← hv i]
    refine key (fun i => (prepare c (idx k) (fun x i => (G (WithLp.toLp 2 x)).ofLp i) w).xOld i
      - stepOf c (prepare c (idx k) (fun x i => (G (WithLp.toLp 2 x)).ofLp i) w) i
        * (prepare c (idx k) (fun x i => (G (WithLp.toLp 2 x)).ofLp i) w).dir i) (fun j => ?_) _ ?_
    · simp only [prepare, updateSpeed, updateDir, stepOf, hc, Real.norm_eq_abs, sq_abs]
      rw [h1, h2]
    · simp only [gdNext]
      split
      · simp only [reset_xNew]
        exact hp _ _ i
      · exact le_refl _
  -- the sum of the gaps
  have hn' : (0 : ℝ) < n := Nat.cast_pos.2 hn
  have hsn : 0 < Real.sqrt n := Real.sqrt_pos.2 hn'
  have hSB : ∀ i, Real.sqrt ((u n).speed i) ≤ B * Real.sqrt n := by
    intro i
    have hB : 0 ≤ B := (abs_nonneg _).trans (hb 0 (by omega) i).2
    have : ∀ k, k ≤ n → (u k).speed i ≤ k * B ^ 2 := by
      intro k
      induction k with
      | zero => intro _; simp [hu, firstUpdates, constHistory, gdRun, hs]
      | succ k ih =>
        intro hk
        have h1 := (hb k (by omega) i).2
        have h2 : (G (WithLp.toLp 2 (u k).xNew) i) ^ 2 ≤ B ^ 2 := by
          rw [← sq_abs]; exact pow_le_pow_left₀ (abs_nonneg _) h1 2
        rw [hspeed]
        push_cast
        linarith [ih (by omega)]
    refine Real.sqrt_le_iff.2 ⟨by positivity, ?_⟩
    rw [mul_pow, Real.sq_sqrt hn'.le]
    linarith [this n le_rfl]
  have hsum : ∑ k ∈ Finset.range n, 2 * eta * (F (WithLp.toLp 2 (u k).xNew) - F (WithLp.toLp 2 z))
      ≤ ∑ _i : ι, ((B * Real.sqrt n + eps) * D ^ 2 + 2 * eta ^ 2 * (B * Real.sqrt n)) := by
    have h1 : ∀ i, ∑ k ∈ Finset.range n, 2 * eta * (G (WithLp.toLp 2 (u k).xNew) i * ((u k).xNew i - z i))
        ≤ (B * Real.sqrt n + eps) * D ^ 2 + 2 * eta ^ 2 * (B * Real.sqrt n) := by
      intro i
      have h2 := ada_regret_coord hε (η := eta) (D := D) (z := z i) (fun k => (u k).xNew i)
        (fun k => G (WithLp.toLp 2 (u k).xNew) i) (fun k => (u k).speed i) rfl (fun k => hspeed k i) n
        (fun k hk => (hb k (by omega) i).1) (fun k _ => hstep k i)
      refine h2.trans ?_
      have h3 := hSB i
      have h4 : (Real.sqrt ((u n).speed i) + eps) * (D ^ 2 - ((u n).xNew i - z i) ^ 2)
          ≤ (Real.sqrt ((u n).speed i) + eps) * D ^ 2 :=
        mul_le_mul_of_nonneg_left (by linarith [sq_nonneg ((u n).xNew i - z i)])
          (by linarith [Real.sqrt_nonneg ((u n).speed i)])
      have h5 : (Real.sqrt ((u n).speed i) + eps) * D ^ 2 ≤ (B * Real.sqrt n + eps) * D ^ 2 :=
        mul_le_mul_of_nonneg_right (by linarith) (sq_nonneg _)
      have h6 : 2 * eta ^ 2 * Real.sqrt ((u n).speed i) ≤ 2 * eta ^ 2 * (B * Real.sqrt n) :=
        mul_le_mul_of_nonneg_left h3 (by positivity)
      linarith
    refine le_trans ?_ (Finset.sum_le_sum fun i _ => h1 i)
    rw [Finset.sum_comm]
    refine Finset.sum_le_sum fun k _ => ?_
    rw [← Finset.mul_sum]
    refine mul_le_mul_of_nonneg_left ?_ (by positivity)
    have h2 := hF (WithLp.toLp 2 (u k).xNew) (WithLp.toLp 2 z)
    have e : ⟪G (WithLp.toLp 2 (u k).xNew), WithLp.toLp 2 z - WithLp.toLp 2 (u k).xNew⟫
        = -∑ i, G (WithLp.toLp 2 (u k).xNew) i * ((u k).xNew i - z i) := by
      rw [PiLp.inner_apply, ← Finset.sum_neg_distrib]
      refine Finset.sum_congr rfl fun i _ => ?_
      simp only [RCLike.inner_apply, conj_trivial, PiLp.sub_apply]; ring
    rw [e] at h2
    linarith
  rw [Finset.sum_const, Finset.card_univ, nsmul_eq_mul] at hsum
  by_contra hcon
  push Not at hcon
  set R : ℝ := Fintype.card ι * ((D ^ 2 / (2 * eta) + eta) * B / Real.sqrt n + D ^ 2 * eps / (2 * eta * n)) with hR
  have h7 : ∑ _k ∈ Finset.range n, 2 * eta * R
      < ∑ k ∈ Finset.range n, 2 * eta * (F (WithLp.toLp 2 (u k).xNew) - F (WithLp.toLp 2 z)) := by
    refine Finset.sum_lt_sum_of_nonempty ⟨0, Finset.mem_range.2 hn⟩ fun k hk => ?_
    exact mul_lt_mul_of_pos_left (hcon k (Finset.mem_range.1 hk)) (by positivity)
  rw [Finset.sum_const, Finset.card_range, nsmul_eq_mul] at h7
  have h8 : (n : ℝ) * (2 * eta * R)
      = Fintype.card ι * ((B * Real.sqrt n + eps) * D ^ 2 + 2 * eta ^ 2 * (B * Real.sqrt n)) := by
    rw [hR]
    have hq : (n : ℝ) = Real.sqrt n * Real.sqrt n := (Real.mul_self_sqrt hn'.le).symm
    have h9 : (n : ℝ) / Real.sqrt n = Real.sqrt n := by
      rw [div_eq_iff hsn.ne']; exact hq
    have : (n : ℝ) * (2 * eta * (Fintype.card ι * ((D ^ 2 / (2 * eta) + eta) * B / Real.sqrt n
        + D ^ 2 * eps / (2 * eta * n))))
        = Fintype.card ι * ((D ^ 2 + 2 * eta ^ 2) * B * (n / Real.sqrt n) + D ^ 2 * eps) := by
      field_simp
    rw [this, h9]
    ring
  linarith

/-- The projection on the box `[-1, 1]` keeps the iterates bounded. -/
example (n : ℕ) (hn : 0 < n) : ∃ c s, GD.init .ada (fun _ : Fin 2 => 1) (fun v _ i => max (-1) (min 1 (v i))) (.float 1)
      (.float (1 / 10 ^ 6)) none 1 none = .ok (c, s) ∧
    ∃ k, k < n ∧ ∃ t, run c (firstUpdates id (fun k => k) k) s = .ok t ∧
      ‖(WithLp.toLp 2 t.xNew : EuclideanSpace ℝ (Fin 2))‖ ^ 2 / 2 - ‖(WithLp.toLp 2 fun _ => 0 : EuclideanSpace ℝ (Fin 2))‖ ^ 2 / 2
        ≤ Fintype.card (Fin 2) * ((1 ^ 2 / (2 * 1) + 1) * 1 / Real.sqrt n + 1 ^ 2 * (1 / 10 ^ 6) / (2 * 1 * n)) := by
  obtain ⟨c, s, h1, h2⟩ := C133_adagrad_projected_rate (F := fun x : EuclideanSpace ℝ (Fin 2) => ‖x‖ ^ 2 / 2) (G := id) (D := 1) (B := 1)
    half_sq_convex_smooth.1 (fun v _ i => max (-1) (min 1 (v i))) (fun _ => 0) (by
      intro v _ i
      rw [sub_zero, sub_zero, abs_le]
      refine ⟨?_, ?_⟩
      · rcases le_total (v i) 0 with h | h
        · rw [abs_of_nonpos h, neg_neg]
          exact le_max_of_le_right (le_min (by linarith) le_rfl)
        · exact (neg_nonpos.2 (abs_nonneg _)).trans (le_max_of_le_right (le_min zero_le_one h))
      · refine max_le (by linarith [abs_nonneg (v i)]) (min_le_of_right_le (le_abs_self _)))
    (fun _ => 1) one_pos (by norm_num : (0 : ℝ) < 1 / 10 ^ 6) none 1 one_ne_zero (fun k => k) n hn
  refine ⟨c, s, h1, h2 fun k _ t ht i => ?_⟩
  simp only [GD.init, GD.checkParam, Except.ok.injEq, Prod.mk.injEq] at h1
  obtain ⟨rfl, rfl⟩ := h1
  rw [run_eq _ one_ne_zero] at ht
  cases ht
  have key : ∀ k, ∀ i, |(gdRun (⟨.ada, 1, initEps .ada (1 / 10 ^ 6), none, fun v _ i => max (-1) (min 1 (v i))⟩ : Conf (Fin 2) ℝ)
      (firstUpdates id (fun k => k) k) ⟨fun _ => 1, fun _ => 1, fun _ => 0, initSpeed .ada, 1, 1, 1, fun _ _ => 0⟩).xNew i| ≤ 1 := by
    intro k i
    cases k with
    | zero => simp [firstUpdates, constHistory, gdRun]
    | succ k =>
      rw [gdRun_firstUpdates_succ]
      simp only [gdNext, Nat.mod_one, if_true, abs_le]
      exact ⟨le_max_left _ _, max_le (by norm_num) (min_le_left _ _)⟩
  have := key k i
  exact ⟨by simpa using this, by simpa using this⟩

/-! ## C134 -/

theorem rms_never_settles {η ε q C : ℝ} (hε : 0 < ε) (hη : 2 * ε < η) (hq0 : 0 ≤ q) (hq : q < 1) (x v : ℕ → ℝ) (N0 : ℕ)
    (hv : ∀ n, N0 ≤ n → v (n + 1) ≤ q * v n + C * x n ^ 2)
    (hx : ∀ n, x (n + 1) = x n - η / (Real.sqrt (v (n + 1)) + ε) * x n) (hne : ∀ n, x n ≠ 0) :
    ¬ Filter.Tendsto x Filter.atTop (𝓝 0) := by
  intro hlim
  set r := η / 2 - ε with hr
  have hr0 : 0 < r := by rw [hr]; linarith
  have h1 : Filter.Tendsto (fun n => C * x n ^ 2) Filter.atTop (𝓝 0) := by
    have := (hlim.pow 2).const_mul C
    simpa using this
  have hδ : 0 < r ^ 2 / 2 * (1 - q) := mul_pos (by positivity) (by linarith)
  obtain ⟨N1, hN1⟩ := Filter.eventually_atTop.1 (h1.eventually_lt_const hδ)
  set N := max N0 N1 with hN
  have hvb : ∀ k, v (N + k) ≤ r ^ 2 / 2 + q ^ k * v N := by
    intro k
    induction k with
    | zero => simp only [Nat.add_zero, pow_zero, one_mul]; linarith [sq_nonneg r]
    | succ k ih =>
      have h2 := hv (N + k) (le_trans (le_max_left _ _) (Nat.le_add_right _ _))
      have h3 := hN1 (N + k) (le_trans (le_max_right _ _) (Nat.le_add_right _ _))
      have h4 := mul_le_mul_of_nonneg_left ih hq0
      have e : q ^ (k + 1) = q * q ^ k := pow_succ' q k
      rw [← Nat.add_assoc, e]
      have e2 : q * (r ^ 2 / 2 + q ^ k * v N) = q * (r ^ 2 / 2) + q * q ^ k * v N := by ring
      linarith
  have h5 : Filter.Tendsto (fun k => q ^ k * v N) Filter.atTop (𝓝 0) := by
    have := (tendsto_pow_atTop_nhds_zero_of_lt_one hq0 hq).mul_const (v N)
    simpa using this
  obtain ⟨K, hK⟩ := Filter.eventually_atTop.1 (h5.eventually_lt_const (by positivity : (0 : ℝ) < r ^ 2 / 2))
  have hgrow : ∀ k, |x (N + K)| ≤ |x (N + K + k)| := by
    intro k
    induction k with
    | zero => exact le_refl _
    | succ k ih =>
      refine ih.trans ?_
      have h6 : v (N + K + k + 1) ≤ r ^ 2 := by
        have := hvb (K + k + 1)
        have h7 := hK (K + k + 1) (by omega)
        have e : N + (K + k + 1) = N + K + k + 1 := by omega
        rw [e] at this
        linarith
      have h8 : Real.sqrt (v (N + K + k + 1)) ≤ r := Real.sqrt_le_iff.2 ⟨hr0.le, h6⟩
      have h9 := Real.sqrt_nonneg (v (N + K + k + 1))
      have h10 : 2 ≤ η / (Real.sqrt (v (N + K + k + 1)) + ε) := by
        rw [le_div_iff₀ (by linarith)]
        linarith
      have e : x (N + K + (k + 1)) = (1 - η / (Real.sqrt (v (N + K + k + 1)) + ε)) * x (N + K + k) := by
        rw [← Nat.add_assoc, hx]; ring
      rw [e, abs_mul]
      refine le_mul_of_one_le_left (abs_nonneg _) ?_
      rw [abs_of_nonpos (by linarith)]
      linarith
  have hp : 0 < |x (N + K)| := abs_pos.2 (hne _)
  obtain ⟨M, hM⟩ := Filter.eventually_atTop.1 (hlim.abs.eventually_lt_const (u := |x (N + K)|) (by simpa using hne (N + K)))
  have h11 := hM (N + K + M) (by omega)
  linarith [hgrow M]

theorem next_xNew_id (c : Conf ι ℝ) (hp : ∀ v s, c.prox v s = v) (idx : ℕ) (s : GD.St ι ℝ) (i : ι)
    (hd : (updateDir c idx (fun j => s.xOld j) s).dir i = s.xOld i) :
    (gdNext c idx (fun x i => (id (WithLp.toLp 2 x) : EuclideanSpace ℝ ι).ofLp i) s).xNew i = s.xOld i
      - s.eta / (Real.sqrt ((gdNext c idx (fun x i => (id (WithLp.toLp 2 x) : EuclideanSpace ℝ ι).ofLp i) s).speed i)
        + c.eps) * s.xOld i := by
  rw [(next_of_identity c hp idx _ s).1, next_speed]
  have h1 : (prepare c idx (fun x i => (id (WithLp.toLp 2 x) : EuclideanSpace ℝ ι).ofLp i) s).xOld = s.xOld := by
    simp only [prepare, (updateSpeed_rest c _ _).2.1, (updateDir_rest c idx _ s).2.1]
  have h2 : (prepare c idx (fun x i => (id (WithLp.toLp 2 x) : EuclideanSpace ℝ ι).ofLp i) s).eta = s.eta := by
    simp only [prepare, (updateSpeed_rest c _ _).2.2.1, (updateDir_rest c idx _ s).2.2.1]
  have h3 : (prepare c idx (fun x i => (id (WithLp.toLp 2 x) : EuclideanSpace ℝ ι).ofLp i) s).dir i = s.xOld i := by
    simp only [prepare, (updateSpeed_rest c _ _).1]
    exact hd
  simp only [stepOf, h1, h2, h3]

/-- C134, refuted: on the cost `½‖x‖²`, RMSprop with `eta > 2·epsilon` (the defaults are `1.0` and `1e-6`) and any admissible
`gamma` does not converge to the minimiser `0`: an entry that is never exactly zero does not tend to zero. -/
theorem C134_rmsprop_never_settles (gamma : ℝ) (k : Kind) (hg : rmspropArgs (.float gamma) = .ok k) (x0 : ι → ℝ)
    (prox : (ι → ℝ) → (ι → ℝ) → (ι → ℝ)) (hp : ∀ v s, prox v s = v) {eta eps : ℝ} (hε : 0 < eps) (he : 2 * eps < eta)
    (st : Option ℝ) (epoch : ℕ) (hepoch : epoch ≠ 0) (idx : ℕ → ℕ) :
    ∃ c s, GD.init k x0 prox (.float eta) (.float eps) none epoch st = .ok (c, s) ∧
      ∀ X : ℕ → ι → ℝ, (∀ n, ∃ t, run c (firstUpdates id idx n) s = .ok t ∧ t.xNew = X n) →
        ∀ i, (∀ n, X n i ≠ 0) → ¬ Filter.Tendsto (fun n => X n i) Filter.atTop (𝓝 0) := by
  obtain ⟨w, hw, h0, h1⟩ := (C54_rmsprop_validation (.float gamma)).1 ⟨k, hg⟩
  cases hw
  have hk : k = .rmsprop gamma := by
    have : ¬ (gamma < 0 ∨ gamma > 1) := by push Not; exact ⟨h0, h1⟩
    simp only [rmspropArgs, this, if_false, GD.checkParam, Except.ok.injEq] at hg
    exact hg.symm
  subst hk
  refine ⟨_, _, rfl, fun X hX i hne => ?_⟩
  have hrun : ∀ h s, run (⟨.rmsprop gamma, epoch, eps, none, prox⟩ : Conf ι ℝ) h s
    = .ok (gdRun ⟨.rmsprop gamma, epoch, eps, none, prox⟩ h s) := fun h s => run_eq _ hepoch h s
  simp only [initEps, initSpeed, hrun, Except.ok.injEq, exists_eq_left'] at hX
  set c : Conf ι ℝ := ⟨.rmsprop gamma, epoch, eps, none, prox⟩ with hc
  set s : GD.St ι ℝ := ⟨x0, x0, fun _ => 0, fun _ => 0, eta, 1, 1, fun _ _ => 0⟩ with hs
  set u := fun k => gdRun c (firstUpdates id idx k) s with hu
  have hsucc : ∀ k, u (k + 1) = gdNext c (idx k) (fun x i => (id (WithLp.toLp 2 x) : EuclideanSpace ℝ ι).ofLp i) (u k) :=
    fun k => gdRun_firstUpdates_succ c id idx k s
  have hold : ∀ k, (u k).xOld = X k := by
    intro k
    rw [← hX k]
    cases k with
    | zero => rfl
    | succ k => change (u (k + 1)).xOld = (u (k + 1)).xNew; rw [hsucc]; rfl
  have heta : ∀ k, (u k).eta = eta := by
    intro k
    induction k with
    | zero => rfl
    | succ k ih => rw [hsucc, next_eta]; exact ih
  have hspeed : ∀ k, (u (k + 1)).speed i = gamma * (u k).speed i + (1 - gamma) * (X k i) ^ 2 := by
    intro k
    rw [hsucc, next_speed]
    simp only [prepare, updateSpeed, updateDir, hc, Real.norm_eq_abs, sq_abs]
    rw [hold]
    rfl
  have hs0 : ∀ k, 0 ≤ (u k).speed i := by
    intro k
    induction k with
    | zero => exact le_refl _
    | succ k ih =>
      rw [hspeed]
      exact add_nonneg (mul_nonneg h0 ih) (mul_nonneg (by linarith) (sq_nonneg _))
  have hx : ∀ k, X (k + 1) i = X k i - eta / (Real.sqrt ((u (k + 1)).speed i) + eps) * X k i := by
    intro k
    have h2 := next_xNew_id c hp (idx k) (u k) i rfl
    rw [← hsucc, heta, hold] at h2
    rw [← hX (k + 1)]
    exact h2
  rcases lt_or_eq_of_le h1 with h1 | h1
  · exact rms_never_settles hε he h0 h1 _ (fun k => (u k).speed i) 0
      (fun k _ => (hspeed k).le) hx hne
  · have hz : ∀ k, (u k).speed i = 0 := by
      intro k
      induction k with
      | zero => rfl
      | succ k ih => rw [hspeed, ih, h1]; ring
    exact rms_never_settles hε he le_rfl zero_lt_one _ (fun k => (u k).speed i) (C := 0) 0
      (fun k _ => by simp [hz]) hx hne

/-- C134, refuted: the same for ADAM without momentum (`beta = 0`), for every admissible `gamma`. -/
theorem C134_adam_never_settles (gamma : ℝ) (k : Kind) (hg : adamArgs (.float gamma) (.float 0) = .ok k) (x0 : ι → ℝ)
    (prox : (ι → ℝ) → (ι → ℝ) → (ι → ℝ)) (hp : ∀ v s, prox v s = v) {eta eps : ℝ} (hε : 0 < eps) (he : 2 * eps < eta)
    (st : Option ℝ) (epoch : ℕ) (hepoch : epoch ≠ 0) (idx : ℕ → ℕ) :
    ∃ c s, GD.init k x0 prox (.float eta) (.float eps) none epoch st = .ok (c, s) ∧
      ∀ X : ℕ → ι → ℝ, (∀ n, ∃ t, run c (firstUpdates id idx n) s = .ok t ∧ t.xNew = X n) →
        ∀ i, (∀ n, X n i ≠ 0) → ¬ Filter.Tendsto (fun n => X n i) Filter.atTop (𝓝 0) := by
  obtain ⟨w, w', hw, -, h0, h1, -, -⟩ := (C56_adam_validation (.float gamma) (.float 0)).1 ⟨k, hg⟩
  cases hw
  have hk : k = .adam gamma 0 := by
    have h2 : ¬ (gamma < 0 ∨ gamma ≥ 1) := by push Not; exact ⟨h0, h1⟩
    have h3 : ¬ ((0 : ℝ) < 0 ∨ (0 : ℝ) ≥ 1) := by norm_num
    simp only [adamArgs, h2, h3, if_false, GD.checkParam, Except.ok.injEq] at hg
    exact hg.symm
  subst hk
  refine ⟨_, _, rfl, fun X hX i hne => ?_⟩
  have hrun : ∀ h s, run (⟨.adam gamma 0, epoch, eps, none, prox⟩ : Conf ι ℝ) h s
    = .ok (gdRun ⟨.adam gamma 0, epoch, eps, none, prox⟩ h s) := fun h s => run_eq _ hepoch h s
  simp only [initEps, initSpeed, hrun, Except.ok.injEq, exists_eq_left'] at hX
  set c : Conf ι ℝ := ⟨.adam gamma 0, epoch, eps, none, prox⟩ with hc
  set s : GD.St ι ℝ := ⟨x0, x0, fun _ => 0, fun _ => 0, eta, 1, 1, fun _ _ => 0⟩ with hs
  set u := fun k => gdRun c (firstUpdates id idx k) s with hu
  have hsucc : ∀ k, u (k + 1) = gdNext c (idx k) (fun x i => (id (WithLp.toLp 2 x) : EuclideanSpace ℝ ι).ofLp i) (u k) :=
    fun k => gdRun_firstUpdates_succ c id idx k s
  have hold : ∀ k, (u k).xOld = X k := by
    intro k
    rw [← hX k]
    cases k with
    | zero => rfl
    | succ k => change (u (k + 1)).xOld = (u (k + 1)).xNew; rw [hsucc]; rfl
  have heta : ∀ k, (u k).eta = eta := by
    intro k
    induction k with
    | zero => rfl
    | succ k ih => rw [hsucc, next_eta]; exact ih
  have hgp : ∀ k, (u k).gammaPow = gamma ^ k := by
    intro k
    induction k with
    | zero => rfl
    | succ k ih =>
      rw [hsucc, next_gammaPow]
      simp only [prepare, updateSpeed, updateDir, hc]
      rw [ih, pow_succ]
  have hpow : ∀ k, gamma ^ (k + 1) ≤ gamma := fun k => by
    have := pow_le_pow_of_le_one h0 h1.le (by omega : 1 ≤ k + 1)
    simpa using this
  have hspeed : ∀ k, (u (k + 1)).speed i
      = 1 / (1 - gamma ^ (k + 1)) * (gamma * (u k).speed i + (1 - gamma) * (X k i) ^ 2) := by
    intro k
    rw [hsucc, next_speed]
    simp only [prepare, updateSpeed, updateDir, hc, Real.norm_eq_abs, sq_abs]
    rw [hold, hgp, ← pow_succ]
    rfl
  have hs0 : ∀ k, 0 ≤ (u k).speed i := by
    intro k
    induction k with
    | zero => exact le_refl _
    | succ k ih =>
      rw [hspeed]
      exact mul_nonneg (div_nonneg zero_le_one (by linarith [hpow k]))
        (add_nonneg (mul_nonneg h0 ih) (mul_nonneg (by linarith) (sq_nonneg _)))
  have hx : ∀ k, X (k + 1) i = X k i - eta / (Real.sqrt ((u (k + 1)).speed i) + eps) * X k i := by
    intro k
    have h2 := next_xNew_id c hp (idx k) (u k) i (by
      simp only [updateDir, hc, mul_zero]
      simp)
    rw [← hsucc, heta, hold] at h2
    rw [← hX (k + 1)]
    exact h2
  have hfac : Filter.Tendsto (fun k => gamma * (1 / (1 - gamma ^ (k + 1)))) Filter.atTop (𝓝 gamma) := by
    have h2 := ((tendsto_pow_atTop_nhds_zero_of_lt_one h0 h1).comp (Filter.tendsto_add_atTop_nat 1)).const_sub 1
    rw [sub_zero] at h2
    have h3 := ((tendsto_const_nhds (x := (1 : ℝ))).div h2 one_ne_zero).const_mul gamma
    simpa [Function.comp_def] using h3
  obtain ⟨N0, hN0⟩ := Filter.eventually_atTop.1 (hfac.eventually_lt_const (by linarith : gamma < (1 + gamma) / 2))
  refine rms_never_settles hε he (by linarith : (0 : ℝ) ≤ (1 + gamma) / 2) (by linarith) _ (fun k => (u k).speed i) N0
    (C := 1) (fun k hk => ?_) hx hne
  have h2 := hN0 k hk
  have h3 : 1 / (1 - gamma ^ (k + 1)) * (1 - gamma) ≤ 1 := by
    rw [div_mul_eq_mul_div, one_mul, div_le_one (by linarith [hpow k])]
    linarith [hpow k]
  rw [hspeed]
  have h4 := mul_le_mul_of_nonneg_right h2.le (hs0 k)
  have h5 := mul_le_mul_of_nonneg_right h3 (sq_nonneg (X k i))
  calc _ = gamma * (1 / (1 - gamma ^ (k + 1))) * (u k).speed i
        + 1 / (1 - gamma ^ (k + 1)) * (1 - gamma) * X k i ^ 2 := by ring
    _ ≤ _ := by linarith

/-- C134, refuted: with `gamma = 0` (accepted), RMSprop started at `eta/2 - epsilon` in every entry jumps between that array and
its opposite for ever. -/
theorem C134_rmsprop_oscillates (prox : (ι → ℝ) → (ι → ℝ) → (ι → ℝ)) (hp : ∀ v s, prox v s = v) {eta eps : ℝ}
    (hε : 0 < eps) (he : 2 * eps < eta) (st : Option ℝ) (epoch : ℕ) (hepoch : epoch ≠ 0) (idx : ℕ → ℕ) :
    ∃ k c s, rmspropArgs (.float 0) = .ok k ∧
      GD.init k (fun _ : ι => eta / 2 - eps) prox (.float eta) (.float eps) none epoch st = .ok (c, s) ∧
      ∀ n, ∃ t, run c (firstUpdates id idx n) s = .ok t ∧ t.xNew = fun _ => (-1) ^ n * (eta / 2 - eps) := by
  have hg : rmspropArgs (.float 0) = .ok (.rmsprop 0) := by
    have : ¬ ((0 : ℝ) < 0 ∨ (0 : ℝ) > 1) := by norm_num
    simp only [rmspropArgs, this, if_false, GD.checkParam]
  refine ⟨_, _, _, hg, rfl, fun n => ⟨_, run_eq _ hepoch _ _, ?_⟩⟩
  simp only [initEps, initSpeed]
  set c : Conf ι ℝ := ⟨.rmsprop 0, epoch, eps, none, prox⟩ with hc
  set s : GD.St ι ℝ := ⟨fun _ => eta / 2 - eps, fun _ => eta / 2 - eps, fun _ => 0, fun _ => 0, eta, 1, 1, fun _ _ => 0⟩ with hs
  have hall : ∀ n, (gdRun c (firstUpdates id idx n) s).xNew = (fun _ => (-1) ^ n * (eta / 2 - eps)) ∧
      (gdRun c (firstUpdates id idx n) s).xOld = (fun _ => (-1) ^ n * (eta / 2 - eps)) ∧
      (gdRun c (firstUpdates id idx n) s).eta = eta := by
    intro n
    induction n with
    | zero => simp [firstUpdates, constHistory, gdRun, hs]
    | succ n ih =>
      obtain ⟨-, i2, i3⟩ := ih
      rw [gdRun_firstUpdates_succ]
      generalize gdRun c (firstUpdates id idx n) s = w at i2 i3
      have hx : (gdNext c (idx n) (fun x i => (id (WithLp.toLp 2 x) : EuclideanSpace ℝ ι).ofLp i) w).xNew
          = fun _ => (-1) ^ (n + 1) * (eta / 2 - eps) := by
        funext i
        rw [next_xNew_id c hp (idx n) w i rfl, next_speed]
        simp only [prepare, updateSpeed, updateDir, hc, i2, i3, Real.norm_eq_abs, zero_mul, zero_add, sub_zero, one_mul,
          id]
        have e : |(-1 : ℝ) ^ n * (eta / 2 - eps)| = eta / 2 - eps := by
          rw [abs_mul, abs_pow, abs_neg, abs_one, one_pow, one_mul, abs_of_pos (by linarith)]
        rw [e, Real.sqrt_sq (by linarith), sub_add_cancel, pow_succ]
        have hne : eta ≠ 0 := by linarith
        have e2 : eta / (eta / 2) = 2 := by field_simp
        rw [e2]
        ring
      refine ⟨hx, hx, ?_⟩
      rw [next_eta]
      exact i3
  exact (hall n).1

/-- C134: what remains true.  If `eta` times the Lipschitz constant is below `2·epsilon`, RMSprop's squared gradients add up
to at most an explicit constant, so the gradients vanish, for every function with Lipschitz gradient bounded below. -/
theorem C134_rmsprop_small_steps_partial {F : EuclideanSpace ℝ ι → ℝ} {G : EuclideanSpace ℝ ι → EuclideanSpace ℝ ι}
    {L : ℝ} (hS : Smooth F G L) (hL : 0 < L) {m : ℝ} (hm : ∀ x, m ≤ F x) (gamma : ℝ) (k : Kind)
    (hg : rmspropArgs (.float gamma) = .ok k) (x0 : ι → ℝ) (prox : (ι → ℝ) → (ι → ℝ) → (ι → ℝ))
    (hp : ∀ v s, prox v s = v) {eta eps : ℝ} (he : 0 < eta) (hε : 0 < eps) (heL : eta * L < 2 * eps) (st : Option ℝ)
    (epoch : ℕ) (hepoch : epoch ≠ 0) (idx : ℕ → ℕ) :
    ∃ c s, GD.init k x0 prox (.float eta) (.float eps) none epoch st = .ok (c, s) ∧
      ∀ X : ℕ → ι → ℝ, (∀ n, ∃ t, run c (firstUpdates G idx n) s = .ok t ∧ t.xNew = X n) →
        ∀ n, ∑ k ∈ Finset.range n, ‖G (WithLp.toLp 2 (X k))‖ ^ 2
          ≤ (F (WithLp.toLp 2 x0) - m) * (Real.sqrt (2 * L * (F (WithLp.toLp 2 x0) - m)) + eps)
            / (eta * (1 - eta * L / (2 * eps))) := by
  obtain ⟨w, hw, h0, h1⟩ := (C54_rmsprop_validation (.float gamma)).1 ⟨k, hg⟩
  cases hw
  have hk : k = .rmsprop gamma := by
    have : ¬ (gamma < 0 ∨ gamma > 1) := by push Not; exact ⟨h0, h1⟩
    simp only [rmspropArgs, this, if_false, GD.checkParam, Except.ok.injEq] at hg
    exact hg.symm
  subst hk
  refine ⟨_, _, rfl, fun X hX n => ?_⟩
  have hrun : ∀ h s, run (⟨.rmsprop gamma, epoch, eps, none, prox⟩ : Conf ι ℝ) h s
    = .ok (gdRun ⟨.rmsprop gamma, epoch, eps, none, prox⟩ h s) := fun h s => run_eq _ hepoch h s
  simp only [initEps, initSpeed, hrun, Except.ok.injEq, exists_eq_left'] at hX
  set c : Conf ι ℝ := ⟨.rmsprop gamma, epoch, eps, none, prox⟩ with hc
  set s : GD.St ι ℝ := ⟨x0, x0, fun _ => 0, fun _ => 0, eta, 1, 1, fun _ _ => 0⟩ with hs
  set u := fun k => gdRun c (firstUpdates G idx k) s with hu
  have hsucc : ∀ k, u (k + 1) = gdNext c (idx k) (fun x i => (G (WithLp.toLp 2 x)).ofLp i) (u k) :=
    fun k => gdRun_firstUpdates_succ c G idx k s
  have hX0 : X 0 = x0 := by rw [← hX 0]; rfl
  have hold : ∀ k, (u k).xOld = X k := by
    intro k
    rw [← hX k]
    cases k with
    | zero => rfl
    | succ k => change (u (k + 1)).xOld = (u (k + 1)).xNew; rw [hsucc]; rfl
  have heta : ∀ k, (u k).eta = eta := by
    intro k
    induction k with
    | zero => rfl
    | succ k ih => rw [hsucc, next_eta]; exact ih
  have hspeed : ∀ k i, (u (k + 1)).speed i
      = gamma * (u k).speed i + (1 - gamma) * (G (WithLp.toLp 2 (X k)) i) ^ 2 := by
    intro k i
    rw [hsucc, next_speed]
    simp only [prepare, updateSpeed, updateDir, hc, Real.norm_eq_abs, sq_abs]
    rw [hold]
  have hs0 : ∀ k i, 0 ≤ (u k).speed i := by
    intro k i
    induction k with
    | zero => exact le_refl _
    | succ k ih =>
      rw [hspeed]
      exact add_nonneg (mul_nonneg h0 ih) (mul_nonneg (by linarith) (sq_nonneg _))
  have hx : ∀ k i, X (k + 1) i = X k i
      - eta / (Real.sqrt ((u (k + 1)).speed i) + eps) * G (WithLp.toLp 2 (X k)) i := by
    intro k i
    rw [← hX (k + 1)]
    change (u (k + 1)).xNew i = _
    have h2 := hold k
    have h3 := heta k
    have h4 := hspeed k i
    rw [h4]
    rw [hsucc, (next_of_identity c hp (idx k) _ (u k)).1]
    simp only [prepare, updateSpeed, updateDir, stepOf, hc, Real.norm_eq_abs, sq_abs]
    rw [h2, h3]
  set ρ := 1 - eta * L / (2 * eps) with hρ
  have hρ0 : 0 < ρ := by
    rw [hρ, sub_pos, div_lt_one (by positivity)]; exact heL
  -- one update
  have hdesc : ∀ k, F (WithLp.toLp 2 (X (k + 1))) ≤ F (WithLp.toLp 2 (X k))
      - ∑ i, eta / (Real.sqrt ((u (k + 1)).speed i) + eps) * ρ * (G (WithLp.toLp 2 (X k)) i) ^ 2 := by
    intro k
    have h := hS (WithLp.toLp 2 (X k)) (WithLp.toLp 2 (X (k + 1)))
    have e1 : ⟪G (WithLp.toLp 2 (X k)), WithLp.toLp 2 (X (k + 1)) - WithLp.toLp 2 (X k)⟫
        = -∑ i, eta / (Real.sqrt ((u (k + 1)).speed i) + eps) * (G (WithLp.toLp 2 (X k)) i) ^ 2 := by
      rw [PiLp.inner_apply, ← Finset.sum_neg_distrib]
      refine Finset.sum_congr rfl fun i _ => ?_
      simp only [RCLike.inner_apply, conj_trivial, PiLp.sub_apply, hx]
      ring
    have e2 : ‖WithLp.toLp 2 (X (k + 1)) - WithLp.toLp 2 (X k)‖ ^ 2
        = ∑ i, (eta / (Real.sqrt ((u (k + 1)).speed i) + eps)) ^ 2 * (G (WithLp.toLp 2 (X k)) i) ^ 2 := by
      rw [EuclideanSpace.norm_sq_eq]
      refine Finset.sum_congr rfl fun i _ => ?_
      simp only [Real.norm_eq_abs, sq_abs, PiLp.sub_apply, hx]
      ring
    rw [e1, e2] at h
    have h2 : L / 2 * ∑ i, (eta / (Real.sqrt ((u (k + 1)).speed i) + eps)) ^ 2 * (G (WithLp.toLp 2 (X k)) i) ^ 2
        ≤ ∑ i, eta / (Real.sqrt ((u (k + 1)).speed i) + eps) * (1 - ρ) * (G (WithLp.toLp 2 (X k)) i) ^ 2 := by
      rw [Finset.mul_sum]
      refine Finset.sum_le_sum fun i _ => ?_
      have hh : 0 < Real.sqrt ((u (k + 1)).speed i) + eps := by
        linarith [Real.sqrt_nonneg ((u (k + 1)).speed i)]
      have hle : eta / (Real.sqrt ((u (k + 1)).speed i) + eps) ≤ eta / eps :=
        div_le_div_of_nonneg_left he.le hε (by linarith [Real.sqrt_nonneg ((u (k + 1)).speed i)])
      have hnn : 0 ≤ eta / (Real.sqrt ((u (k + 1)).speed i) + eps) := by positivity
      have e3 : 1 - ρ = L / 2 * (eta / eps) := by rw [hρ]; field_simp; ring
      rw [e3]
      have h4 : L / 2 * (eta / (Real.sqrt ((u (k + 1)).speed i) + eps)) ≤ L / 2 * (eta / eps) :=
        mul_le_mul_of_nonneg_left hle (by positivity)
      have h5 := mul_le_mul_of_nonneg_right (mul_le_mul_of_nonneg_left h4 hnn) (sq_nonneg (G (WithLp.toLp 2 (X k)) i))
      refine le_trans (le_of_eq ?_) h5
      ring
    have e4 : ∑ i, eta / (Real.sqrt ((u (k + 1)).speed i) + eps) * (1 - ρ) * (G (WithLp.toLp 2 (X k)) i) ^ 2
        = ∑ i, eta / (Real.sqrt ((u (k + 1)).speed i) + eps) * (G (WithLp.toLp 2 (X k)) i) ^ 2
          - ∑ i, eta / (Real.sqrt ((u (k + 1)).speed i) + eps) * ρ * (G (WithLp.toLp 2 (X k)) i) ^ 2 := by
      rw [← Finset.sum_sub_distrib]
      refine Finset.sum_congr rfl fun i _ => ?_
      ring
    rw [e4] at h2
    linarith
  have hpos : ∀ k, 0 ≤ ∑ i, eta / (Real.sqrt ((u (k + 1)).speed i) + eps) * ρ * (G (WithLp.toLp 2 (X k)) i) ^ 2 := by
    intro k
    refine Finset.sum_nonneg fun i _ => ?_
    have := Real.sqrt_nonneg ((u (k + 1)).speed i)
    positivity
  have hFle : ∀ k, F (WithLp.toLp 2 (X k)) ≤ F (WithLp.toLp 2 x0) := by
    intro k
    induction k with
    | zero => rw [hX0]
    | succ k ih => linarith [hdesc k, hpos k]
  set Δ := F (WithLp.toLp 2 x0) - m with hΔ
  have hΔ0 : 0 ≤ Δ := by rw [hΔ]; linarith [hm (WithLp.toLp 2 x0)]
  have hgb : ∀ k, ‖G (WithLp.toLp 2 (X k))‖ ^ 2 ≤ 2 * L * Δ := by
    intro k
    set y := WithLp.toLp 2 (X k) with hy
    have h := hS y (y - (1 / L) • G y)
    have e1 : y - (1 / L) • G y - y = -((1 / L) • G y) := by abel
    rw [e1, inner_neg_right, real_inner_smul_right, real_inner_self_eq_norm_sq, norm_neg, norm_smul,
      Real.norm_of_nonneg (by positivity), mul_pow] at h
    have h2 := hm (y - (1 / L) • G y)
    have h3 := hFle k
    have e2 : L / 2 * ((1 / L) ^ 2 * ‖G y‖ ^ 2) = 1 / L * ‖G y‖ ^ 2 / 2 := by field_simp
    rw [e2] at h
    have h4 : 1 / L * ‖G y‖ ^ 2 ≤ 2 * Δ := by rw [hΔ]; linarith
    rw [div_mul_eq_mul_div, one_mul, div_le_iff₀ hL] at h4
    linarith
  have hsb : ∀ k i, (u k).speed i ≤ 2 * L * Δ := by
    intro k i
    induction k with
    | zero => change (0 : ℝ) ≤ _; positivity
    | succ k ih =>
      rw [hspeed]
      have h2 : (G (WithLp.toLp 2 (X k)) i) ^ 2 ≤ 2 * L * Δ := by
        refine le_trans ?_ (hgb k)
        rw [← sq_abs, ← Real.norm_eq_abs]
        exact pow_le_pow_left₀ (norm_nonneg _) (PiLp.norm_apply_le _ _) 2
      have h3 := mul_le_mul_of_nonneg_left ih h0
      have h4 := mul_le_mul_of_nonneg_left h2 (by linarith : 0 ≤ 1 - gamma)
      linarith
  set Q := Real.sqrt (2 * L * Δ) + eps with hQ
  have hQ0 : 0 < Q := by positivity
  have hlow : ∀ k, eta * ρ / Q * ‖G (WithLp.toLp 2 (X k))‖ ^ 2
      ≤ ∑ i, eta / (Real.sqrt ((u (k + 1)).speed i) + eps) * ρ * (G (WithLp.toLp 2 (X k)) i) ^ 2 := by
    intro k
    rw [EuclideanSpace.norm_sq_eq, Finset.mul_sum]
    refine Finset.sum_le_sum fun i _ => ?_
    rw [Real.norm_eq_abs, sq_abs]
    refine mul_le_mul_of_nonneg_right ?_ (sq_nonneg _)
    rw [mul_div_right_comm]
    refine mul_le_mul_of_nonneg_right ?_ hρ0.le
    have := Real.sqrt_nonneg ((u (k + 1)).speed i)
    refine div_le_div_of_nonneg_left he.le (by positivity) ?_
    rw [hQ]
    linarith [Real.sqrt_le_sqrt (hsb (k + 1) i)]
  have htot : eta * ρ / Q * ∑ k ∈ Finset.range n, ‖G (WithLp.toLp 2 (X k))‖ ^ 2
      ≤ F (WithLp.toLp 2 x0) - F (WithLp.toLp 2 (X n)) := by
    induction n with
    | zero => simp [hX0]
    | succ n ih =>
      rw [Finset.sum_range_succ, mul_add]
      linarith [hlow n, hdesc n]
  have hend := htot.trans (by rw [hΔ]; linarith [hm (WithLp.toLp 2 (X n))] : _ ≤ Δ)
  rw [le_div_iff₀ (by positivity)]
  have h9 := mul_le_mul_of_nonneg_right hend hQ0.le
  refine le_trans (le_of_eq ?_) h9
  field_simp

/-- Small steps: `eta = epsilon = 1` on `½‖x‖²`. -/
example (idx : ℕ → ℕ) : ∃ k c s, rmspropArgs (.float (1 / 2)) = .ok k ∧
    GD.init k (![3, -5] : Fin 2 → ℝ) (fun v _ => v) (.float 1) (.float 1) none 1 none = .ok (c, s) ∧
    ∀ X : ℕ → Fin 2 → ℝ, (∀ n, ∃ t, run c (firstUpdates id idx n) s = .ok t ∧ t.xNew = X n) →
      ∃ K : ℝ, ∀ n, ∑ k ∈ Finset.range n, ‖(id (WithLp.toLp 2 (X k)) : EuclideanSpace ℝ (Fin 2))‖ ^ 2 ≤ K := by
  obtain ⟨k, hk⟩ := (C54_rmsprop_validation (.float (1 / 2))).2 ⟨1 / 2, rfl, by norm_num, by norm_num⟩
  obtain ⟨c, s, h1, h2⟩ := C134_rmsprop_small_steps_partial (F := fun x : EuclideanSpace ℝ (Fin 2) => ‖x‖ ^ 2 / 2) (G := id)
    half_sq_convex_smooth.2 one_pos (m := 0) (fun x => by positivity) (1 / 2) k hk ![3, -5] (fun v _ => v) (fun _ _ => rfl)
    one_pos one_pos (by norm_num) none 1 one_ne_zero idx
  exact ⟨k, c, s, hk, h1, fun X hX => ⟨_, h2 X hX⟩⟩

/-- The run that jumps between two arrays has no zero entry, so it does not tend to zero. -/
example : ∃ X : ℕ → Fin 2 → ℝ, (∀ n i, X n i ≠ 0) ∧ ∃ k c s, rmspropArgs (.float 0) = .ok k ∧
    GD.init k (fun _ : Fin 2 => 1 / 2 - 1 / 10 ^ 6) (fun v _ => v) (.float 1) (.float (1 / 10 ^ 6)) none 1 none = .ok (c, s) ∧
    ∀ n, ∃ t, run c (firstUpdates id (fun k => k) n) s = .ok t ∧ t.xNew = X n := by
  obtain ⟨k, c, s, h1, h2, h3⟩ := C134_rmsprop_oscillates (ι := Fin 2) (fun v _ => v) (fun _ _ => rfl)
    (by norm_num : (0 : ℝ) < 1 / 10 ^ 6) (by norm_num : 2 * (1 / 10 ^ 6) < (1 : ℝ)) none 1 one_ne_zero fun k => k
  refine ⟨fun n _ => (-1) ^ n * (1 / 2 - 1 / 10 ^ 6), fun n i => ?_, k, c, s, h1, h2, h3⟩
  exact mul_ne_zero (pow_ne_zero _ (by norm_num)) (by norm_num)

end
end Verif
