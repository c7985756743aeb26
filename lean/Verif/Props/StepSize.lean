import Verif.Props.Pipeline
import Verif.Props.PowerMethod
import Verif.Props.Convergence

/-!
# C130: the step size from the power method

The usual recipe: `PowerMethod(grad.trans_op_op, shape)` estimates the Lipschitz constant of the gradient and
`inv_spec_rad` is passed to the algorithm as its step size.
-/

set_option linter.unusedSectionVars false

namespace Verif
open Spec FB
open Linear (gradBasic gradCost)
open Mat (specRad)
open scoped RealInnerProductSpace Topology

/-- `extra_factor` only scales the estimate. -/
theorem specRad_extra {E : Type} [NormedAddCommGroup E] [NormedSpace ℝ E] (op : E → E) (x0 : E) (tol : ℝ) (n : ℕ) (e : ℝ)
    (o : Option (ℝ × ℝ)) (h : specRad op x0 tol n 1 = .ok o) :
    specRad op x0 tol n e = .ok (o.map fun q => (q.1 * e, 1 / (q.1 * e))) := by
  simp only [specRad] at h ⊢
  split at h
  · cases h
  · rename_i hn
    have h := Except.ok.inj h
    rw [if_neg hn, ← h, Option.map_map]
    congr 2
    funext r
    simp

/-- `(x₀, x₁) ↦ (x₀, s x₁)`. -/
noncomputable def scaleSecond (s : ℝ) : EuclideanSpace ℝ (Fin 2) →ₗ[ℝ] EuclideanSpace ℝ (Fin 2) where
  toFun x := !₂[x 0, s * x 1]
  map_add' x y := by ext i; fin_cases i <;> simp [mul_add]
  map_smul' c x := by ext i; fin_cases i <;> simp; ring

theorem norm_sq_pair (x : EuclideanSpace ℝ (Fin 2)) : ‖x‖ ^ 2 = x 0 ^ 2 + x 1 ^ 2 := by
  rw [EuclideanSpace.norm_sq_eq, Fin.sum_univ_two, Real.norm_eq_abs, Real.norm_eq_abs, sq_abs, sq_abs]

theorem scaleSecond_pow (a : ℝ) (k : ℕ) (x : EuclideanSpace ℝ (Fin 2)) :
    ((scaleSecond a ^ k) x) 0 = x 0 ∧ ((scaleSecond a ^ k) x) 1 = a ^ k * x 1 := by
  induction k with
  | zero => simp
  | succ k ih =>
    rw [pow_succ', Module.End.mul_apply]
    constructor
    · exact ih.1
    · change a * ((scaleSecond a ^ k) x) 1 = _
      rw [ih.2]; ring

/-- C130, refuted.  For every `extra_factor`, tolerance and number of iterations there are a self-adjoint operator and an
open set of starting arrays of the power method for which the step it delivers makes gradient descent
(`ForwardBackward` without a regulariser) on `½‖op x‖²` diverge, from every starting point that is not on the first axis. -/
theorem C130_diverges (e : ℝ) (he : 0 < e) (tol : ℝ) (n : ℕ) (hn : 0 < n) :
    ∃ op : EuclideanSpace ℝ (Fin 2) →ₗ[ℝ] EuclideanSpace ℝ (Fin 2), (∀ u v, ⟪op u, v⟫ = ⟪u, op v⟫) ∧
      ∃ U : Set (EuclideanSpace ℝ (Fin 2)), IsOpen U ∧ U.Nonempty ∧ ∀ x0 ∈ U, ∃ r inv,
        specRad (fun x => op (op x)) x0 tol n e = .ok (some (r, inv)) ∧ 0 < inv ∧
        ∀ z0 : EuclideanSpace ℝ (Fin 2), z0 1 ≠ 0 →
          Filter.Tendsto (fun k => ‖(afterSteps (gradBasic op op 0) (fun y _ => y) (userRules none none)
            (⟨z0, z0, none, none, inv, 1, ()⟩ : FB.St Unit (EuclideanSpace ℝ (Fin 2))) k).xOld‖)
            Filter.atTop Filter.atTop := by
  set s : ℝ := 2 * e + 2 with hs
  set a : ℝ := s * s with ha
  have ha1 : 1 ≤ a := by nlinarith
  have hT : (fun x => scaleSecond s (scaleSecond s x)) = scaleSecond a := by
    funext x
    ext i
    fin_cases i
    · rfl
    · change s * (s * x 1) = a * x 1
      rw [ha]; ring
  refine ⟨scaleSecond s, fun u v => ?_, {x | a ^ n * |x 1| < |x 0|}, ?_, ⟨!₂[1, 0], by simp⟩, fun x0 hx0 => ?_⟩
  · simp only [PiLp.inner_apply, Fin.sum_univ_two]
    change inner ℝ (u 0) (v 0) + inner ℝ (s * u 1) (v 1) = inner ℝ (u 0) (v 0) + inner ℝ (u 1) (s * v 1)
    simp only [RCLike.inner_apply, conj_trivial]
    ring
  · refine isOpen_lt ?_ ?_ <;> fun_prop
  have hx0' : a ^ n * |x0 1| < |x0 0| := hx0
  have hpos : 0 < |x0 0| := lt_of_le_of_lt (by positivity) hx0'
  have hne : ∀ k, (scaleSecond a ^ k) x0 ≠ 0 := by
    intro k h
    have := (scaleSecond_pow a k x0).1
    rw [h] at this
    exact (abs_pos.1 hpos) this.symm
  obtain ⟨o, ho⟩ := (C62_returns (scaleSecond a) x0 tol n 1).2 hn.ne'
  obtain ⟨k, hk1, hkn, hk, -⟩ := C82_stopping_rule_partial (scaleSecond a) x0 tol n o ho
  obtain ⟨j, rfl⟩ : ∃ j, k = j + 1 := ⟨k - 1, by omega⟩
  obtain ⟨inv, hinv⟩ := C62_estimate (scaleSecond a) x0 hne 0 le_rfl j
  rw [hinv] at hk
  have hk := Except.ok.inj hk
  set q : ℝ := ‖(scaleSecond a ^ (j + 1)) x0‖ / ‖(scaleSecond a ^ j) x0‖ with hq
  have hq0 : 0 < q := div_pos (norm_pos_iff.2 (hne _)) (norm_pos_iff.2 (hne _))
  have hq2 : q ^ 2 ≤ 2 := by
    rw [hq, div_pow, div_le_iff₀ (pow_pos (norm_pos_iff.2 (hne _)) 2), norm_sq_pair, norm_sq_pair,
      (scaleSecond_pow a _ x0).1, (scaleSecond_pow a _ x0).2, (scaleSecond_pow a _ x0).1, (scaleSecond_pow a _ x0).2]
    have h1 : a ^ (j + 1) * |x0 1| ≤ |x0 0| :=
      (mul_le_mul_of_nonneg_right (pow_le_pow_right₀ ha1 hkn) (abs_nonneg _)).trans hx0'.le
    have h2 := pow_le_pow_left₀ (by positivity) h1 2
    rw [mul_pow, sq_abs, sq_abs, ← mul_pow] at h2
    nlinarith [sq_nonneg (a ^ j * x0 1)]
  have hq3 : q < 3 / 2 := by nlinarith
  have hres := specRad_extra (scaleSecond a) x0 tol n e o ho
  rw [← hT] at hres
  refine ⟨q * e, 1 / (q * e), by rw [hres, ← hk]; rfl, by positivity, fun z0 hz0 => ?_⟩
  have hdiv : 2 < 1 / (q * e) * a := by
    rw [div_mul_eq_mul_div, one_mul, lt_div_iff₀ (by positivity), ha, hs]
    nlinarith [mul_lt_mul_of_pos_right hq3 he]
  set b : ℝ := 1 / (q * e) with hb
  have hcoord : ∀ k, ((afterSteps (gradBasic (scaleSecond s) (scaleSecond s) 0) (fun y _ => y) (userRules none none)
      (⟨z0, z0, none, none, b, 1, ()⟩ : FB.St Unit (EuclideanSpace ℝ (Fin 2))) k).xOld) 1 = (1 - b * a) ^ k * z0 1 := by
    intro k
    induction k with
    | zero => simp [afterSteps]
    | succ k ih =>
      rw [plain_iterates]
      set w := (afterSteps (gradBasic (scaleSecond s) (scaleSecond s) 0) (fun y _ => y) (userRules none none)
        (⟨z0, z0, none, none, b, 1, ()⟩ : FB.St Unit (EuclideanSpace ℝ (Fin 2))) k).xOld with hw
      have h1 : gradBasic (scaleSecond s) (scaleSecond s) 0 w = scaleSecond a w := by
        rw [← hT]; simp only [gradBasic, sub_zero]
      rw [h1]
      change w 1 - b * (a * w 1) = _
      rw [ih]; ring
  refine Filter.tendsto_atTop_mono (f := fun k => |1 - b * a| ^ k * |z0 1|) (fun k => ?_) ?_
  · rw [← abs_pow, ← abs_mul, ← hcoord k, ← Real.norm_eq_abs]
    exact PiLp.norm_apply_le _ _
  · refine Filter.Tendsto.atTop_mul_const (abs_pos.2 hz0) (tendsto_pow_atTop_atTop_of_one_lt ?_)
    rw [abs_of_neg (by linarith)]
    linarith

section
variable {E : Type} [NormedAddCommGroup E] [InnerProductSpace ℝ E] [FiniteDimensional ℝ E]
  {Y : Type} [NormedAddCommGroup Y] [InnerProductSpace ℝ Y]

/-- C130 for sufficiently many iterations: when `adj ∘ op` has a largest eigenvalue `lam`, the starting array is not
orthogonal to its eigenvector and early stopping is disabled (`tolerance ≤ 0`), then from some number of iterations on
the step `inv_spec_rad` with `extra_factor = e ≥ 1` lies in `[1/(e lam), 2/lam)` (in `[1/(e lam), 1/lam]` for `e > 1`),
and with it `ForwardBackward` converges to a minimiser of `½‖op x - y‖² + g` for all data, convex regularisers with a
minimiser and starting points.  Missing: an a-priori number of iterations, which does not exist (`C130_diverges`). -/
theorem C130_enough_iterations_partial (op : E →ₗ[ℝ] Y) (adj : Y →ₗ[ℝ] E) (hadj : ∀ a b, ⟪op a, b⟫ = ⟪a, adj b⟫)
    (lam : ℝ) (hl : 0 < lam) (v : E) (hv : adj (op v) = lam • v) (hmax : ∀ x, ‖adj (op x)‖ ≤ lam * ‖x‖) (x0 : E)
    (hx : ⟪x0, v⟫ ≠ 0) (tol : ℝ) (ht : tol ≤ 0) (e : ℝ) (he : 1 ≤ e) :
    ∃ N, ∀ n ≥ N, ∃ r inv, specRad (fun x => adj (op x)) x0 tol n e = .ok (some (r, inv)) ∧
      1 / (e * lam) ≤ inv ∧ inv < 2 / lam ∧ (1 < e → inv ≤ 1 / lam) ∧
      ∀ (C : Set E) (g : E → ℝ) (prox : E → ℝ → E) (y : Y), ConvexOn ℝ C g → ExactProx C g prox →
        (∃ x, Minimises C (fun u => gradCost op y u + g u) x) → ∀ z0, ∃ x,
          Minimises C (fun u => gradCost op y u + g u) x ∧
          Filter.Tendsto (fun k => (afterSteps (gradBasic op adj y) prox (userRules none none)
            (⟨z0, z0, none, none, inv, 1, ()⟩ : FB.St Unit E) k).xOld) Filter.atTop (𝓝 x) := by
  set T : E →ₗ[ℝ] E := adj ∘ₗ op with hTd
  have hfun : (fun x => adj (op x)) = T := rfl
  have hsym : T.IsSymmetric := by
    intro a b
    change ⟪adj (op a), b⟫ = ⟪a, adj (op b)⟫
    rw [← hadj, ← real_inner_comm, ← hadj, real_inner_comm]
  have habs : |lam| = lam := abs_of_pos hl
  obtain ⟨hne, htend⟩ := C62_estimates_converge T hsym lam v hv hl.ne' (by rw [habs]; exact hmax) x0 hx
  rw [habs] at htend
  have hop : ∀ u, ‖op u‖ ≤ Real.sqrt lam * ‖u‖ := by
    intro u
    rw [← Real.sqrt_sq (norm_nonneg (op u)), ← Real.sqrt_sq (norm_nonneg u), ← Real.sqrt_mul hl.le]
    apply Real.sqrt_le_sqrt
    rw [← real_inner_self_eq_norm_sq, hadj]
    calc _ ≤ ‖u‖ * ‖adj (op u)‖ := real_inner_le_norm _ _
      _ ≤ ‖u‖ * (lam * ‖u‖) := mul_le_mul_of_nonneg_left (hmax u) (norm_nonneg _)
      _ = _ := by ring
  have hlow : max (lam / 2) (lam / e) < lam ∨ e = 1 := by
    rcases he.eq_or_lt with h | h
    · exact Or.inr h.symm
    · refine Or.inl (max_lt (by linarith) ?_)
      rw [div_lt_iff₀ (by linarith)]; nlinarith
  have hbelow : ∃ c, c < lam ∧ lam / 2 ≤ c ∧ (1 < e → lam / e ≤ c) := by
    rcases hlow with h | h
    · exact ⟨_, h, le_max_left _ _, fun _ => le_max_right _ _⟩
    · exact ⟨lam / 2, by linarith, le_rfl, fun h2 => absurd h (ne_of_gt h2)⟩
  obtain ⟨c, hc, hc2, hce⟩ := hbelow
  obtain ⟨N, hN⟩ := Filter.eventually_atTop.1 (htend.eventually (lt_mem_nhds hc))
  refine ⟨N + 1, fun n hn => ?_⟩
  obtain ⟨j, rfl⟩ : ∃ j, n = j + 1 := ⟨n - 1, by omega⟩
  obtain ⟨inv0, h0⟩ := C62_estimate T x0 hne tol ht j
  have h1 := specRad_extra T x0 tol (j + 1) e _ h0
  simp only [Option.map_some] at h1
  have h2 := hN j (by omega)
  have h3 := (C62_never_overestimates T lam hmax x0 tol (j + 1) e (by linarith) _ _ h1).1
  set q : ℝ := ‖(T ^ (j + 1)) x0‖ / ‖(T ^ j) x0‖ with hq
  have hq0 : 0 < q := lt_of_le_of_lt (by linarith) h2
  have he0 : 0 < e := by linarith
  have hlt : 1 / (q * e) < 2 / lam := by
    rw [div_lt_div_iff₀ (by positivity) hl]
    nlinarith
  refine ⟨q * e, 1 / (q * e), h1, ?_, hlt, fun h => ?_, ?_⟩
  · exact one_div_le_one_div_of_le (by positivity) (by linarith)
  · refine one_div_le_one_div_of_le hl ?_
    have := hce h
    rw [div_le_iff₀ he0] at this
    nlinarith
  · intro C g prox y hg hp hex z0
    obtain ⟨hF, hS⟩ := gradBasic_models op adj y (map_add op) hadj (Real.sqrt lam) hop
    rw [Real.sq_sqrt hl.le] at hS
    obtain ⟨x, hx1, hx2, -⟩ := C117_forwardbackward_converges (S := Unit) hg hF hS hl hp hex z0 (1 / (q * e)) ()
      (by positivity) (by rwa [lt_div_iff₀ hl] at hlt)
    exact ⟨x, hx1, hx2⟩

end

/-! ## The hypotheses are met -/

/-- The values the package uses by default. -/
example := C130_diverges 1 one_pos (1e-6) 20 (by norm_num)

/-- The operator `(x₀, x₁) ↦ (x₀, 2 x₁)` and the starting array `(1, 1)`. -/
example := C130_enough_iterations_partial (scaleSecond 2) (scaleSecond 2) (fun u v => by
    simp only [PiLp.inner_apply, Fin.sum_univ_two]
    change inner ℝ (u 0) (v 0) + inner ℝ (2 * u 1) (v 1) = inner ℝ (u 0) (v 0) + inner ℝ (u 1) (2 * v 1)
    simp only [RCLike.inner_apply, conj_trivial]
    ring) 4 (by norm_num) !₂[0, 1]
  (by ext i; fin_cases i <;> simp [scaleSecond]; norm_num)
  (fun x => by
    rw [← Real.sqrt_sq (norm_nonneg x), ← Real.sqrt_sq (norm_nonneg (scaleSecond 2 (scaleSecond 2 x))),
      norm_sq_pair, norm_sq_pair]
    rw [show (4 : ℝ) = Real.sqrt (4 ^ 2) by rw [Real.sqrt_sq (by norm_num)], ← Real.sqrt_mul (by norm_num)]
    apply Real.sqrt_le_sqrt
    change x 0 ^ 2 + (2 * (2 * x 1)) ^ 2 ≤ _
    nlinarith [sq_nonneg (x 0), sq_nonneg (x 1)])
  !₂[1, 1] (by simp [PiLp.inner_apply, Fin.sum_univ_two]) 0 le_rfl (11 / 10) (by norm_num)

end Verif
