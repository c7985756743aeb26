import Verif.Lemmas.FloatNorm

/-!
# C132: ForwardBackward in floating-point arithmetic

The run of `Model/FloatOps` (every operation rounded) against the run in exact arithmetic, and against the best
objective.
-/

set_option linter.unusedSectionVars false

namespace Verif
open Spec FB
open Noise (eps64)
open Positivity (positivityOp)
open Linear (gradBasic gradCost)
open Prox (sparseCost ridgeCost ridgeOp)
open scoped RealInnerProductSpace

section
variable {E ι : Type} [NormedAddCommGroup E] [InnerProductSpace ℝ E] [Fintype ι]

/-- One update: the new arrays are close to the exact update of the old ones. -/
theorem float_step_close (V : ArraySpace E ι ℝ) (R : Rounding) (ε η δ c β : ℝ) (hε0 : 0 ≤ ε) (hε : ε ≤ 1 / 8)
    (hη : 0 ≤ η) (hc : 0 ≤ c) (hb : 0 ≤ β) (hacc : ∀ x, |R.fl x - x| ≤ ε * |x| + η) (G : E → E)
    (hG : ∀ z, β * ‖G z‖ ≤ ‖z‖ + c) (prox : E → ℝ → E) (hne : ∀ a b, ‖prox a β - prox b β‖ ≤ ‖a - b‖)
    (grad' : (ι → ℝ) → ι → ℝ)
    (hgr : ∀ z, β * ‖V.arr.symm (grad' z) - G (V.arr.symm z)‖ ≤ ε * (‖V.arr.symm z‖ + c))
    (prox' : (ι → ℝ) → ℝ → ι → ℝ)
    (hpr : ∀ y, (∀ i, R.fl (y i) = y i) → ‖V.arr.symm (prox' y β) - prox (V.arr.symm y) β‖ ≤ ε * ‖V.arr.symm y‖ + δ)
    (s : (ι → ℝ) × (ι → ℝ)) :
    ‖V.arr.symm (FloatOps.fbStep R grad' prox' β 1 s).1
      - prox (V.arr.symm s.2 - β • G (V.arr.symm s.2)) β‖ ≤
        10 * ε * (‖V.arr.symm s.2‖ + c) + 4 * (Real.sqrt (Fintype.card ι) * η) + δ ∧
    ‖V.arr.symm (FloatOps.fbStep R grad' prox' β 1 s).2 - V.arr.symm (FloatOps.fbStep R grad' prox' β 1 s).1‖ ≤
      3 * ε * ‖V.arr.symm (FloatOps.fbStep R grad' prox' β 1 s).1‖ + 2 * ε * ‖V.arr.symm s.1‖
        + 3 * (Real.sqrt (Fintype.card ι) * η) := by
  obtain ⟨x, z⟩ := s
  dsimp only
  set h := Real.sqrt (Fintype.card ι) * η with hh
  have hh0 : 0 ≤ h := by positivity
  set y : ι → ℝ := fun i => R.fl (z i - R.fl (β * grad' z i)) with hy
  have e1 : (FloatOps.fbStep R grad' prox' β 1 (x, z)).1 = prox' y β := rfl
  have e2 : (FloatOps.fbStep R grad' prox' β 1 (x, z)).2 =
    fun i => R.fl (x i + R.fl (1 * R.fl (prox' y β i - x i))) := rfl
  rw [e1, e2]
  constructor
  · have h1 : ‖V.arr.symm (fun i => y i - (z i - β * grad' z i))‖ ≤
        ε * ‖V.arr.symm z‖ + 3 * ε * ‖V.arr.symm fun i => β * grad' z i‖ + 3 * h := by
      have := symm_norm_le V (fun i => y i - (z i - β * grad' z i)) z (fun i => β * grad' z i) ε (3 * ε) (3 * η) hε0
        (by positivity) (by positivity) fun i => grad_entry_error R ε η hε0 hε hη hacc (z i) β (grad' z i)
      calc _ ≤ _ := this
        _ = _ := by rw [hh]; ring
    have e3 : V.arr.symm (fun i => y i - (z i - β * grad' z i)) = V.arr.symm y -
        (V.arr.symm z - β • V.arr.symm (grad' z)) := by
      rw [← symm_smul, ← map_sub, ← map_sub]; rfl
    rw [e3, symm_smul, norm_smul, Real.norm_of_nonneg hb] at h1
    set Y := V.arr.symm y with hY
    set Z := V.arr.symm z with hZ
    set g' := V.arr.symm (grad' z) with hg'
    have h2 : β * ‖g' - G Z‖ ≤ ε * (‖Z‖ + c) := hgr z
    have h3 : β * ‖g'‖ ≤ (1 + ε) * (‖Z‖ + c) := by
      have : ‖g'‖ ≤ ‖G Z‖ + ‖g' - G Z‖ := norm_le_norm_add_norm_sub' g' (G Z)
      have := mul_le_mul_of_nonneg_left this hb
      linarith [hG Z]
    have h4 : ‖Y - (Z - β • G Z)‖ ≤ 6 * ε * (‖Z‖ + c) + 3 * h := by
      have e4 : Y - (Z - β • G Z) = (Y - (Z - β • g')) - β • (g' - G Z) := by rw [smul_sub]; abel
      have h5 : ‖Y - (Z - β • G Z)‖ ≤ ‖Y - (Z - β • g')‖ + β * ‖g' - G Z‖ := by
        rw [e4]
        refine (norm_sub_le _ _).trans ?_
        rw [norm_smul, Real.norm_of_nonneg hb]
      have h6 := mul_le_mul_of_nonneg_left h3 (show 0 ≤ 3 * ε by linarith)
      have hs : 0 ≤ ‖Z‖ + c := add_nonneg (norm_nonneg _) hc
      have h7 := mul_nonneg hε0 hs
      have h8 : ε * (ε * (‖Z‖ + c)) ≤ 1 / 8 * (ε * (‖Z‖ + c)) := mul_le_mul_of_nonneg_right hε h7
      have h9 := mul_nonneg hε0 hc
      nlinarith
    have h5 : ‖Y‖ ≤ 4 * (‖Z‖ + c) + 3 * h := by
      have a1 : ‖Y‖ ≤ ‖Z - β • G Z‖ + ‖Y - (Z - β • G Z)‖ := norm_le_norm_add_norm_sub' _ _
      have a2 : ‖Z - β • G Z‖ ≤ ‖Z‖ + β * ‖G Z‖ := by
        refine (norm_sub_le _ _).trans ?_
        rw [norm_smul, Real.norm_of_nonneg hb]
      have hs : 0 ≤ ‖Z‖ + c := add_nonneg (norm_nonneg _) hc
      have a3 : ε * (‖Z‖ + c) ≤ 1 / 8 * (‖Z‖ + c) := mul_le_mul_of_nonneg_right hε hs
      linarith [hG Z]
    have h6 : ‖V.arr.symm (prox' y β) - prox Y β‖ ≤ ε * ‖Y‖ + δ := hpr y fun i => R.idem _
    have h7 := hne Y (Z - β • G Z)
    have h8 := norm_sub_le_norm_sub_add_norm_sub (V.arr.symm (prox' y β)) (prox Y β) (prox (Z - β • G Z) β)
    have h9 := mul_le_mul_of_nonneg_left h5 hε0
    have h10 : ε * h ≤ 1 / 8 * h := mul_le_mul_of_nonneg_right hε hh0
    nlinarith
  · have := symm_norm_le V (fun i => R.fl (x i + R.fl (1 * R.fl (prox' y β i - x i))) - prox' y β i) (prox' y β) x
      (3 * ε) (2 * ε) (3 * η) (by positivity) (by positivity) (by positivity)
      fun i => relax_entry_error R ε η hε0 hε hη hacc (x i) (prox' y β i)
    have e3 : V.arr.symm (fun i => R.fl (x i + R.fl (1 * R.fl (prox' y β i - x i))) - prox' y β i) =
      V.arr.symm (fun i => R.fl (x i + R.fl (1 * R.fl (prox' y β i - x i)))) - V.arr.symm (prox' y β) := by
      rw [← map_sub]; rfl
    rw [e3] at this
    calc _ ≤ _ := this
      _ = _ := by rw [hh]; ring

/-- A whole run: the error grows at most linearly, up to the factor `(1 + 25ε)ⁿ`. -/
theorem float_run_close (V : ArraySpace E ι ℝ) (R : Rounding) (ε η δ c β D : ℝ) (hε0 : 0 ≤ ε) (hε : ε ≤ 1 / 8)
    (hη : 0 ≤ η) (hδ : 0 ≤ δ) (hc : 0 ≤ c) (hb : 0 ≤ β) (hD : 0 ≤ D) (hacc : ∀ x, |R.fl x - x| ≤ ε * |x| + η)
    (G : E → E) (hG : ∀ z, β * ‖G z‖ ≤ ‖z‖ + c) (prox : E → ℝ → E)
    (hne : ∀ a b, ‖prox a β - prox b β‖ ≤ ‖a - b‖)
    (hfb : ∀ a b, ‖prox (a - β • G a) β - prox (b - β • G b) β‖ ≤ ‖a - b‖)
    (grad' : (ι → ℝ) → ι → ℝ)
    (hgr : ∀ z, β * ‖V.arr.symm (grad' z) - G (V.arr.symm z)‖ ≤ ε * (‖V.arr.symm z‖ + c))
    (prox' : (ι → ℝ) → ℝ → ι → ℝ)
    (hpr : ∀ y, (∀ i, R.fl (y i) = y i) → ‖V.arr.symm (prox' y β) - prox (V.arr.symm y) β‖ ≤ ε * ‖V.arr.symm y‖ + δ)
    (x0 : ι → ℝ) (X : ℕ → E) (hX0 : X 0 = V.arr.symm x0) (hX : ∀ k, X (k + 1) = prox (X k - β • G (X k)) β)
    (hXD : ∀ k, ‖X k‖ ≤ D) (n : ℕ) :
    ‖V.arr.symm (FloatOps.fbRun R grad' prox' (fun _ => β) (fun _ => 1) (x0, x0) n).1 - X n‖ ≤
      n * (1 + 25 * ε) ^ n * (25 * ε * (D + c) + 11 * (Real.sqrt (Fintype.card ι) * η) + 2 * δ) := by
  set h := Real.sqrt (Fintype.card ι) * η with hh
  have hh0 : 0 ≤ h := by positivity
  have hDc : 0 ≤ D + c := by linarith
  set s := FloatOps.fbRun R grad' prox' (fun _ => β) (fun _ => 1) (x0, x0) with hs
  have hstep : ∀ k, s (k + 1) = FloatOps.fbStep R grad' prox' β 1 (s k) := fun _ => rfl
  set e : ℕ → ℝ := fun k => max ‖V.arr.symm (s k).1 - X k‖ ‖V.arr.symm (s k).2 - X k‖ with he
  refine (le_max_left _ ‖V.arr.symm (s n).2 - X n‖).trans ?_
  refine error_recursion (25 * ε) _ (by positivity) (by positivity) e ?_ (fun k => ?_) n
  · have : (s 0).1 = x0 := rfl
    have h2 : (s 0).2 = x0 := rfl
    simp only [he, this, h2, hX0, sub_self, norm_zero, max_self, le_refl]
  · obtain ⟨h1, h2⟩ := float_step_close V R ε η δ c β hε0 hε hη hc hb hacc G hG prox hne grad' hgr prox' hpr (s k)
    rw [← hstep] at h1 h2
    have ek1 : ‖V.arr.symm (s k).1 - X k‖ ≤ e k := le_max_left _ _
    have ek2 : ‖V.arr.symm (s k).2 - X k‖ ≤ e k := le_max_right _ _
    have ek0 : 0 ≤ e k := (norm_nonneg _).trans ek1
    generalize e k = d at *
    have hz : ‖V.arr.symm (s k).2‖ ≤ D + d := by
      have := norm_le_norm_add_norm_sub' (V.arr.symm (s k).2) (X k)
      linarith [hXD k]
    have hx : ‖V.arr.symm (s k).1‖ ≤ D + d := by
      have := norm_le_norm_add_norm_sub' (V.arr.symm (s k).1) (X k)
      linarith [hXD k]
    have a1 : ‖V.arr.symm (s (k + 1)).1 - X (k + 1)‖ ≤ d + 10 * ε * (D + d + c) + 4 * h + δ := by
      have b1 := norm_sub_le_norm_sub_add_norm_sub (V.arr.symm (s (k + 1)).1)
        (prox (V.arr.symm (s k).2 - β • G (V.arr.symm (s k).2)) β) (X (k + 1))
      have b2 := hfb (V.arr.symm (s k).2) (X k)
      rw [← hX k] at b2
      have b3 : 10 * ε * (‖V.arr.symm (s k).2‖ + c) ≤ 10 * ε * (D + d + c) :=
        mul_le_mul_of_nonneg_left (by linarith) (by positivity)
      linarith
    have hx' : ‖V.arr.symm (s (k + 1)).1‖ ≤ D + (d + 10 * ε * (D + d + c) + 4 * h + δ) := by
      have := norm_le_norm_add_norm_sub' (V.arr.symm (s (k + 1)).1) (X (k + 1))
      linarith [hXD (k + 1)]
    have hq : 0 ≤ ε * (D + d + c) := by positivity
    have hq2 : ε * (ε * (D + d + c)) ≤ 1 / 8 * (ε * (D + d + c)) := mul_le_mul_of_nonneg_right hε hq
    have a2 : ‖V.arr.symm (s (k + 1)).2 - X (k + 1)‖ ≤
        d + 10 * ε * (D + d + c) + 4 * h + δ + (3 * ε * (D + (d + 10 * ε * (D + d + c) + 4 * h + δ))
          + 2 * ε * (D + d) + 3 * h) := by
      have b1 := norm_sub_le_norm_sub_add_norm_sub (V.arr.symm (s (k + 1)).2) (V.arr.symm (s (k + 1)).1) (X (k + 1))
      have b2 := mul_le_mul_of_nonneg_left hx' (show 0 ≤ 3 * ε by linarith)
      have b3 := mul_le_mul_of_nonneg_left hx (show 0 ≤ 2 * ε by linarith)
      linarith
    have q1 : ε * h ≤ 1 / 8 * h := mul_le_mul_of_nonneg_right hε hh0
    have q2 : ε * δ ≤ 1 / 8 * δ := mul_le_mul_of_nonneg_right hε hδ
    have q3 : 0 ≤ ε * c := by positivity
    have q4 : 0 ≤ ε * d := by positivity
    have q5 : 0 ≤ ε * D := by positivity
    refine max_le ?_ ?_
    · nlinarith
    · nlinarith

/-- The run against the best objective: the solution after `n` updates is close to a point whose objective exceeds the
minimum by at most `‖x₀ - u‖²/(2βn)`. -/
theorem float_fb_rate (V : ArraySpace E ι ℝ) {C : Set E} {F g : E → ℝ} {G : E → E} {prox : E → ℝ → E} {L : ℝ}
    (hg : ConvexOn ℝ C g) (hF : AboveTangents F G) (hS : Smooth F G L) (hL : 0 ≤ L) (hp : ExactProx C g prox)
    (R : Rounding) (ε η δ c β : ℝ) (hε0 : 0 ≤ ε) (hε : ε ≤ 1 / 8) (hη : 0 ≤ η) (hδ : 0 ≤ δ) (hc : 0 ≤ c) (hb : 0 < β)
    (hbL : β * L ≤ 1) (hacc : ∀ x, |R.fl x - x| ≤ ε * |x| + η) (hG : ∀ z, β * ‖G z‖ ≤ ‖z‖ + c)
    (grad' : (ι → ℝ) → ι → ℝ)
    (hgr : ∀ z, β * ‖V.arr.symm (grad' z) - G (V.arr.symm z)‖ ≤ ε * (‖V.arr.symm z‖ + c))
    (prox' : (ι → ℝ) → ℝ → ι → ℝ)
    (hpr : ∀ y, (∀ i, R.fl (y i) = y i) → ‖V.arr.symm (prox' y β) - prox (V.arr.symm y) β‖ ≤ ε * ‖V.arr.symm y‖ + δ)
    (x0 : ι → ℝ) (u : E) (hu : u ∈ C) (hmin : ∀ v ∈ C, F u + g u ≤ F v + g v) (n : ℕ) (hn : 1 ≤ n) :
    ∃ x ∈ C, (F x + g x) - (F u + g u) ≤ ‖V.arr.symm x0 - u‖ ^ 2 / (2 * β * n) ∧
      ‖V.arr.symm (FloatOps.fbRun R grad' prox' (fun _ => β) (fun _ => 1) (x0, x0) n).1 - x‖ ≤
        n * (1 + 25 * ε) ^ n * (25 * ε * (‖u‖ + ‖V.arr.symm x0 - u‖ + c) + 11 * (Real.sqrt (Fintype.card ι) * η) + 2 * δ) := by
  set X := fun k => (afterSteps G prox (userRules none none) ⟨V.arr.symm x0, V.arr.symm x0, none, none, β, 1, ()⟩ k).xOld
    with hX
  obtain ⟨h1, h2, -⟩ := ista_descent hg hF hS hp (V.arr.symm x0) β () hb hbL hX
  obtain ⟨h3, h4⟩ := ista_rate hg hF hS hp (V.arr.symm x0) β () hb hbL hX n hn
  have hX0 : X 0 = V.arr.symm x0 := rfl
  have hdist : ∀ k, ‖X k - u‖ ≤ ‖V.arr.symm x0 - u‖ := by
    intro k
    induction k with
    | zero => rw [hX0]
    | succ k ih =>
      refine le_trans ?_ ih
      have h5 := h1 k u hu
      have h6 := hmin _ (h2 k)
      have h7 : 0 ≤ 2 * β * ((F (X (k + 1)) + g (X (k + 1))) - (F u + g u)) :=
        mul_nonneg (by linarith) (by linarith)
      exact (sq_le_sq₀ (norm_nonneg _) (norm_nonneg _)).1 (by linarith)
  refine ⟨X n, h3, h4 u hu, ?_⟩
  have hne : ∀ a b, ‖prox a β - prox b β‖ ≤ ‖a - b‖ := fun a b => (hp a β hb).nonexpansive hg hb.le (hp b β hb)
  have hfb := fun a b => fb_map_nonexpansive hg hF hS hL hp hb (show β * L ≤ 2 by linarith) a b
  have hstep : ∀ k, X (k + 1) = prox (X k - β • G (X k)) β := fun k => plain_iterates G prox (V.arr.symm x0) β () k
  have hXD : ∀ k, ‖X k‖ ≤ ‖u‖ + ‖V.arr.symm x0 - u‖ := by
    intro k
    have := norm_le_norm_add_norm_sub' (X k) u
    linarith [hdist k]
  exact float_run_close V R ε η δ c β _ hε0 hε hη hδ hc hb.le (by positivity) hacc G hG prox hne hfb grad' hgr prox' hpr
    x0 X hX0 hstep hXD n

variable {Y : Type} [NormedAddCommGroup Y] [InnerProductSpace ℝ Y]

theorem gradBasic_bound (op : E → Y) (adj : Y → E) (y : Y) (hadj : ∀ a b, ⟪op a, b⟫ = ⟪a, adj b⟫) (N : ℝ) (hN0 : 0 ≤ N)
    (hN : ∀ v, ‖op v‖ ≤ N * ‖v‖) (β c : ℝ) (hb : 0 < β) (hbN : β * N ^ 2 ≤ 1) (hc : β * (N * ‖y‖) ≤ c) (z : E) :
    β * ‖gradBasic op adj y z‖ ≤ ‖z‖ + c := by
  have h1 : ∀ b, ‖adj b‖ ≤ N * ‖b‖ := by
    intro b
    have h2 : ‖adj b‖ * ‖adj b‖ ≤ (N * ‖b‖) * ‖adj b‖ := by
      rw [← real_inner_self_eq_norm_mul_norm, ← hadj]
      calc _ ≤ ‖op (adj b)‖ * ‖b‖ := real_inner_le_norm _ _
        _ ≤ N * ‖adj b‖ * ‖b‖ := mul_le_mul_of_nonneg_right (hN _) (norm_nonneg _)
        _ = _ := by ring
    rcases (norm_nonneg (adj b)).eq_or_lt with h | h
    · rw [← h]; positivity
    · exact le_of_mul_le_mul_right h2 h
  have h3 : ‖gradBasic op adj y z‖ ≤ N * (N * ‖z‖ + ‖y‖) :=
    (h1 _).trans (mul_le_mul_of_nonneg_left ((norm_sub_le _ _).trans (add_le_add (hN z) le_rfl)) hN0)
  have h4 := mul_le_mul_of_nonneg_left h3 hb.le
  have h5 := mul_le_mul_of_nonneg_right hbN (norm_nonneg z)
  nlinarith

/-- C132, non-negative least squares in floating-point arithmetic: `ForwardBackward` (no momentum) with `GradBasic` and
`Positivity`, every operation rounded with relative error `u` and absolute error `η`, and a user-supplied operator whose
computed gradient has relative error `ε`.  The solution after `n` updates is exactly non-negative and within
`n (1 + 25ε)ⁿ (25ε s + 11 √d η)` of a point whose objective exceeds the minimum by at most `‖x₀ - x*‖²/(2βn)`; `s` is
the size of the problem, `‖x*‖ + ‖x₀ - x*‖ + c`. -/
theorem C132_positivity (V : ArraySpace E ι ℝ) (op : E → Y) (adj : Y → E) (y : Y)
    (hadd : ∀ a b, op (a + b) = op a + op b) (hadj : ∀ a b, ⟪op a, b⟫ = ⟪a, adj b⟫) (N : ℝ) (hN0 : 0 ≤ N)
    (hN : ∀ v, ‖op v‖ ≤ N * ‖v‖) (R : Rounding) (ε η c β : ℝ) (hε0 : 0 ≤ ε) (hε : ε ≤ 1 / 8)
    (hη : 0 ≤ η) (hb : 0 < β) (hbN : β * N ^ 2 ≤ 1) (hc : β * (N * ‖y‖) ≤ c)
    (hacc : ∀ x, |R.fl x - x| ≤ ε * |x| + η) (grad' : (ι → ℝ) → ι → ℝ)
    (hgr : ∀ z, β * ‖V.arr.symm (grad' z) - gradBasic op adj y (V.arr.symm z)‖ ≤ ε * (‖V.arr.symm z‖ + c))
    (x0 : ι → ℝ) (u : E) (hu : ∀ i, 0 ≤ V.arr u i)
    (hmin : ∀ v, (∀ i, 0 ≤ V.arr v i) → gradCost op y u ≤ gradCost op y v) (n : ℕ) (hn : 1 ≤ n) (xn : ι → ℝ)
    (hxn : xn = (FloatOps.fbRun R grad' (fun v _ i => FloatOps.pos R (v i)) (fun _ => β) (fun _ => 1) (x0, x0) n).1) :
    (∀ i, 0 ≤ xn i) ∧ ∃ x, (∀ i, 0 ≤ V.arr x i) ∧
      gradCost op y x - gradCost op y u ≤ ‖V.arr.symm x0 - u‖ ^ 2 / (2 * β * n) ∧
      ‖V.arr.symm xn - x‖ ≤ n * (1 + 25 * ε) ^ n *
        (25 * ε * (‖u‖ + ‖V.arr.symm x0 - u‖ + c) + 11 * (Real.sqrt (Fintype.card ι) * η)) := by
  obtain ⟨hF, hS⟩ := gradBasic_models op adj y hadd hadj N hN
  obtain ⟨hC, hp⟩ := positivity_models V (fun v _ => V.arr.symm (positivityOp (V.arr v))) (fun v c => by
    rw [AddEquiv.apply_symm_apply])
  have hc0 : 0 ≤ c := le_trans (by positivity) hc
  obtain ⟨k, rfl⟩ : ∃ k, n = k + 1 := ⟨n - 1, by omega⟩
  refine ⟨fun i => by rw [hxn]; exact C131_positivity_any_relaxation R grad' _ _ _ k i, ?_⟩
  obtain ⟨x, h1, h2, h3⟩ := float_fb_rate V (convexOn_const 0 hC) hF hS (sq_nonneg N) hp R ε η 0 c β hε0 hε hη le_rfl hc0
    hb hbN hacc (gradBasic_bound op adj y hadj N hN0 hN β c hb hbN hc) grad' hgr (fun v _ i => FloatOps.pos R (v i))
    (fun v hv => by
      have e : (fun i => FloatOps.pos R (v i)) = positivityOp (V.arr (V.arr.symm v)) := by
        rw [AddEquiv.apply_symm_apply]
        funext i
        rw [(C131_hard_and_positive R 0 (v i) (hv i)).2.2, positivityOp_eq]
      rw [← e, sub_self, norm_zero, add_zero]
      positivity) x0 u hu (fun v hv => by simpa using hmin v hv) (k + 1) hn
  rw [mul_zero, add_zero] at h3
  exact ⟨x, h1, by simpa using h2, by rw [hxn]; exact h3⟩

/-! ## Soft thresholding -/

section
variable (R : Rounding) (u η : ℝ) (hu0 : 0 ≤ u) (hu : u ≤ 1 / 80) (hη : 0 ≤ η) (hηu : η ≤ u)
  (hacc : ∀ x, |R.fl x - x| ≤ u * |x| + η)

include hu0 hu hη hηu hacc

/-- Accuracy of the rounding to 15 decimals. -/
theorem aroundF_error (p : ℝ) : |FloatOps.aroundF R 15 p - p| ≤ 3 * u * |p| + 1 / 10 ^ 15 + 3 * η := by
  have h10 : (1 : ℝ) ≤ 10 ^ 15 := by norm_num
  rw [FloatOps.aroundF]
  generalize (10 : ℝ) ^ 15 = T at *
  have hT : 0 < T := by linarith
  set a := R.fl (p * T) with ha
  have h1 := hacc (p * T)
  rw [abs_mul, abs_of_pos hT] at h1
  have h2 := rint_sub_le a
  have h3 : |(rint a : ℝ) / T - p| ≤ u * |p| + 1 / 2 * (1 / T) + η := by
    have e : (rint a : ℝ) / T - p = ((rint a - a) + (a - p * T)) / T := by field_simp; ring
    rw [e, abs_div, abs_of_pos hT, div_le_iff₀ hT]
    refine (abs_add_le _ _).trans ?_
    have e2 : (u * |p| + 1 / 2 * (1 / T) + η) * T = u * (|p| * T) + 1 / 2 + η * T := by field_simp
    rw [e2]
    have : η ≤ η * T := le_mul_of_one_le_right hη h10
    linarith
  have h4 := hacc ((rint a : ℝ) / T)
  have h5 : |(rint a : ℝ) / T| ≤ |p| + |(rint a : ℝ) / T - p| := by
    have := abs_add_le p ((rint a : ℝ) / T - p)
    rwa [add_sub_cancel] at this
  have h6 : |R.fl ((rint a : ℝ) / T) - p| ≤ |R.fl ((rint a : ℝ) / T) - (rint a : ℝ) / T| + |(rint a : ℝ) / T - p| :=
    abs_sub_le _ _ _
  have h7 := mul_le_mul_of_nonneg_left h5 hu0
  have h8 : u * |(rint a : ℝ) / T - p| ≤ 1 / 80 * |(rint a : ℝ) / T - p| := mul_le_mul_of_nonneg_right hu (abs_nonneg _)
  have h9 : 0 ≤ u * |p| := by positivity
  have h10 : 0 ≤ 1 / T := by positivity
  linarith

/-- C132, accuracy of soft thresholding: a floating-point entry becomes the exact value up to `8u|x| + 10⁻¹⁵ + 4η`. -/
theorem C132_soft_accuracy (t x : ℝ) (ht : 0 ≤ t) (hx : R.fl x = x) :
    |FloatOps.soft R t x - softExact t x| ≤ 8 * u * |x| + 1 / 10 ^ 15 + 4 * η := by
  have hux : 0 ≤ u * |x| := by positivity
  obtain ⟨s1, -, -, s4, -⟩ := C131_soft R t x ht hx
  rcases le_or_gt |x| t with h | h
  · have h1 : softExact t x = 0 := by
      unfold softExact
      rw [Real.norm_eq_abs]
      rcases (abs_nonneg x).eq_or_lt with h0 | h0
      · rw [abs_eq_zero.1 h0.symm, smul_zero]
      · rw [max_eq_right, zero_smul]
        rw [sub_nonpos, one_le_div h0]; exact h
    rw [s1 h, h1, sub_zero, abs_zero]
    positivity
  · rcases lt_or_ge |x| eps64 with he | he
    · have h1 : |FloatOps.aroundF R 15 x| = 0 := by
        have h3 : |x| * 10 ^ 15 ≤ 1 / 2 := by
          have : |x| ≤ 2⁻¹ ^ 52 := he.le
          calc |x| * 10 ^ 15 ≤ 2⁻¹ ^ 52 * 10 ^ 15 := mul_le_mul_of_nonneg_right this (by positivity)
            _ ≤ 1 / 2 := by norm_num
        have h4 := R.mono h3
        rw [R.half] at h4
        have h5 : rint (R.fl (|x| * 10 ^ 15)) = 0 := by
          rw [rint_eq_zero_iff, abs_of_nonneg (R.nonneg (by positivity))]; exact h4
        rw [fl_around_abs, FloatOps.aroundF, h5, Int.cast_zero, zero_div, R.zero]
      have h2 : FloatOps.soft R t x = 0 := abs_eq_zero.1 (le_antisymm (h1 ▸ s4) (abs_nonneg _))
      rw [h2, zero_sub, abs_neg]
      have h3 := norm_softExact_le t ht x
      rw [Real.norm_eq_abs, Real.norm_eq_abs] at h3
      have h4 : |x| ≤ 1 / 10 ^ 15 := he.le.trans (by unfold eps64; norm_num)
      linarith
    · have hx0 : 0 < |x| := lt_of_lt_of_le eps64_pos he
      have hmax : max eps64 |x| = |x| := max_eq_right he
      set q := t / |x| with hq
      have hq0 : 0 ≤ q := by positivity
      have hq1 : q ≤ 1 := by rw [hq, div_le_one hx0]; exact h.le
      have f0 : 0 ≤ R.fl q := R.nonneg hq0
      have f1 : R.fl q ≤ 1 := by have := R.mono hq1; rwa [R.one] at this
      have a1 : |R.fl q - q| ≤ u + η := by
        have := hacc q
        rw [abs_of_nonneg hq0] at this
        have := mul_le_of_le_one_right hu0 hq1
        linarith
      have a2 : |R.fl (1 - R.fl q) - (1 - R.fl q)| ≤ u + η := by
        have := hacc (1 - R.fl q)
        rw [abs_of_nonneg (show 0 ≤ 1 - R.fl q by linarith)] at this
        have := mul_le_of_le_one_right hu0 (show 1 - R.fl q ≤ 1 by linarith)
        linarith
      have a3 : |R.fl (1 - R.fl q) - (1 - q)| ≤ 2 * u + 2 * η := by
        have e : R.fl (1 - R.fl q) - (1 - q) = (R.fl (1 - R.fl q) - (1 - R.fl q)) - (R.fl q - q) := by ring
        rw [e]
        refine (abs_sub _ _).trans ?_
        linarith
      set m := FloatOps.softFactor R t |x| with hm
      have a4 : |m - max (1 - q) 0| ≤ 2 * u + 2 * η := by
        have e : m = max (R.fl (1 - R.fl q)) 0 := by rw [hm, FloatOps.softFactor, hmax]
        rw [e]
        exact (abs_max_sub_max_le_abs _ _ _).trans a3
      have m0 := fl_softFactor_nonneg R t |x|
      have m1 := fl_softFactor_le_one R t |x| ht
      rw [← hm] at m0 m1
      set p := R.fl (m * x) with hp
      have b0 : |m * x| ≤ |x| := by
        rw [abs_mul, abs_of_nonneg m0]; exact mul_le_of_le_one_left (abs_nonneg _) m1
      have b1 : |p - m * x| ≤ u * |x| + η := by
        have := hacc (m * x)
        have := mul_le_mul_of_nonneg_left b0 hu0
        linarith
      have b2 : |p| ≤ |x| := by
        have := R.mono b0
        rwa [← R.abs, ← R.abs x, hx] at this
      have b3 := aroundF_error R u η hu0 hu hη hηu hacc p
      have b4 := mul_le_mul_of_nonneg_left b2 (show 0 ≤ 3 * u by linarith)
      have b5 : |m * x - softExact t x| ≤ (2 * u + 2 * η) * |x| := by
        unfold softExact
        rw [Real.norm_eq_abs, smul_eq_mul, ← sub_mul, abs_mul]
        exact mul_le_mul_of_nonneg_right a4 (abs_nonneg _)
      have b6 : η * |x| ≤ u * |x| := mul_le_mul_of_nonneg_right hηu (abs_nonneg _)
      have e : FloatOps.soft R t x = FloatOps.aroundF R 15 p := rfl
      rw [e]
      have c1 := abs_sub_le (FloatOps.aroundF R 15 p) p (softExact t x)
      have c2 := abs_sub_le p (m * x) (softExact t x)
      linarith

omit hu0 hu hη hηu hacc in
theorem softExact_lipschitz (t t' x : ℝ) : |softExact t x - softExact t' x| ≤ |t - t'| := by
  unfold softExact
  rw [Real.norm_eq_abs, smul_eq_mul, smul_eq_mul, ← sub_mul, abs_mul]
  rcases (abs_nonneg x).eq_or_lt with h0 | h0
  · rw [← h0, mul_zero]; exact abs_nonneg _
  · have h1 : |max (1 - t / |x|) 0 - max (1 - t' / |x|) 0| ≤ |t - t'| / |x| := by
      refine (abs_max_sub_max_le_abs _ _ _).trans ?_
      have e : 1 - t / |x| - (1 - t' / |x|) = -((t - t') / |x|) := by ring
      rw [e, abs_neg, abs_div, abs_abs]
    calc _ ≤ |t - t'| / |x| * |x| := mul_le_mul_of_nonneg_right h1 h0.le
      _ = _ := div_mul_cancel₀ _ h0.ne'

/-- C132, accuracy of `Ridge`. -/
theorem C132_ridge_accuracy (w c x : ℝ) (hw : 0 ≤ w) (hc : 0 ≤ c) :
    |FloatOps.ridge R w c x - x / (1 + w * c * 2)| ≤ 10 * u * |x| + η := by
  have hwc : 0 ≤ w * c := mul_nonneg hw hc
  rw [FloatOps.ridge]
  generalize w * c = a at *
  set p := R.fl a with hp
  have h1 := hacc a
  rw [abs_of_nonneg hwc] at h1
  have p0 : 0 ≤ p := R.nonneg hwc
  set q := R.fl (p * 2) with hq
  have h2 := hacc (p * 2)
  rw [abs_of_nonneg (show 0 ≤ p * 2 by linarith)] at h2
  have q0 : 0 ≤ q := R.nonneg (by linarith)
  set d := R.fl (1 + q) with hd
  have h3 := hacc (1 + q)
  rw [abs_of_nonneg (show 0 ≤ 1 + q by linarith)] at h3
  have d1 : 1 ≤ d := by have := R.mono (show 1 ≤ 1 + q by linarith); rwa [R.one] at this
  obtain ⟨h1a, h1b⟩ := abs_le.1 h1
  obtain ⟨h2a, h2b⟩ := abs_le.1 h2
  obtain ⟨h3a, h3b⟩ := abs_le.1 h3
  have hua : 0 ≤ u * a := by positivity
  have k1 : u * p ≤ u * ((1 + u) * a + η) := mul_le_mul_of_nonneg_left (by linarith) hu0
  have k2 : u * (u * a) ≤ 1 / 80 * (u * a) := mul_le_mul_of_nonneg_right hu hua
  have k3 : u * η ≤ 1 / 80 * η := mul_le_mul_of_nonneg_right hu hη
  have k4 : u * p ≤ 81 / 80 * (u * a) + 1 / 80 * η := by nlinarith
  have k5 : |q - 2 * a| ≤ 5 * (u * a) + 4 * η := by rw [abs_le]; constructor <;> linarith
  obtain ⟨k5a, k5b⟩ := abs_le.1 k5
  have k6 : u * q ≤ u * (2 * a + (5 * (u * a) + 4 * η)) := mul_le_mul_of_nonneg_left (by linarith) hu0
  have k7 : u * q ≤ 3 * (u * a) + η := by nlinarith
  have k8 : |d - (1 + a * 2)| ≤ 9 * u * (1 + a * 2) := by
    rw [abs_le]; constructor <;> nlinarith
  have hD : 0 < 1 + a * 2 := by linarith
  have hd0 : 0 < d := by linarith
  have k9 : |x / d - x / (1 + a * 2)| ≤ 9 * u * |x| := by
    have e : x / d - x / (1 + a * 2) = x * ((1 + a * 2) - d) / (d * (1 + a * 2)) := by field_simp
    rw [e, abs_div, abs_mul, abs_of_pos (mul_pos hd0 hD), div_le_iff₀ (mul_pos hd0 hD), abs_sub_comm]
    have m1 := mul_le_mul_of_nonneg_left k8 (abs_nonneg x)
    have m2 : 9 * u * |x| * (1 * (1 + a * 2)) ≤ 9 * u * |x| * (d * (1 + a * 2)) :=
      mul_le_mul_of_nonneg_left (mul_le_mul_of_nonneg_right d1 hD.le) (by positivity)
    linarith
  have k10 : |x / d| ≤ |x| := by rw [abs_div, abs_of_pos hd0]; exact div_le_self (abs_nonneg _) d1
  have k11 := hacc (x / d)
  have k12 := mul_le_mul_of_nonneg_left k10 hu0
  have k13 := abs_sub_le (R.fl (x / d)) (x / d) (x / (1 + a * 2))
  linarith

/-- C132, least squares with an l1 penalty in floating-point arithmetic: `ForwardBackward` (no momentum) with `GradBasic`
and soft `SparseThreshold` with non-negative weights. -/
theorem C132_sparse (V : ArraySpace E ι ℝ) (op : E → Y) (adj : Y → E) (y : Y)
    (hadd : ∀ a b, op (a + b) = op a + op b) (hadj : ∀ a b, ⟪op a, b⟫ = ⟪a, adj b⟫) (N : ℝ) (hN0 : 0 ≤ N)
    (hN : ∀ v, ‖op v‖ ≤ N * ‖v‖) (w : ι → ℝ) (hw : ∀ i, 0 ≤ w i) (ε c β : ℝ) (hεu : 10 * u ≤ ε) (hε : ε ≤ 1 / 8)
    (hb : 0 < β) (hbN : β * N ^ 2 ≤ 1) (hc : β * (N * ‖y‖) ≤ c) (grad' : (ι → ℝ) → ι → ℝ)
    (hgr : ∀ z, β * ‖V.arr.symm (grad' z) - gradBasic op adj y (V.arr.symm z)‖ ≤ ε * (‖V.arr.symm z‖ + c))
    (x0 : ι → ℝ) (v : E)
    (hmin : ∀ v', gradCost op y v + sparseCost (fun a => a) w (V.arr v) ≤
      gradCost op y v' + sparseCost (fun a => a) w (V.arr v')) (n : ℕ) (hn : 1 ≤ n) (xn : ι → ℝ)
    (hxn : xn = (FloatOps.fbRun R grad' (fun a c i => FloatOps.soft R (R.fl (w i * c)) (a i)) (fun _ => β) (fun _ => 1)
      (x0, x0) n).1) :
    ∃ x, (gradCost op y x + sparseCost (fun a => a) w (V.arr x)) -
        (gradCost op y v + sparseCost (fun a => a) w (V.arr v)) ≤ ‖V.arr.symm x0 - v‖ ^ 2 / (2 * β * n) ∧
      ‖V.arr.symm xn - x‖ ≤ n * (1 + 25 * ε) ^ n *
        (25 * ε * (‖v‖ + ‖V.arr.symm x0 - v‖ + c) + 11 * (Real.sqrt (Fintype.card ι) * η) +
          2 * (u * β * ‖V.arr.symm w‖ + Real.sqrt (Fintype.card ι) * (1 / 10 ^ 15 + 5 * η))) := by
  obtain ⟨hF, hS⟩ := gradBasic_models op adj y hadd hadj N hN
  have hcost : ∀ a : ι → ℝ, sparseCost (fun v => v) w a = ∑ i, w i * ‖a i‖ := by
    intro a
    refine Finset.sum_congr rfl fun i _ => ?_
    rw [norm_mul, RCLike.norm_ofReal, abs_of_nonneg (hw i)]
  have hconv : ConvexOn ℝ Set.univ fun a => sparseCost (fun v => v) w (V.arr a) := by
    have := convex_moduli V (fun _ : ι => 0) w (fun _ => le_rfl) hw
    simp only [hcost]
    simpa only [zero_mul, zero_add] using this
  have hp : ExactProx Set.univ (fun a => sparseCost (fun v => v) w (V.arr a))
      fun a c => V.arr.symm fun i => softExact (w i * c) (V.arr a i) := by
    intro a b hb
    have h1 : IsProx (fun a => b * sparseCost (fun v => v) w a) (V.arr a)
        (V.arr (V.arr.symm fun i => softExact (w i * b) (V.arr a i))) := by
      rw [AddEquiv.apply_symm_apply]
      have e : (fun u : ι → ℝ => b * sparseCost (fun v => v) w u) = fun u => ∑ i, w i * b * ‖u i‖ := by
        funext u
        rw [hcost, Finset.mul_sum]
        exact Finset.sum_congr rfl fun i _ => by ring
      rw [e]
      have h2 : IsUniqueProx (fun u : ι → ℝ => ∑ i, w i * b * ‖u i‖) (V.arr a) fun i => softExact (w i * b) (V.arr a i) := by
        apply isUniqueProx_of_coord (fun i v => w i * b * ‖v‖)
        intro i v
        exact strong_of_subgradient (fun v => w i * b * ‖v‖) _ _
          (shrink_subgradient (w i * b) (mul_nonneg (hw i) hb.le) (V.arr a i)) v
      exact h2.1
    exact isProxOn_of_isProx V h1
  have hc0 : 0 ≤ c := le_trans (by positivity) hc
  have hε0 : 0 ≤ ε := by linarith
  have hacc' : ∀ x, |R.fl x - x| ≤ ε * |x| + η := fun x => (hacc x).trans
    (add_le_add (mul_le_mul_of_nonneg_right (by linarith) (abs_nonneg _)) le_rfl)
  have hpr : ∀ a : ι → ℝ, (∀ i, R.fl (a i) = a i) →
      ‖(V.arr.symm fun i => FloatOps.soft R (R.fl (w i * β)) (a i)) -
        V.arr.symm fun i => softExact (w i * β) (V.arr (V.arr.symm a) i)‖ ≤
      ε * ‖V.arr.symm a‖ + (u * β * ‖V.arr.symm w‖ + Real.sqrt (Fintype.card ι) * (1 / 10 ^ 15 + 5 * η)) := by
    intro a ha
    rw [AddEquiv.apply_symm_apply, ← map_sub]
    have h1 := symm_norm_le V ((fun i => FloatOps.soft R (R.fl (w i * β)) (a i)) - fun i => softExact (w i * β) (a i))
      a w (8 * u) (u * β) (1 / 10 ^ 15 + 5 * η) (by linarith) (by positivity) (by positivity) (fun i => by
        have hwb : 0 ≤ w i * β := mul_nonneg (hw i) hb.le
        have k1 := C132_soft_accuracy R u η hu0 hu hη hηu hacc (R.fl (w i * β)) (a i) (R.nonneg hwb) (ha i)
        have k2 := softExact_lipschitz (R.fl (w i * β)) (w i * β) (a i)
        have k3 := hacc (w i * β)
        rw [abs_of_nonneg hwb] at k3
        have k4 := abs_sub_le (FloatOps.soft R (R.fl (w i * β)) (a i)) (softExact (R.fl (w i * β)) (a i))
          (softExact (w i * β) (a i))
        rw [Pi.sub_apply, abs_of_nonneg (hw i)]
        generalize (1 : ℝ) / 10 ^ 15 = T at *
        nlinarith)
    have h2 : 8 * u * ‖V.arr.symm a‖ ≤ ε * ‖V.arr.symm a‖ := mul_le_mul_of_nonneg_right (by linarith) (norm_nonneg _)
    linarith
  obtain ⟨x, -, h2, h3⟩ := float_fb_rate V hconv hF hS (sq_nonneg N) hp R ε η
    (u * β * ‖V.arr.symm w‖ + Real.sqrt (Fintype.card ι) * (1 / 10 ^ 15 + 5 * η)) c β hε0 hε hη (by positivity) hc0
    hb hbN hacc' (gradBasic_bound op adj y hadj N hN0 hN β c hb hbN hc) grad' hgr
    (fun a c i => FloatOps.soft R (R.fl (w i * c)) (a i)) hpr x0 v (Set.mem_univ _) (fun v' _ => hmin v') n hn
  exact ⟨x, h2, by rw [hxn]; exact h3⟩

/-- C132, ridge regression in floating-point arithmetic. -/
theorem C132_ridge (V : ArraySpace E ι ℝ) (op : E → Y) (adj : Y → E) (y : Y)
    (hadd : ∀ a b, op (a + b) = op a + op b) (hadj : ∀ a b, ⟪op a, b⟫ = ⟪a, adj b⟫) (N : ℝ) (hN0 : 0 ≤ N)
    (hN : ∀ v, ‖op v‖ ≤ N * ‖v‖) (w : ι → ℝ) (hw : ∀ i, 0 ≤ w i) (ε c β : ℝ) (hεu : 10 * u ≤ ε) (hε : ε ≤ 1 / 8)
    (hb : 0 < β) (hbN : β * N ^ 2 ≤ 1) (hc : β * (N * ‖y‖) ≤ c) (grad' : (ι → ℝ) → ι → ℝ)
    (hgr : ∀ z, β * ‖V.arr.symm (grad' z) - gradBasic op adj y (V.arr.symm z)‖ ≤ ε * (‖V.arr.symm z‖ + c))
    (x0 : ι → ℝ) (v : E)
    (hmin : ∀ v', gradCost op y v + ridgeCost (fun a => a) w (V.arr v) ≤
      gradCost op y v' + ridgeCost (fun a => a) w (V.arr v')) (n : ℕ) (hn : 1 ≤ n) (xn : ι → ℝ)
    (hxn : xn = (FloatOps.fbRun R grad' (fun a c i => FloatOps.ridge R (w i) c (a i)) (fun _ => β) (fun _ => 1)
      (x0, x0) n).1) :
    ∃ x, (gradCost op y x + ridgeCost (fun a => a) w (V.arr x)) -
        (gradCost op y v + ridgeCost (fun a => a) w (V.arr v)) ≤ ‖V.arr.symm x0 - v‖ ^ 2 / (2 * β * n) ∧
      ‖V.arr.symm xn - x‖ ≤ n * (1 + 25 * ε) ^ n *
        (25 * ε * (‖v‖ + ‖V.arr.symm x0 - v‖ + c) + 13 * (Real.sqrt (Fintype.card ι) * η)) := by
  obtain ⟨hF, hS⟩ := gradBasic_models op adj y hadd hadj N hN
  have hconv : ConvexOn ℝ Set.univ fun a => ridgeCost (fun v => v) w (V.arr a) := by
    simp only [(C29_ridge_is_prox (𝕜 := ℝ) w 1 0 hw zero_le_one).2]
    simpa only [zero_mul, add_zero] using convex_moduli V w (fun _ : ι => 0) hw (fun _ => le_rfl)
  have hp : ExactProx Set.univ (fun a => ridgeCost (fun v => v) w (V.arr a))
      fun a c => V.arr.symm (ridgeOp (fun v => v) w (V.arr a) c) := by
    intro a b hb
    have h1 := (C29_ridge_is_prox w b (V.arr a) hw hb.le).1.1
    rw [← AddEquiv.apply_symm_apply V.arr (ridgeOp (fun v => v) w (V.arr a) b)] at h1
    exact isProxOn_of_isProx V h1
  have hc0 : 0 ≤ c := le_trans (by positivity) hc
  have hε0 : 0 ≤ ε := by linarith
  have hacc' : ∀ x, |R.fl x - x| ≤ ε * |x| + η := fun x => (hacc x).trans
    (add_le_add (mul_le_mul_of_nonneg_right (by linarith) (abs_nonneg _)) le_rfl)
  have hpr : ∀ a : ι → ℝ, (∀ i, R.fl (a i) = a i) →
      ‖(V.arr.symm fun i => FloatOps.ridge R (w i) β (a i)) -
        V.arr.symm (ridgeOp (fun v => v) w (V.arr (V.arr.symm a)) β)‖ ≤
      ε * ‖V.arr.symm a‖ + Real.sqrt (Fintype.card ι) * η := by
    intro a _
    rw [AddEquiv.apply_symm_apply, ← map_sub]
    have h1 := symm_norm_le V ((fun i => FloatOps.ridge R (w i) β (a i)) - ridgeOp (fun v => v) w a β)
      a w (10 * u) 0 η (by linarith) le_rfl hη (fun i => by
        have k1 := C132_ridge_accuracy R u η hu0 hu hη hηu hacc (w i) β (a i) (hw i) hb.le
        rw [zero_mul, add_zero]
        exact k1)
    have h2 : 10 * u * ‖V.arr.symm a‖ ≤ ε * ‖V.arr.symm a‖ := mul_le_mul_of_nonneg_right (by linarith) (norm_nonneg _)
    linarith
  obtain ⟨x, -, h2, h3⟩ := float_fb_rate V hconv hF hS (sq_nonneg N) hp R ε η
    (Real.sqrt (Fintype.card ι) * η) c β hε0 hε hη (by positivity) hc0
    hb hbN hacc' (gradBasic_bound op adj y hadj N hN0 hN β c hb hbN hc) grad' hgr
    (fun a c i => FloatOps.ridge R (w i) c (a i)) hpr x0 v (Set.mem_univ _) (fun v' _ => hmin v') n hn
  refine ⟨x, h2, ?_⟩
  rw [hxn]
  calc _ ≤ _ := h3
    _ = _ := by ring

end

end

/-! ## The hypotheses are met -/

theorem binary64_error (x : ℝ) : |binary64.fl x - x| ≤ 2⁻¹ ^ 53 * |x| + 2⁻¹ ^ 1075 :=
  (Float64.fl_error x).trans (max_le_add_of_nonneg (by positivity) (by positivity))

theorem tiny_le : (2⁻¹ : ℝ) ^ 1075 ≤ 2⁻¹ ^ 53 := pow_le_pow_of_le_one (by norm_num) (by norm_num) (by norm_num)

section
open scoped RealInnerProductSpace

/-- Denoising of three pixels: the gradient `z - y` computed in double precision. -/
theorem denoise_gradient (V : ArraySpace (EuclideanSpace ℝ (Fin 3)) (Fin 3) ℝ) (y : Fin 3 → ℝ) (z : Fin 3 → ℝ) :
    1 * ‖V.arr.symm (fun i => binary64.fl (z i - y i)) - gradBasic (fun v => v) (fun v => v) (V.arr.symm y) (V.arr.symm z)‖
      ≤ 10 * 2⁻¹ ^ 53 * (‖V.arr.symm z‖ + (‖V.arr.symm y‖ + 1)) := by
  have e : V.arr.symm (fun i => binary64.fl (z i - y i)) - gradBasic (fun v => v) (fun v => v) (V.arr.symm y) (V.arr.symm z)
      = V.arr.symm (fun i => binary64.fl (z i - y i) - (z i - y i)) := by
    simp only [gradBasic]
    rw [← map_sub, ← map_sub]; rfl
  rw [e, one_mul]
  have hu : (0 : ℝ) ≤ 2⁻¹ ^ 53 := by positivity
  have h2 := tiny_le
  have he : ∀ x, |binary64.fl x - x| ≤ 2⁻¹ ^ 53 * |x| + 2⁻¹ ^ 1075 := binary64_error
  have hη : (0 : ℝ) ≤ 2⁻¹ ^ 1075 := by positivity
  generalize (2⁻¹ : ℝ) ^ 53 = u at *
  generalize (2⁻¹ : ℝ) ^ 1075 = η at *
  have h := symm_norm_le V (fun i => binary64.fl (z i - y i) - (z i - y i)) z y u u η hu hu hη (fun i => by
    have h1 := he (z i - y i)
    have h3 := mul_le_mul_of_nonneg_left (abs_sub (z i) (y i)) hu
    linarith)
  have h3 : Real.sqrt (Fintype.card (Fin 3)) ≤ 2 := by
    rw [Fintype.card_fin]
    exact Real.sqrt_le_iff.2 ⟨by norm_num, by norm_num⟩
  have h4 : Real.sqrt (Fintype.card (Fin 3)) * η ≤ 2 * u := mul_le_mul h3 h2 hη (by norm_num)
  have h5 := mul_nonneg hu (norm_nonneg (V.arr.symm z))
  have h6 := mul_nonneg hu (norm_nonneg (V.arr.symm y))
  linarith

/-- Non-negative denoising of the image `(1, 1, 1)` from the start `(2, 2, 2)` in double precision, 1000 updates. -/
example := C132_positivity (euclid (Fin 3) ℝ) (fun v => v) (fun v => v) ((euclid (Fin 3) ℝ).arr.symm fun _ => 1)
  (fun _ _ => rfl) (fun _ _ => rfl) 1 zero_le_one (fun v => (one_mul ‖v‖).ge) binary64 (10 * 2⁻¹ ^ 53) (2⁻¹ ^ 1075)
  (‖(euclid (Fin 3) ℝ).arr.symm fun _ => 1‖ + 1) 1 (by positivity) (by norm_num) (by positivity) one_pos (by norm_num)
  (by rw [one_mul, one_mul]; exact le_add_of_nonneg_right zero_le_one)
  (fun x => (binary64_error x).trans (add_le_add (mul_le_mul_of_nonneg_right (by norm_num) (abs_nonneg _)) le_rfl)) _
  (denoise_gradient (euclid (Fin 3) ℝ) fun _ => 1) (fun _ => 2) ((euclid (Fin 3) ℝ).arr.symm fun _ => 1)
  (fun i => by rw [AddEquiv.apply_symm_apply]; exact zero_le_one)
  (fun v _ => by
    simp only [gradCost, sub_self, norm_zero]
    rw [zero_pow two_ne_zero, mul_zero]
    positivity) 1000 (by norm_num) _ rfl

/-- The same with an l1 penalty of weight zero on the first pixel and one elsewhere, for the zero image. -/
example := C132_sparse binary64 (2⁻¹ ^ 53) (2⁻¹ ^ 1075) (by positivity) (by norm_num) (by positivity) tiny_le binary64_error
  (euclid (Fin 3) ℝ) (fun v => v) (fun v => v) ((euclid (Fin 3) ℝ).arr.symm fun _ => 0)
  (fun _ _ => rfl) (fun _ _ => rfl) 1 zero_le_one (fun v => (one_mul ‖v‖).ge) (fun i => if i = 0 then 0 else 1)
  (fun i => by split_ifs <;> norm_num) (10 * 2⁻¹ ^ 53)
  (‖(euclid (Fin 3) ℝ).arr.symm fun _ => 0‖ + 1) 1 le_rfl (by norm_num) one_pos (by norm_num)
  (by rw [one_mul, one_mul]; exact le_add_of_nonneg_right zero_le_one) _
  (denoise_gradient (euclid (Fin 3) ℝ) fun _ => 0) (fun _ => 2) ((euclid (Fin 3) ℝ).arr.symm fun _ => 0)
  (fun v => by
    have h1 : gradCost (fun v => v) ((euclid (Fin 3) ℝ).arr.symm fun _ => 0) ((euclid (Fin 3) ℝ).arr.symm fun _ => 0) = 0 := by
      simp only [gradCost, sub_self, norm_zero]; norm_num
    have h2 : sparseCost (fun a => a) (fun i : Fin 3 => if i = 0 then (0 : ℝ) else 1)
        ((euclid (Fin 3) ℝ).arr ((euclid (Fin 3) ℝ).arr.symm fun _ => (0 : ℝ))) = 0 := by
      rw [AddEquiv.apply_symm_apply]; simp [sparseCost]
    rw [h1, h2, add_zero]
    simp only [gradCost, sparseCost]
    positivity) 1000 (by norm_num) _ rfl

/-- Ridge denoising of the zero image. -/
example := C132_ridge binary64 (2⁻¹ ^ 53) (2⁻¹ ^ 1075) (by positivity) (by norm_num) (by positivity) tiny_le binary64_error
  (euclid (Fin 3) ℝ) (fun v => v) (fun v => v) ((euclid (Fin 3) ℝ).arr.symm fun _ => 0)
  (fun _ _ => rfl) (fun _ _ => rfl) 1 zero_le_one (fun v => (one_mul ‖v‖).ge) (fun _ => 3)
  (fun i => by norm_num) (10 * 2⁻¹ ^ 53)
  (‖(euclid (Fin 3) ℝ).arr.symm fun _ => 0‖ + 1) 1 le_rfl (by norm_num) one_pos (by norm_num)
  (by rw [one_mul, one_mul]; exact le_add_of_nonneg_right zero_le_one) _
  (denoise_gradient (euclid (Fin 3) ℝ) fun _ => 0) (fun _ => 2) ((euclid (Fin 3) ℝ).arr.symm fun _ => 0)
  (fun v => by
    have h1 : gradCost (fun v => v) ((euclid (Fin 3) ℝ).arr.symm fun _ => 0) ((euclid (Fin 3) ℝ).arr.symm fun _ => 0) = 0 := by
      simp only [gradCost, sub_self, norm_zero]; norm_num
    have h2 : ridgeCost (fun a => a) (fun _ : Fin 3 => (3 : ℝ))
        ((euclid (Fin 3) ℝ).arr ((euclid (Fin 3) ℝ).arr.symm fun _ => (0 : ℝ))) = 0 := by
      rw [AddEquiv.apply_symm_apply]; simp [ridgeCost]
    rw [h1, h2, add_zero]
    simp only [gradCost, ridgeCost]
    positivity) 1000 (by norm_num) _ rfl

/-- `2` thresholded by `1/2` in double precision. -/
example := C132_soft_accuracy binary64 (2⁻¹ ^ 53) (2⁻¹ ^ 1075) (by positivity) (by norm_num) (by positivity) tiny_le
  binary64_error (1 / 2) 2 (by norm_num) binary64.two
example := C132_ridge_accuracy binary64 (2⁻¹ ^ 53) (2⁻¹ ^ 1075) (by positivity) (by norm_num) (by positivity) tiny_le
  binary64_error 1 1 5 zero_le_one zero_le_one

end

end Verif
