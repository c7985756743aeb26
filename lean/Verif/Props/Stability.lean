import Verif.Lemmas.Stability
import Verif.Props.Stopping

/-!
# C127, C128: what errors in the operators do to the result; geometric convergence

A run on a computer, or a run with approximate operators, is a sequence of points of which each is close to the exact
update of the one before.  The theorems compare such a sequence with the exact run of the code.
-/

set_option linter.unusedSectionVars false

namespace Verif
open Spec FB Fista
open scoped RealInnerProductSpace

section
variable {E : Type} [NormedAddCommGroup E] [InnerProductSpace ℝ E] {S : Type}

/-- The iterates without acceleration follow one map. -/
theorem plain_iterates (G : E → E) (prox : E → ℝ → E) (x0 : E) (β : ℝ) (r : S) (k : ℕ) :
    (afterSteps G prox (userRules none none) ⟨x0, x0, none, none, β, 1, r⟩ (k + 1)).xOld =
      prox ((afterSteps G prox (userRules none none) ⟨x0, x0, none, none, β, 1, r⟩ k).xOld -
        β • G (afterSteps G prox (userRules none none) ⟨x0, x0, none, none, β, 1, r⟩ k).xOld) β := by
  have inv : ∀ k, (afterSteps G prox (userRules none none) ⟨x0, x0, none, none, β, 1, r⟩ k).zOld
        = (afterSteps G prox (userRules none none) ⟨x0, x0, none, none, β, 1, r⟩ k).xOld ∧
      (afterSteps G prox (userRules none none) ⟨x0, x0, none, none, β, 1, r⟩ k).beta = β ∧
      (afterSteps G prox (userRules none none) ⟨x0, x0, none, none, β, 1, r⟩ k).lam = 1 := by
    intro k
    induction k with
    | zero => exact ⟨rfl, rfl, rfl⟩
    | succ k ih =>
      obtain ⟨i1, i2, i3⟩ := ih
      simp only [afterSteps]
      generalize afterSteps G prox (userRules none none) ⟨x0, x0, none, none, β, 1, r⟩ k = s at *
      refine ⟨?_, ?_, ?_⟩
      · simp [FB.step, userRules, i3]
      · simp [FB.step, userRules, applyUpd, i2]
      · simp [FB.step, userRules, applyUpd, i3]
  obtain ⟨i1, i2, i3⟩ := inv k
  simp only [afterSteps]
  generalize afterSteps G prox (userRules none none) ⟨x0, x0, none, none, β, 1, r⟩ k = s at *
  simp [FB.step, i1, i2]

/-! ## C127 -/

/-- C127 for `ForwardBackward` without acceleration, `0 < β ≤ 2/L`: a sequence `w` of points, each within `e k` of
the exact update of the one before, stays within the sum of the errors (and of the error in the starting point) of the
exact run. -/
theorem C127_forward_backward_partial {C : Set E} {F g : E → ℝ} {G : E → E} {prox : E → ℝ → E} {L : ℝ}
    (hg : ConvexOn ℝ C g) (hF : AboveTangents F G) (hS : Smooth F G L) (hL : 0 ≤ L) (hp : ExactProx C g prox)
    (x0 : E) (β : ℝ) (r : S) (hb : 0 < β) (hbL : β * L ≤ 2) (w : ℕ → E) (e : ℕ → ℝ) (n : ℕ)
    (hw : ∀ k < n, ‖w (k + 1) -
      (afterSteps G prox (userRules none none) ⟨w k, w k, none, none, β, 1, r⟩ 1).xOld‖ ≤ e k) :
    ‖w n - (afterSteps G prox (userRules none none) ⟨x0, x0, none, none, β, 1, r⟩ n).xOld‖ ≤
      ‖w 0 - x0‖ + ∑ k ∈ Finset.range n, e k := by
  refine shadow (fun a b => ‖a - b‖) (fun a b c => ?_) (fun x => prox (x - β • G x) β)
    (fun a b => fb_map_nonexpansive hg hF hS hL hp hb hbL a b) w
    (fun k => (afterSteps G prox (userRules none none) ⟨x0, x0, none, none, β, 1, r⟩ k).xOld)
    (fun k => plain_iterates G prox x0 β r k) e n (fun k hk => ?_)
  · have := norm_add_le (a - b) (b - c)
    rwa [sub_add_sub_cancel] at this
  · have := hw k hk
    rwa [plain_iterates] at this

/-- C127 for approximate operators: the run of the code with operators `G'` and `prox'` that err by at most `ε` and
`δ` at the points the run visits, against the run with the exact operators. -/
theorem C127_approximate_operators_partial {C : Set E} {F g : E → ℝ} {G G' : E → E} {prox prox' : E → ℝ → E} {L : ℝ}
    (hg : ConvexOn ℝ C g) (hF : AboveTangents F G) (hS : Smooth F G L) (hL : 0 ≤ L) (hp : ExactProx C g prox)
    (x0 x0' : E) (β : ℝ) (r : S) (hb : 0 < β) (hbL : β * L ≤ 2) (ε δ : ℝ) (n : ℕ)
    (hG : ∀ k < n, ∀ x, x = (afterSteps G' prox' (userRules none none) ⟨x0', x0', none, none, β, 1, r⟩ k).xOld →
      ‖G' x - G x‖ ≤ ε ∧ ‖prox' (x - β • G' x) β - prox (x - β • G' x) β‖ ≤ δ) :
    ‖(afterSteps G' prox' (userRules none none) ⟨x0', x0', none, none, β, 1, r⟩ n).xOld -
      (afterSteps G prox (userRules none none) ⟨x0, x0, none, none, β, 1, r⟩ n).xOld‖ ≤
      ‖x0' - x0‖ + n * (β * ε + δ) := by
  have h := C127_forward_backward_partial hg hF hS hL hp x0 β r hb hbL
    (fun k => (afterSteps G' prox' (userRules none none) ⟨x0', x0', none, none, β, 1, r⟩ k).xOld)
    (fun _ => β * ε + δ) n (fun k hk => ?_)
  · rw [Finset.sum_const, Finset.card_range, nsmul_eq_mul] at h
    exact h
  · rw [plain_iterates, plain_iterates]
    simp only [afterSteps]
    obtain ⟨h1, h2⟩ := hG k hk _ rfl
    set x := (afterSteps G' prox' (userRules none none) ⟨x0', x0', none, none, β, 1, r⟩ k).xOld
    have h3 := (hp (x - β • G' x) β hb).nonexpansive hg hb.le (hp (x - β • G x) β hb)
    have h4 : ‖(x - β • G' x) - (x - β • G x)‖ ≤ β * ε := by
      have e : (x - β • G' x) - (x - β • G x) = -(β • (G' x - G x)) := by module
      rw [e, norm_neg, norm_smul, Real.norm_eq_abs, abs_of_pos hb]
      exact mul_le_mul_of_nonneg_left h1 hb.le
    have h5 := norm_add_le (prox' (x - β • G' x) β - prox (x - β • G' x) β)
      (prox (x - β • G' x) β - prox (x - β • G x) β)
    rw [sub_add_sub_cancel] at h5
    linarith

/-- C127: two runs of the code from different starting points never drift apart. -/
theorem C127_starting_points_partial {C : Set E} {F g : E → ℝ} {G : E → E} {prox : E → ℝ → E} {L : ℝ}
    (hg : ConvexOn ℝ C g) (hF : AboveTangents F G) (hS : Smooth F G L) (hL : 0 ≤ L) (hp : ExactProx C g prox)
    (x0 x0' : E) (β : ℝ) (r : S) (hb : 0 < β) (hbL : β * L ≤ 2) (n : ℕ) :
    ‖(afterSteps G prox (userRules none none) ⟨x0', x0', none, none, β, 1, r⟩ n).xOld -
      (afterSteps G prox (userRules none none) ⟨x0, x0, none, none, β, 1, r⟩ n).xOld‖ ≤ ‖x0' - x0‖ := by
  have h := C127_approximate_operators_partial (G' := G) (prox' := prox) hg hF hS hL hp x0 x0' β r hb hbL 0 0 n
    (fun k _ x _ => by simp)
  simpa using h

/-- C127: the linear growth is attained: with `F = g = 0` a proximity operator that is off by the vector `d` makes the
run drift by exactly `n · d`. -/
theorem C127_linear_growth_attained (x0 d : E) (β : ℝ) (r : S) (n : ℕ) :
    (afterSteps (fun _ => (0 : E)) (fun y _ => y + d) (userRules none none) ⟨x0, x0, none, none, β, 1, r⟩ n).xOld -
      (afterSteps (fun _ => (0 : E)) (fun y _ => y) (userRules none none) ⟨x0, x0, none, none, β, 1, r⟩ n).xOld =
      (n : ℝ) • d := by
  induction n with
  | zero => simp [afterSteps]
  | succ n ih =>
    rw [plain_iterates, plain_iterates]
    push_cast
    rw [add_smul, ← ih]
    module

/-- C127 with a strongly convex `F` (`0 < β < 2/L`): the errors do not even accumulate.  However long the run, the
distance to the minimiser is at most `q^n` times the initial one plus `e / (1 - q)`, where
`q = max |1 - βμ| |1 - βL| < 1`. -/
theorem C127_strongly_convex_partial {C : Set E} {F g : E → ℝ} {G : E → E} {prox : E → ℝ → E} {L μ : ℝ}
    (hg : ConvexOn ℝ C g) (hF : StronglyAbove F G μ) (hμ : 0 < μ) (hS : Smooth F G L) (hμL : μ ≤ L)
    (hp : ExactProx C g prox) (β : ℝ) (r : S) (hb : 0 < β) (hbL : β * L < 2) (u : E)
    (hu : Minimises C (fun u => F u + g u) u) (w : ℕ → E) (e : ℝ) (he : 0 ≤ e) (n : ℕ)
    (hw : ∀ k < n, ‖w (k + 1) -
      (afterSteps G prox (userRules none none) ⟨w k, w k, none, none, β, 1, r⟩ 1).xOld‖ ≤ e) :
    max |1 - β * μ| |1 - β * L| < 1 ∧
    ‖w n - u‖ ≤ max |1 - β * μ| |1 - β * L| ^ n * ‖w 0 - u‖ + e / (1 - max |1 - β * μ| |1 - β * L|) := by
  have hq : max |1 - β * μ| |1 - β * L| < 1 := by
    have h1 : 0 < β * μ := mul_pos hb hμ
    have h2 : β * μ ≤ β * L := mul_le_mul_of_nonneg_left hμL hb.le
    apply max_lt <;> rw [abs_lt] <;> constructor <;> linarith
  refine ⟨hq, ?_⟩
  refine shadow_contraction (fun a b => ‖a - b‖) (fun a b c => ?_) (fun x => prox (x - β • G x) β) _
    (le_max_of_le_left (abs_nonneg _)) hq (fun a b => fb_map_lipschitz hg hF hS hμL hp hb a b) w u
    (fb_fixed_of_minimises hg (strongly_above hμ.le hF) hS hp hb hu) e he n (fun k hk => ?_)
  · have := norm_add_le (a - b) (b - c)
    rwa [sub_add_sub_cancel] at this
  · have := hw k hk
    rwa [plain_iterates] at this

/-! ## C128 -/

/-- C128: with an `L`-smooth, `μ`-strongly convex `F` and any step `0 < β < 2/L`, in a complete space, there is
exactly one minimiser, and the iterates of `ForwardBackward` without acceleration approach it at least as fast as the
powers of `q = max |1 - βμ| |1 - βL| < 1`, from every starting point. -/
theorem C128_forward_backward [CompleteSpace E] {C : Set E} {F g : E → ℝ} {G : E → E} {prox : E → ℝ → E} {L μ : ℝ}
    (hg : ConvexOn ℝ C g) (hF : StronglyAbove F G μ) (hμ : 0 < μ) (hS : Smooth F G L) (hμL : μ ≤ L)
    (hp : ExactProx C g prox) (β : ℝ) (hb : 0 < β) (hbL : β * L < 2) :
    max |1 - β * μ| |1 - β * L| < 1 ∧ ∃ u, Minimises C (fun u => F u + g u) u ∧
      (∀ v, Minimises C (fun u => F u + g u) v → v = u) ∧
      ∀ (S : Type) (r : S) (x0 : E) (n : ℕ),
        ‖(afterSteps G prox (userRules none none) ⟨x0, x0, none, none, β, 1, r⟩ n).xOld - u‖ ≤
          max |1 - β * μ| |1 - β * L| ^ n * ‖x0 - u‖ := by
  have hq : max |1 - β * μ| |1 - β * L| < 1 := by
    have h1 : 0 < β * μ := mul_pos hb hμ
    have h2 : β * μ ≤ β * L := mul_le_mul_of_nonneg_left hμL hb.le
    apply max_lt <;> rw [abs_lt] <;> constructor <;> linarith
  have hq0 : 0 ≤ max |1 - β * μ| |1 - β * L| := le_max_of_le_left (abs_nonneg _)
  refine ⟨hq, ?_⟩
  have hFa := strongly_above hμ.le hF
  have hlip : LipschitzWith ⟨max |1 - β * μ| |1 - β * L|, hq0⟩ fun x => prox (x - β • G x) β := by
    refine LipschitzWith.of_dist_le_mul fun x y => ?_
    rw [dist_eq_norm, dist_eq_norm]
    exact fb_map_lipschitz hg hF hS hμL hp hb x y
  have hc : ContractingWith ⟨max |1 - β * μ| |1 - β * L|, hq0⟩ fun x => prox (x - β • G x) β := ⟨hq, hlip⟩
  have hne : Nonempty E := ⟨0⟩
  obtain ⟨u, hu⟩ : ∃ u, prox (u - β • G u) β = u := ⟨_, hc.fixedPoint_isFixedPt⟩
  have hmin := fb_map_fixed hg hFa hp hb u hu
  have huniq : ∀ v, Minimises C (fun u => F u + g u) v → v = u := by
    intro v hv
    exact hc.fixedPoint_unique' (fb_fixed_of_minimises hg hFa hS hp hb hv) hu
  refine ⟨u, hmin, huniq, fun S r x0 n => ?_⟩
  have h := (C127_strongly_convex_partial (S := S) hg hF hμ hS hμL hp β r hb hbL u hmin
    (fun k => (afterSteps G prox (userRules none none) ⟨x0, x0, none, none, β, 1, r⟩ k).xOld) 0 le_rfl n
    (fun k _ => by rw [plain_iterates, plain_iterates]; simp [afterSteps])).2
  simpa [afterSteps] using h

/-- C128, objective values (`0 < β ≤ 1/L`): the excess over the minimum decreases geometrically, and the number of
updates that guarantees a given accuracy grows with the logarithm of the accuracy only. -/
theorem C128_objective {C : Set E} {F g : E → ℝ} {G : E → E} {prox : E → ℝ → E} {L μ : ℝ}
    (hg : ConvexOn ℝ C g) (hF : StronglyAbove F G μ) (hμ : 0 < μ) (hS : Smooth F G L) (hμL : μ ≤ L)
    (hp : ExactProx C g prox) (β : ℝ) (hb : 0 < β) (hbL : β * L ≤ 1) (r : S) (u : E)
    (hu : Minimises C (fun u => F u + g u) u) (x0 : E) (n : ℕ) :
    F (afterSteps G prox (userRules none none) ⟨x0, x0, none, none, β, 1, r⟩ (n + 1)).xOld
      + g (afterSteps G prox (userRules none none) ⟨x0, x0, none, none, β, 1, r⟩ (n + 1)).xOld - (F u + g u) ≤
      (1 - β * μ) ^ (2 * n) * (‖x0 - u‖ ^ 2 / (2 * β)) := by
  have hFa := strongly_above hμ.le hF
  obtain ⟨-, h⟩ := C127_strongly_convex_partial (S := S) hg hF hμ hS hμL hp β r hb (by linarith) u hu
    (fun k => (afterSteps G prox (userRules none none) ⟨x0, x0, none, none, β, 1, r⟩ k).xOld) 0 le_rfl n
    (fun k _ => by rw [plain_iterates, plain_iterates]; simp [afterSteps])
  have h1 : 0 < β * μ := mul_pos hb hμ
  have h2 : β * μ ≤ β * L := mul_le_mul_of_nonneg_left hμL hb.le
  have hm : max |1 - β * μ| |1 - β * L| = 1 - β * μ := by
    rw [abs_of_nonneg (by linarith), abs_of_nonneg (by linarith)]
    exact max_eq_left (by linarith)
  rw [hm, zero_div, add_zero] at h
  have h3 := (ista_descent hg hFa hS hp x0 β r hb hbL rfl).1 n u hu.1
  have h4 := pow_le_pow_left₀ (norm_nonneg _) h 2
  simp only [afterSteps] at h4
  rw [mul_pow, ← pow_mul, mul_comm n 2] at h4
  rw [mul_div_assoc', le_div_iff₀ (by positivity)]
  nlinarith [sq_nonneg ‖(afterSteps G prox (userRules none none) ⟨x0, x0, none, none, β, 1, r⟩ (n + 1)).xOld - u‖]

end

section
variable {E : Type} [NormedAddCommGroup E] [InnerProductSpace ℝ E] {S : Type}

/-- The auxiliary variables of a run, as functions of the number of the operator. -/
theorem gen_form (G : E → E) (ts : List (Term E)) (hw : (ts.map (·.w)).sum = 1) (x0 : E) (gamma lam : ℝ) (r : S) :
    ∃ z : ℕ → Fin ts.length → E, (z 0 = fun _ => x0) ∧
      (∀ n, (genAfter G (ts.map (·.prox)) (ts.map (·.w)) none none (genInit x0 ts.length gamma lam r) n).xOld =
        gMean ts (z n)) ∧
      ∀ n, z (n + 1) = fun i => z n i + lam • (gProx G gamma ts (z n) i - gMean ts (z n)) := by
  set s := fun n => genAfter G (ts.map (·.prox)) (ts.map (·.w)) none none (genInit x0 ts.length gamma lam r) n with hs
  let z : ℕ → Fin ts.length → E := fun n => Nat.rec (fun _ => x0)
    (fun _ z i => z i + lam • (gProx G gamma ts z i - gMean ts z)) n
  have key : ∀ n, (s n).z = List.ofFn (z n) ∧ (s n).xOld = gMean ts (z n) ∧ (s n).gamma = gamma ∧ (s n).lam = lam := by
    intro n
    induction n with
    | zero =>
      have h1 : (s 0).z = List.ofFn (z 0) := by
        show List.replicate ts.length x0 = List.ofFn fun _ => x0
        rw [List.ofFn_const]
      refine ⟨h1, ?_, rfl, rfl⟩
      have h2 := (C47_mean_invariant G ts hw none none x0 gamma lam r 0).2
      rw [← mean_ofFn, ← h1]
      exact h2
    | succ n ih =>
      obtain ⟨i1, i2, i3, i4⟩ := ih
      have e : s (n + 1) = genStep G (ts.map (·.prox)) (ts.map (·.w)) none none (s n) := rfl
      have hz : (s (n + 1)).z = List.ofFn (z (n + 1)) := by
        rw [e]
        show genZ (s n).xOld (G (s n).xOld) (s n).gamma (s n).lam _ (s n).z _ = _
        rw [i1, i2, i3, i4, genZ_ofFn]
        rfl
      refine ⟨hz, ?_, ?_, ?_⟩
      · rw [← mean_ofFn, ← hz, e]
        rfl
      · rw [e]; exact i3
      · rw [e]; exact i4
  exact ⟨z, rfl, fun n => (key n).2.1, fun n => rfl⟩

/-- C127 for `GenForwardBackward` with constant parameters, `0 < λ ≤ 2 - γL/2`: if each array of auxiliary variables
`w (k+1)` is within `e k`, in the norm weighted by the weights of the operators, of the exact update of `w k`, then
the solution computed from `w n` is within the sum of the errors of the exact solution. -/
theorem C127_gen_forward_backward_partial {F : E → ℝ} {G : E → E} {L : ℝ} (hF : AboveTangents F G)
    (hS : Smooth F G L) (hL : 0 < L) (ts : List (Term E)) (hok : ∀ t ∈ ts, t.Ok)
    (hw : (ts.map (·.w)).sum = 1) (x0 : E) (gamma lam : ℝ) (r : S)
    (hg : 0 < gamma) (hl : 0 < lam) (hc : lam ≤ 2 - gamma * L / 2) (w : ℕ → Fin ts.length → E) (e : ℕ → ℝ) (n : ℕ)
    (he : ∀ k < n, ∃ v : Fin ts.length → E,
      (genStep G (ts.map (·.prox)) (ts.map (·.w)) none none
        (⟨∑ i, ts[i].w • w k i, List.ofFn (w k), gamma, lam, r⟩ : GenSt S E)).z = List.ofFn v ∧
      Real.sqrt (∑ i, ts[i].w * ‖w (k + 1) i - v i‖ ^ 2) ≤ e k) :
    ‖(∑ i, ts[i].w • w n i) - (genAfter G (ts.map (·.prox)) (ts.map (·.w)) none none
        (genInit x0 ts.length gamma lam r) n).xOld‖ ≤
      Real.sqrt (∑ i, ts[i].w * ‖w 0 i - x0‖ ^ 2) + ∑ k ∈ Finset.range n, e k := by
  obtain ⟨z, hz0, hzx, hz⟩ := gen_form G ts hw x0 gamma lam r
  have hpos : ∀ i : Fin ts.length, 0 ≤ ts[i].w := fun i => (hok _ (List.getElem_mem i.2)).pos.le
  have hw1 : ∑ i : Fin ts.length, ts[i].w = 1 := by rw [← weights_sum]; exact hw
  set q : (Fin ts.length → E) → ℝ := fun u => ∑ i, ts[i].w * ‖u i‖ ^ 2 with hq
  have hq0 : ∀ u, 0 ≤ q u := fun u => Finset.sum_nonneg fun i _ => mul_nonneg (hpos i) (sq_nonneg _)
  have tri := quad_dist_triangle q (fun u v => ∑ i, ts[i].w * ⟪u i, v i⟫) hq0 (fun u v t => by
    simp only [hq, Pi.add_apply, Pi.smul_apply, norm_add_sq_real, norm_smul, mul_pow, Real.norm_eq_abs, sq_abs,
      real_inner_smul_right]
    rw [Finset.mul_sum, Finset.mul_sum, ← Finset.sum_add_distrib, ← Finset.sum_add_distrib]
    exact Finset.sum_congr rfl fun i _ => by ring)
  have h := shadow (fun a b => Real.sqrt (q (a - b))) tri
    (fun z i => z i + lam • (gProx G gamma ts z i - gMean ts z))
    (fun a b => Real.sqrt_le_sqrt (gen_nonexpansive hF hS hL ts hok hw gamma lam hg hl hc a b)) w z hz e n
    (fun k hk => by
      obtain ⟨v, h1, h2⟩ := he k hk
      have h3 : v = fun i => w k i + lam • (gProx G gamma ts (w k) i - gMean ts (w k)) := by
        apply List.ofFn_injective
        rw [← h1]
        show genZ _ _ _ _ _ _ _ = _
        rw [genZ_ofFn]
        rfl
      rw [h3] at h2
      exact h2)
  rw [hzx]
  have hJ : ‖gMean ts (w n - z n)‖ ≤ Real.sqrt (q (w n - z n)) := by
    apply Real.le_sqrt_of_sq_le
    have h1 : ‖gMean ts (w n - z n)‖ ≤ ∑ i, ts[i].w * ‖(w n - z n) i‖ := by
      refine (norm_sum_le _ _).trans (Finset.sum_le_sum fun i _ => ?_)
      rw [norm_smul, Real.norm_eq_abs, abs_of_nonneg (hpos i)]
    have h2 : (∑ i, ts[i].w * ‖(w n - z n) i‖) ^ 2 ≤ ∑ i, ts[i].w * ‖(w n - z n) i‖ ^ 2 := by
      set m := ∑ i, ts[i].w * ‖(w n - z n) i‖ with hm
      have h3 : 0 ≤ ∑ i, ts[i].w * (‖(w n - z n) i‖ - m) ^ 2 :=
        Finset.sum_nonneg fun i _ => mul_nonneg (hpos i) (sq_nonneg _)
      have h4 : ∑ i, ts[i].w * (‖(w n - z n) i‖ - m) ^ 2 =
          ∑ i, ts[i].w * ‖(w n - z n) i‖ ^ 2 - 2 * m * (∑ i, ts[i].w * ‖(w n - z n) i‖) + (∑ i : Fin ts.length, ts[i].w) * m ^ 2 := by
        rw [Finset.mul_sum, Finset.sum_mul, ← Finset.sum_sub_distrib, ← Finset.sum_add_distrib]
        refine Finset.sum_congr rfl ?_
        intros
        ring
      rw [← hm, hw1] at h4
      nlinarith
    exact (pow_le_pow_left₀ (norm_nonneg _) h1 2).trans h2
  have e1 : (∑ i, ts[i].w • w n i) - gMean ts (z n) = gMean ts (w n - z n) := by
    simp only [gMean, Pi.sub_apply, smul_sub, Finset.sum_sub_distrib]
  rw [e1]
  have h3 := hJ.trans h
  simp only [hq, hz0, Pi.sub_apply] at h3
  exact h3

end

section
open Condat
variable {E H : Type} [NormedAddCommGroup E] [InnerProductSpace ℝ E] [NormedAddCommGroup H] [InnerProductSpace ℝ H]

/-- C127 for `Condat` with constant parameters, `0 ≤ ρ < 2` and `(2 - ρ)(1/τ - σ‖L‖²) ≥ L_F/2`: in the metric of the
algorithm, pairs `(x', y')` each within `e k` of the exact update of the pair before stay within the sum of the errors of the
exact run. -/
theorem C127_condat_partial {C : Set E} {D : Set H} {F g : E → ℝ} {h : H → ℝ} {O : Ops E H} {Lf nL : ℝ}
    (ok : CondatOk C D F g h O) (hS : Smooth F O.grad Lf) (hLf : 0 < Lf) (hn : ∀ x, ‖O.op x‖ ≤ nL * ‖x‖)
    (s : Condat.St E H) (hs : 0 < s.sigma) (ht : 0 < s.tau) (hr0 : 0 ≤ s.rho) (hr2 : s.rho < 2)
    (hc : Lf / 2 ≤ (2 - s.rho) * (1 / s.tau - s.sigma * nL ^ 2)) (x' : ℕ → E) (y' : ℕ → H) (e : ℕ → ℝ) (n : ℕ)
    (he : ∀ k < n, Real.sqrt (condatNorm O s.sigma s.tau
      (x' (k + 1) - (Condat.step O ⟨none, none, none⟩ ⟨x' k, y' k, s.rho, s.sigma, s.tau⟩).x)
      (y' (k + 1) - (Condat.step O ⟨none, none, none⟩ ⟨x' k, y' k, s.rho, s.sigma, s.tau⟩).y)) ≤ e k) :
    Real.sqrt (condatNorm O s.sigma s.tau (x' n - (condatAfter O ⟨none, none, none⟩ s n).x)
      (y' n - (condatAfter O ⟨none, none, none⟩ s n).y)) ≤
      Real.sqrt (condatNorm O s.sigma s.tau (x' 0 - s.x) (y' 0 - s.y)) + ∑ k ∈ Finset.range n, e k := by
  have hm := C79_metric_condition O s.sigma s.tau s.rho Lf nL hs hr2 hn hc
  have h0 : ∀ u : E × H, 0 ≤ condatNorm O s.sigma s.tau u.1 u.2 := fun u =>
    nonneg_of_mul_nonneg_right (le_trans (by positivity) (hm u.1 u.2)) (by linarith)
  let stOf : E × H → Condat.St E H := fun p => ⟨p.1, p.2, s.rho, s.sigma, s.tau⟩
  have hpar : ∀ k, condatAfter O ⟨none, none, none⟩ s k =
      stOf ((condatAfter O ⟨none, none, none⟩ s k).x, (condatAfter O ⟨none, none, none⟩ s k).y) := by
    intro k
    induction k with
    | zero => rfl
    | succ k ih =>
      have h1 := congrArg Condat.St.rho ih
      have h2 := congrArg Condat.St.sigma ih
      have h3 := congrArg Condat.St.tau ih
      simp only [stOf] at h1 h2 h3
      simp only [condatAfter, Condat.step, app, stOf, h1, h2, h3]
  have hsh := shadow (fun a b : E × H => Real.sqrt (condatNorm O s.sigma s.tau (a - b).1 (a - b).2))
    (quad_dist_triangle (fun u : E × H => condatNorm O s.sigma s.tau u.1 u.2) _ h0
      (fun u v t => condatNorm_quad ok s.sigma s.tau u v t))
    (fun p => ((Condat.step O ⟨none, none, none⟩ (stOf p)).x, (Condat.step O ⟨none, none, none⟩ (stOf p)).y))
    (fun a b => condat_step_nonexpansive ok hS hLf ⟨none, none, none⟩ (stOf a) (stOf b) hs ht hr0 hm rfl rfl rfl)
    (fun k => (x' k, y' k))
    (fun k => ((condatAfter O ⟨none, none, none⟩ s k).x, (condatAfter O ⟨none, none, none⟩ s k).y))
    (fun k => by
      simp only [← hpar k]
      rfl) e n he
  exact hsh

end

/-! ## Acceleration amplifies errors -/

section
open Fista
variable {E : Type} [NormedAddCommGroup E] [InnerProductSpace ℝ E] {U : Type}

theorem tSeq_upper (p q : ℝ) (hp : 0 ≤ p) (hq : 0 ≤ q) (n : ℕ) :
    tSeq (regularObj p q 4) (n + 1) ≤ tSeq (regularObj p q 4) n + p + Real.sqrt q / 2 := by
  have h1 := (tSeq_add_le p q 4 hp hq le_rfl n).1
  rw [tSeq_succ]
  have h2 : Real.sqrt (4 * tSeq (regularObj p q 4) n ^ 2 + q) ≤ 2 * tSeq (regularObj p q 4) n + Real.sqrt q := by
    apply Real.sqrt_le_iff.2
    refine ⟨by positivity, ?_⟩
    have h3 := Real.sq_sqrt hq
    have h4 := Real.sqrt_nonneg q
    nlinarith
  norm_num
  linarith

/-- C127, refutation for FISTA: with the documented acceleration (`p_lazy > 0`, `q_lazy ≥ 0`, `r_lazy = 4`, no
restarting) a constant error of the proximity operator is amplified quadratically.  Already for `F = g = 0` a proximity
operator that is off by the vector `d` at each of the `n` updates moves the result by `m • d` with `m ≥ c n²/2`, where
`c > 0` depends on `p_lazy` and `q_lazy` only, while the errors add up to `n • d`. -/
theorem C127_fista_amplifies (p q : ℝ) (hp : 0 < p) (hq : 0 ≤ q) :
    ∃ c > 0, ∀ (x0 d : E) (β : ℝ) (v : U) (n : ℕ), ∃ m : ℝ,
      (afterSteps (fun _ => (0 : E)) (fun y _ => y + d) fistaRules
          ⟨x0, x0, none, none, β, 1, (regularObj p q 4, v)⟩ n).xOld -
        (afterSteps (fun _ => (0 : E)) (fun y _ => y) fistaRules
          ⟨x0, x0, none, none, β, 1, (regularObj p q 4, v)⟩ n).xOld = m • d ∧
      c * (n : ℝ) ^ 2 / 2 ≤ m := by
  set K := 2 * (1 + p + Real.sqrt q / 2) / p with hK
  have hK0 : 0 < K := by positivity
  refine ⟨1 / (1 + K), by positivity, fun x0 d β v n => ?_⟩
  -- the run with exact operators rests
  have hrest : ∀ n, (afterSteps (fun _ => (0 : E)) (fun y _ => y) fistaRules
      ⟨x0, x0, none, none, β, 1, (regularObj p q 4, v)⟩ n).xOld = x0 ∧
      (afterSteps (fun _ => (0 : E)) (fun y _ => y) fistaRules
      ⟨x0, x0, none, none, β, 1, (regularObj p q 4, v)⟩ n).zOld = x0 := by
    intro n
    induction n with
    | zero => exact ⟨rfl, rfl⟩
    | succ n ih =>
      obtain ⟨h1, h2⟩ := fista_steps (G := fun _ => (0 : E)) (prox := fun y _ => y) (f := regularObj p q 4) rfl rfl x0 β
        1 v n
      have h3 := h1
      rw [ih.2, smul_zero, sub_zero] at h3
      refine ⟨h3, ?_⟩
      rw [h2, h3, ih.1, sub_self, smul_zero, add_zero]
  -- the perturbed run: positions and velocities are multiples of d
  set s := afterSteps (fun _ => (0 : E)) (fun y _ => y + d) fistaRules
      ⟨x0, x0, none, none, β, 1, (regularObj p q 4, v)⟩ with hs
  -- the relaxation used at update n
  have hlam : ∀ n : ℕ, ∃ lam : ℝ, (s (n + 1)).zOld = (s n).xOld + lam • ((s (n + 1)).xOld - (s n).xOld) ∧
      1 ≤ lam ∧ 1 - K / (n + 1) ≤ lam - 1 := by
    intro n
    have hz := (fista_steps (G := fun _ => (0 : E)) (prox := fun y _ => y + d) (f := regularObj p q 4) rfl rfl x0
      β 1 v n).2
    rw [← hs] at hz
    have hsq := Real.sqrt_nonneg q
    have hKp : K * p = 2 * (1 + p + Real.sqrt q / 2) := by rw [hK]; field_simp
    cases n with
    | zero =>
      refine ⟨1, hz, le_rfl, ?_⟩
      have h6 : 1 ≤ K := by
        rw [hK, le_div_iff₀ hp]
        linarith
      simp only [Nat.cast_zero, zero_add, div_one, sub_self]
      linarith
    | succ k =>
      refine ⟨lambdaSeq (regularObj p q 4) k, hz, (C37_unbounded p q 4 hp hq le_rfl k).2.2.1, ?_⟩
      rw [lambdaSeq_regular, add_sub_cancel_left]
      have t2 := tSeq_upper p q hp.le hq k
      have t3 := (C37_unbounded p q 4 hp hq le_rfl (k + 1)).1
      set t := tSeq (regularObj p q 4) k with ht
      set t' := tSeq (regularObj p q 4) (k + 1) with ht'
      have hk : (0 : ℝ) ≤ k := Nat.cast_nonneg k
      push_cast at t3 ⊢
      have hkp := mul_nonneg hk hp.le
      have ht'0 : 0 < t' := by linarith
      have h7 : 1 - K * p / 2 / t' ≤ (t - 1) / t' := by
        rw [le_div_iff₀ ht'0, sub_mul, div_mul_cancel₀ _ ht'0.ne', hKp]
        linarith
      have h8 : K * p / 2 / t' ≤ K / (k + 1 + 1) := by
        rw [div_le_div_iff₀ ht'0 (by positivity)]
        have h9 : p / 2 * (k + 1 + 1) ≤ t' := by linarith
        have := mul_le_mul_of_nonneg_left h9 hK0.le
        linarith
      linarith
  have key : ∀ n : ℕ, ∃ a b : ℝ, (s n).xOld = x0 + a • d ∧ (s (n + 1)).xOld = x0 + (a + b) • d ∧
      (s n).zOld = x0 + (a + b - 1) • d ∧ 1 / (1 + K) * (n : ℝ) ^ 2 / 2 ≤ a ∧ 1 / (1 + K) * (n + 1) ≤ b := by
    intro n
    induction n with
    | zero =>
      refine ⟨0, 1, ?_, ?_, ?_, ?_, ?_⟩
      · simp [hs, afterSteps]
      · have h1 := (fista_steps (G := fun _ => (0 : E)) (prox := fun y _ => y + d) (f := regularObj p q 4) rfl rfl x0 β
          1 v 0).1
        rw [← hs] at h1
        rw [h1]
        simp [hs, afterSteps]
      · simp [hs, afterSteps]
      · simp
      · push_cast
        rw [zero_add, mul_one, div_le_one (by positivity)]
        linarith
    | succ n ih =>
      obtain ⟨a, b, h1, h2, h3, h4, h5⟩ := ih
      obtain ⟨hx, -⟩ := fista_steps (G := fun _ => (0 : E)) (prox := fun y _ => y + d) (f := regularObj p q 4) rfl rfl x0
        β 1 v (n + 1)
      rw [← hs] at hx
      obtain ⟨lam, hz, hlb1, hlb⟩ := hlam n
      refine ⟨a + b, (lam - 1) * b + 1, h2, ?_, ?_, ?_, ?_⟩
      · rw [hx, hz, h1, h2]
        simp only [smul_zero, sub_zero]
        module
      · rw [hz, h1, h2]
        module
      · push_cast
        have : 0 ≤ 1 / (1 + K) := by positivity
        nlinarith
      · push_cast
        have hκ : 0 < 1 / (1 + K) := by positivity
        have hκ1 : 1 / (1 + K) * K = 1 - 1 / (1 + K) := by field_simp; ring
        have hb0 : 0 ≤ b := le_trans (by positivity) h5
        have hn1 : (0 : ℝ) < (n : ℝ) + 1 := by positivity
        by_cases hc : (n : ℝ) + 1 ≤ K
        · have h6 := mul_le_mul_of_nonneg_left hc hκ.le
          have h7 := mul_nonneg (sub_nonneg.2 hlb1) hb0
          nlinarith
        · push Not at hc
          have h6 : 0 ≤ 1 - K / (n + 1) := by
            rw [sub_nonneg, div_le_one hn1]
            exact hc.le
          have h7 := mul_le_mul_of_nonneg_right hlb hb0
          have h8 := mul_le_mul_of_nonneg_left h5 h6
          have h9 : (1 - K / (n + 1)) * (1 / (1 + K) * (n + 1)) = 1 / (1 + K) * (n + 1) - 1 / (1 + K) * K := by
            field_simp
          linarith
  obtain ⟨a, b, h1, -, -, h4, -⟩ := key n
  refine ⟨a, ?_, h4⟩
  rw [(hrest n).1, h1]
  module

end

/-! ## The gradient descent class -/

section
variable {ι : Type} [Fintype ι]

/-- C127 for `VanillaGenericGradOpt` (`epoch_size = 1`, constant step `0 < η ≤ 2/L`): gradients and proximity
operators that err by at most `ε` and `δ` move the result of `n` updates by at most `n (ηε + δ)`. -/
theorem C127_vanilla_partial {C : Set (EuclideanSpace ℝ ι)} {F g : EuclideanSpace ℝ ι → ℝ}
    {G G' : EuclideanSpace ℝ ι → EuclideanSpace ℝ ι} {L : ℝ} (prox prox' : (ι → ℝ) → (ι → ℝ) → (ι → ℝ))
    (hg : ConvexOn ℝ C g) (hF : AboveTangents F G) (hS : Smooth F G L) (hL : 0 ≤ L)
    (hp : ExactProx C g fun y b => WithLp.toLp 2 (prox y.ofLp fun _ => b)) (x0 : ι → ℝ) (eta eps : ℝ)
    (st : Option ℝ) (he : 0 < eta) (heL : eta * L ≤ 2) (ε δ : ℝ) (hG : ∀ x, ‖G' x - G x‖ ≤ ε)
    (hP : ∀ y : ι → ℝ, ‖WithLp.toLp 2 (prox' y fun _ => eta) - WithLp.toLp 2 (prox y fun _ => eta)‖ ≤ δ)
    (idxs : List ℕ) :
    ∃ c s t c' s' t', GD.init .vanilla x0 prox (.float eta) (.float eps) none 1 st = .ok (c, s) ∧
      GD.run c (idxs.map fun k => (k, fun x i => (G (WithLp.toLp 2 x)).ofLp i)) s = .ok t ∧
      GD.init .vanilla x0 prox' (.float eta) (.float eps) none 1 st = .ok (c', s') ∧
      GD.run c' (idxs.map fun k => (k, fun x i => (G' (WithLp.toLp 2 x)).ofLp i)) s' = .ok t' ∧
      ‖WithLp.toLp 2 t'.xNew - WithLp.toLp 2 t.xNew‖ ≤ idxs.length * (eta * ε + δ) := by
  obtain ⟨c, s, t, h1, h2, h3⟩ := vanilla_run_eq_fb prox G x0 eta eps st idxs
  obtain ⟨c', s', t', h1', h2', h3'⟩ := vanilla_run_eq_fb prox' G' x0 eta eps st idxs
  refine ⟨c, s, t, c', s', t', h1, h2, h1', h2', ?_⟩
  rw [h3, h3']
  have := C127_approximate_operators_partial
    (prox' := fun y b => WithLp.toLp 2 (prox' y.ofLp fun _ => b)) hg hF hS hL hp (WithLp.toLp 2 x0) (WithLp.toLp 2 x0)
    eta () he heL ε δ idxs.length (fun k _ x _ => ⟨hG x, hP _⟩)
  simpa using this

/-- C128 for `VanillaGenericGradOpt` (`epoch_size = 1`, constant step `0 < η < 2/L`) on real data. -/
theorem C128_vanilla {C : Set (EuclideanSpace ℝ ι)} {F g : EuclideanSpace ℝ ι → ℝ}
    {G : EuclideanSpace ℝ ι → EuclideanSpace ℝ ι} {L μ : ℝ} (prox : (ι → ℝ) → (ι → ℝ) → (ι → ℝ))
    (hg : ConvexOn ℝ C g) (hF : StronglyAbove F G μ) (hμ : 0 < μ) (hS : Smooth F G L) (hμL : μ ≤ L)
    (hp : ExactProx C g fun y b => WithLp.toLp 2 (prox y.ofLp fun _ => b)) (eta : ℝ) (he : 0 < eta)
    (heL : eta * L < 2) :
    max |1 - eta * μ| |1 - eta * L| < 1 ∧ ∃ u, Minimises C (fun u => F u + g u) u ∧
      (∀ v, Minimises C (fun u => F u + g u) v → v = u) ∧
      ∀ (x0 : ι → ℝ) (eps : ℝ) (st : Option ℝ) (idxs : List ℕ),
        ∃ c s t, GD.init .vanilla x0 prox (.float eta) (.float eps) none 1 st = .ok (c, s) ∧
          GD.run c (idxs.map fun k => (k, fun x i => (G (WithLp.toLp 2 x)).ofLp i)) s = .ok t ∧
          ‖WithLp.toLp 2 t.xNew - u‖ ≤ max |1 - eta * μ| |1 - eta * L| ^ idxs.length * ‖WithLp.toLp 2 x0 - u‖ := by
  obtain ⟨hq, u, hu, huniq, h⟩ := C128_forward_backward hg hF hμ hS hμL hp eta he heL
  refine ⟨hq, u, hu, huniq, fun x0 eps st idxs => ?_⟩
  obtain ⟨c, s, t, h1, h2, h3⟩ := vanilla_run_eq_fb prox G x0 eta eps st idxs
  refine ⟨c, s, t, h1, h2, ?_⟩
  rw [h3]
  exact h Unit () (WithLp.toLp 2 x0) idxs.length

/-- C128: the rate cannot be improved: for `F(x) = ½μ‖x‖²` and `g = 0`, where `L = μ`, every update multiplies the
distance by exactly `|1 - βμ|`. -/
theorem C128_rate_attained {E : Type} [NormedAddCommGroup E] [InnerProductSpace ℝ E] {S : Type} (x0 : E) (β μ : ℝ)
    (r : S) (n : ℕ) :
    ‖(afterSteps (fun x => μ • x) (fun y _ => y) (userRules none none) ⟨x0, x0, none, none, β, 1, r⟩ n).xOld - 0‖ =
      max |1 - β * μ| |1 - β * μ| ^ n * ‖x0 - 0‖ := by
  rw [max_self, sub_zero, sub_zero]
  induction n with
  | zero => simp [afterSteps]
  | succ n ih =>
    rw [plain_iterates]
    have e : ∀ x : E, x - β • μ • x = (1 - β * μ) • x := fun x => by module
    rw [e, norm_smul, ih, Real.norm_eq_abs]
    ring

end

/-! ## Non-vacuity -/

theorem sq_strong : StronglyAbove (fun x : ℝ => 1 / 2 * (x - 3) ^ 2) (fun x => x - 3) 1 := by
  intro x u
  simp only [RCLike.inner_apply, conj_trivial, Real.norm_eq_abs, sq_abs]
  simp
  nlinarith [sq_nonneg (u - x)]

/-- The lasso problem `½(x - 3)² + |x|`: a proximity operator computed to within `10⁻³`. -/
example (n : ℕ) := C127_approximate_operators_partial (S := Unit) (G' := fun x : ℝ => x - 3)
  (prox' := fun y b => softR y b + 1 / 1000) abs_convex sq_above sq_smooth zero_le_one softR_exact 7 7 2 () two_pos
  (by norm_num) 0 (1 / 1000) n (fun k _ x _ => by constructor <;> norm_num)

example (n : ℕ) := C127_starting_points_partial (S := Unit) abs_convex sq_above sq_smooth zero_le_one softR_exact 7 8
  (3 / 2) () (by norm_num) (by norm_num) n

example (n : ℕ) := C127_strongly_convex_partial (S := Unit) abs_convex sq_strong one_pos sq_smooth le_rfl softR_exact
  (1 / 2) () (by norm_num) (by norm_num) 2 two_minimises
  (fun k => (afterSteps (fun x : ℝ => x - 3) softR (userRules none none) ⟨7, 7, none, none, 1 / 2, 1, ()⟩ k).xOld) 0
  le_rfl n (fun k _ => by rw [plain_iterates, plain_iterates]; simp [afterSteps])

/-- With step `3/2` the distance to the minimiser `2` at least halves at every update. -/
example (x0 : ℝ) (n : ℕ) : ‖(afterSteps (fun x : ℝ => x - 3) softR (userRules none none)
    ⟨x0, x0, none, none, 3 / 2, 1, ()⟩ n).xOld - 2‖ ≤ (1 / 2) ^ n * ‖x0 - 2‖ := by
  obtain ⟨-, u, -, hu, h⟩ := C128_forward_backward abs_convex sq_strong one_pos sq_smooth le_rfl softR_exact (3 / 2)
    (by norm_num) (by norm_num)
  have h2 := hu 2 two_minimises
  subst h2
  have := h Unit () x0 n
  have e : max |1 - 3 / 2 * (1 : ℝ)| |1 - 3 / 2 * 1| = 1 / 2 := by
    rw [max_self, abs_of_neg (by norm_num)]
    norm_num
  rwa [e] at this

example (n : ℕ) := C128_objective (S := Unit) abs_convex sq_strong one_pos sq_smooth le_rfl softR_exact (1 / 2)
  (by norm_num) (by norm_num) () 2 two_minimises 7 n

/-- Two operators, weights `1/4` and `3/4`, and auxiliary variables that are off by `10⁻³` at the start. -/
example := C127_gen_forward_backward_partial (S := Unit) sq_above sq_smooth one_pos
  [(⟨Set.univ, fun x => |x|, softR, 1/4⟩ : Term ℝ), ⟨Set.univ, fun x => |x|, softR, 3/4⟩]
  (by
    intro t ht
    simp only [List.mem_cons, List.not_mem_nil, or_false] at ht
    rcases ht with rfl | rfl
    · exact ⟨abs_convex, softR_exact, by norm_num⟩
    · exact ⟨abs_convex, softR_exact, by norm_num⟩)
  (by norm_num) 7 1 1 () one_pos one_pos (by norm_num)

example := C127_condat_partial condat_example_ok sq_smooth one_pos (nL := 1) (fun x => by simp)
  ⟨0, 0, 1 / 2, 1 / 2, 1 / 2⟩ (by norm_num) (by norm_num) (by norm_num) (by norm_num) (by norm_num)

/-- The values the original FISTA uses. -/
example := C127_fista_amplifies (E := ℝ) (U := Unit) 1 1 one_pos zero_le_one

/-- `½‖x - v‖²` on vectors with three entries. -/
example (v : EuclideanSpace ℝ (Fin 3)) := C128_vanilla (C := Set.univ)
  (F := fun x : EuclideanSpace ℝ (Fin 3) => 1 / 2 * ‖x - v‖ ^ 2) (g := fun _ => 0) (G := fun x => x - v) (L := 1) (μ := 1)
  (fun y _ => y) (convexOn_const 0 convex_univ)
  (fun x u => by
    have e : u - v = (x - v) + (u - x) := by abel
    simp only
    rw [e, norm_add_sq_real]
    nlinarith [sq_nonneg ‖u - x‖])
  one_pos
  (fun x u => by
    have e : u - v = (x - v) + (u - x) := by abel
    simp only
    rw [e, norm_add_sq_real]
    nlinarith [sq_nonneg ‖u - x‖])
  le_rfl
  (fun y b _ => ⟨Set.mem_univ _, fun u _ => by simp⟩) (1 / 2) (by norm_num) (by norm_num)

end Verif
