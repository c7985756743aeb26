import Verif.Lemmas.ChambolleDossal
import Verif.Props.GradDescent
import Verif.Props.GenForwardBackward
import Verif.Props.PrimalDual
import Mathlib.Analysis.Normed.Module.FiniteDimension
import Mathlib.Analysis.InnerProductSpace.PiL2

/-!
# C116–C120: convergence of the iterates of the splitting algorithms

Finite-dimensional real inner-product spaces, constant parameters.
-/

set_option linter.unusedSectionVars false

namespace Verif
open FB Spec RealInnerProductSpace Topology

section
variable {E : Type} [NormedAddCommGroup E] [InnerProductSpace ℝ E] {S : Type}

/-- Firm non-expansiveness of the proximity operator. -/
theorem prox_firm {C : Set E} {g : E → ℝ} (hg : ConvexOn ℝ C g) {β : ℝ} (hβ : 0 ≤ β)
    {x y p q : E} (hp : IsProxOn C (fun u => β * g u) x p) (hq : IsProxOn C (fun u => β * g u) y q) :
    ‖p - q‖ ^ 2 ≤ ⟪p - q, x - y⟫ := by
  have h1 := hp.variational hg hβ hq.1
  have h2 := hq.variational hg hβ hp.1
  have e : ⟪x - p, q - p⟫ + ⟪y - q, p - q⟫ = ‖p - q‖ ^ 2 - ⟪p - q, x - y⟫ := by
    rw [← real_inner_self_eq_norm_sq]
    have e1 : q - p = -(p - q) := by abel
    have e2 : y - q = (x - p) + (p - q) - (x - y) := by abel
    rw [e1, e2, inner_neg_right, inner_sub_left (x - p + (p - q)), inner_add_left, real_inner_comm (x - y)]; ring
  nlinarith

theorem exactProx_continuous {C : Set E} {g : E → ℝ} {prox : E → ℝ → E} (hg : ConvexOn ℝ C g)
    (hp : ExactProx C g prox) {b : ℝ} (hb : 0 < b) : Continuous fun y => prox y b := by
  refine LipschitzWith.continuous (K := 1) (LipschitzWith.of_dist_le_mul fun x y => ?_)
  rw [dist_eq_norm, dist_eq_norm, NNReal.coe_one, one_mul]
  exact (hp x b hb).nonexpansive hg hb.le (hp y b hb)

theorem smooth_grad_continuous {F : E → ℝ} {G : E → E} {L : ℝ} (hF : AboveTangents F G) (hS : Smooth F G L)
    (hL : 0 < L) : Continuous G := by
  refine LipschitzWith.continuous (K := L.toNNReal) (LipschitzWith.of_dist_le_mul fun x y => ?_)
  rw [dist_eq_norm, dist_eq_norm, Real.coe_toNNReal _ hL.le]
  have h1 := cocoercive hF hS hL x y
  have h2 := real_inner_le_norm (G x - G y) (x - y)
  have h3 : ‖G x - G y‖ ^ 2 ≤ L * (‖G x - G y‖ * ‖x - y‖) := by
    have := mul_le_mul_of_nonneg_left (h1.trans h2) hL.le
    rwa [← mul_assoc, mul_one_div_cancel hL.ne', one_mul] at this
  by_contra hc
  push Not at hc
  have hpos : 0 < ‖G x - G y‖ := lt_of_le_of_lt (mul_nonneg hL.le (norm_nonneg _)) hc
  nlinarith [mul_lt_mul_of_pos_left hc hpos]

/-! ## C116 -/

/-- `x` satisfies the optimality condition of `F + ∑ gᵢ` with a splitting: there are subgradients `vᵢ` of
`gᵢ` (constrained to its domain) at `x` with `∇F(x) + ∑ vᵢ = 0`. -/
def SplitOptimal (G : E → E) (ts : List (Term E)) (x : E) : Prop :=
  ∃ vs : List E, vs.length = ts.length ∧ G x + vs.sum = 0 ∧
    ∀ p ∈ ts.zip vs, x ∈ p.1.C ∧ ∀ u ∈ p.1.C, p.1.g x + ⟪p.2, u - x⟫ ≤ p.1.g u

/-- The weighted mean of auxiliary variables. -/
noncomputable def gMean (ts : List (Term E)) (z : Fin ts.length → E) : E := ∑ i, ts[i].w • z i

/-- The proximity operators' values in one update. -/
noncomputable def gProx (G : E → E) (gamma : ℝ) (ts : List (Term E)) (z : Fin ts.length → E)
    (i : Fin ts.length) : E :=
  ts[i].prox ((2 : ℝ) • gMean ts z - z i - gamma • G (gMean ts z)) (gamma / ts[i].w)

theorem genZ_ofFn (x g : E) (gamma lam : ℝ) : ∀ (ts : List (Term E)) (z : Fin ts.length → E),
    genZ x g gamma lam (ts.map (·.prox)) (List.ofFn z) (ts.map (·.w)) =
      List.ofFn fun i => z i + lam • (ts[i].prox ((2 : ℝ) • x - z i - gamma • g) (gamma / ts[i].w) - x)
  | [], z => by simp [genZ]
  | t :: ts, z => by
    have ih := genZ_ofFn x g gamma lam ts (fun i => z i.succ)
    rw [List.ofFn_succ, List.ofFn_succ]
    simp only [List.map_cons, genZ]
    rw [ih]
    rfl

theorem mean_ofFn : ∀ (ts : List (Term E)) (z : Fin ts.length → E),
    (List.zipWith (fun z w => (w : ℝ) • z) (List.ofFn z) (ts.map (·.w))).sum = gMean ts z
  | [], z => by simp [gMean]
  | t :: ts, z => by
    have ih := mean_ofFn ts (fun i => z i.succ)
    rw [List.ofFn_succ]
    simp only [List.map_cons, List.zipWith_cons_cons, List.sum_cons, ih]
    simp only [gMean]
    exact (Fin.sum_univ_succ (n := ts.length) fun i => (t :: ts)[i].w • z i).symm

theorem weights_sum (ts : List (Term E)) : (ts.map (·.w)).sum = ∑ i : Fin ts.length, ts[i].w := by
  induction ts with
  | nil => simp
  | cons t ts ih =>
    rw [List.map_cons, List.sum_cons, ih]
    exact (Fin.sum_univ_succ (n := ts.length) fun i => (t :: ts)[i].w).symm

/-- One update brings the auxiliary variables closer to every fixed point, in the weighted norm. -/
theorem gen_fejer {F : E → ℝ} {G : E → E} {L : ℝ} (hF : AboveTangents F G) (hS : Smooth F G L) (hL : 0 < L)
    (ts : List (Term E)) (hok : ∀ t ∈ ts, t.Ok) (hw : (ts.map (·.w)).sum = 1) (gamma lam : ℝ) (hg : 0 < gamma)
    (hl : 0 < lam) (z z' : Fin ts.length → E) (hz' : ∀ i, gProx G gamma ts z' i = gMean ts z') :
    ∑ i, ts[i].w * ‖z i + lam • (gProx G gamma ts z i - gMean ts z) - z' i‖ ^ 2
      + lam * (2 - gamma * L / 2 - lam) * ∑ i, ts[i].w * ‖gProx G gamma ts z i - gMean ts z‖ ^ 2
      ≤ ∑ i, ts[i].w * ‖z i - z' i‖ ^ 2 := by
  set x := gMean ts z with hx
  set x' := gMean ts z' with hx'
  have hco := cocoercive hF hS hL x x'
  set d := G x - G x' with hd
  have key : ∀ i, ⟪z i - z' i, gProx G gamma ts z i - x⟫
      ≤ -(1 - gamma * L / 4) * ‖gProx G gamma ts z i - x‖ ^ 2 + (‖x - x'‖ ^ 2 - ⟪z i - z' i, x - x'⟫) := by
    intro i
    have ht := hok _ (List.getElem_mem i.2)
    have hb : 0 < gamma / ts[i].w := div_pos hg ht.pos
    have hf := prox_firm ht.convex hb.le
      (ht.exact ((2 : ℝ) • x - z i - gamma • G x) _ hb) (ht.exact ((2 : ℝ) • x' - z' i - gamma • G x') _ hb)
    have e1 : ts[(i : ℕ)].prox ((2 : ℝ) • x' - z' i - gamma • G x') (gamma / ts[(i : ℕ)].w) = x' := hz' i
    have e2 : ts[(i : ℕ)].prox ((2 : ℝ) • x - z i - gamma • G x) (gamma / ts[(i : ℕ)].w) = gProx G gamma ts z i := rfl
    simp only [Fin.getElem_fin] at hf
    rw [e1, e2] at hf
    set p := gProx G gamma ts z i with hp
    set r := p - x with hr
    set a := x - x' with ha
    set b := z i - z' i with hbz
    have e3 : p - x' = r + a := by rw [hr, ha]; abel
    have e4 : (2 : ℝ) • x - z i - gamma • G x - ((2 : ℝ) • x' - z' i - gamma • G x') = (2 : ℝ) • a - b - gamma • d := by
      rw [ha, hbz, hd]; module
    clear_value a b d r
    rw [e3, e4, norm_add_sq_real, inner_sub_right, inner_sub_right, real_inner_smul_right, real_inner_smul_right,
      inner_add_left, inner_add_left, inner_add_left, real_inner_self_eq_norm_sq, real_inner_comm b r,
      real_inner_comm b a, real_inner_comm d a] at hf
    have hcs : -(‖d‖ * ‖r‖) ≤ ⟪r, d⟫ := by
      have := abs_real_inner_le_norm r d
      rw [mul_comm] at this
      exact (abs_le.1 this).1
    have hyoung : ‖d‖ * ‖r‖ ≤ 1 / L * ‖d‖ ^ 2 + L / 4 * ‖r‖ ^ 2 := by
      have h6 : 0 ≤ 1 / L * (‖d‖ - L / 2 * ‖r‖) ^ 2 := by positivity
      have h7 : 1 / L * (‖d‖ - L / 2 * ‖r‖) ^ 2 = 1 / L * ‖d‖ ^ 2 - ‖d‖ * ‖r‖ + L / 4 * ‖r‖ ^ 2 := by
        field_simp
        ring
      linarith
    have hgr : -(L / 4 * ‖r‖ ^ 2) ≤ ⟪r, d⟫ + ⟪d, a⟫ := by linarith
    have hgr2 := mul_le_mul_of_nonneg_left hgr hg.le
    nlinarith
  have hpos : ∀ i : Fin ts.length, 0 ≤ ts[i].w := fun i => (hok _ (List.getElem_mem i.2)).pos.le
  have hw1 : ∑ i : Fin ts.length, ts[i].w = 1 := by rw [← weights_sum]; exact hw
  have hmean : ∑ i, ts[i].w * (‖x - x'‖ ^ 2 - ⟪z i - z' i, x - x'⟫) = 0 := by
    have e : ∀ i, ts[i].w * (‖x - x'‖ ^ 2 - ⟪z i - z' i, x - x'⟫)
        = ts[i].w * ‖x - x'‖ ^ 2 - (⟪ts[i].w • z i, x - x'⟫ - ⟪ts[i].w • z' i, x - x'⟫) := by
      intro i
      rw [real_inner_smul_left, real_inner_smul_left, inner_sub_left]
      ring
    rw [Finset.sum_congr rfl fun i _ => e i, Finset.sum_sub_distrib, Finset.sum_sub_distrib, ← Finset.sum_mul, hw1,
      ← sum_inner, ← sum_inner]
    have e1 : ∑ i, ts[i].w • z i = x := rfl
    have e2 : ∑ i, ts[i].w • z' i = x' := rfl
    rw [e1, e2, ← inner_sub_left, real_inner_self_eq_norm_sq]
    ring
  have hpt : ∀ i, ts[i].w * ‖z i + lam • (gProx G gamma ts z i - x) - z' i‖ ^ 2
      + lam * (2 - gamma * L / 2 - lam) * (ts[i].w * ‖gProx G gamma ts z i - x‖ ^ 2)
      ≤ ts[i].w * ‖z i - z' i‖ ^ 2 + 2 * lam * (ts[i].w * (‖x - x'‖ ^ 2 - ⟪z i - z' i, x - x'⟫)) := by
    intro i
    have e : z i + lam • (gProx G gamma ts z i - x) - z' i = (z i - z' i) + lam • (gProx G gamma ts z i - x) := by abel
    rw [e, norm_add_sq_real, real_inner_smul_right, norm_smul, mul_pow, Real.norm_eq_abs, sq_abs]
    have h1 := mul_le_mul_of_nonneg_left (key i) (mul_nonneg (mul_nonneg two_pos.le hl.le) (hpos i))
    nlinarith
  have hsum := Finset.sum_le_sum fun i (_ : i ∈ Finset.univ) => hpt i
  rw [Finset.sum_add_distrib, Finset.sum_add_distrib, ← Finset.mul_sum, ← Finset.mul_sum, hmean] at hsum
  linarith

end

section
variable {E : Type} [NormedAddCommGroup E] [InnerProductSpace ℝ E] [FiniteDimensional ℝ E] {S : Type}

/-- C116: in finite dimension, with constant parameters `γ > 0` and `0 < λ < 2 - γL/2`, the solutions of
`GenForwardBackward` converge to a minimiser of `F + ∑ gᵢ`, from every starting point, whenever some point
satisfies the (split) optimality condition. -/
theorem C116_genforwardbackward_converges {F : E → ℝ} {G : E → E} {L : ℝ} (hF : AboveTangents F G)
    (hS : Smooth F G L) (hL : 0 < L) (ts : List (Term E)) (hok : ∀ t ∈ ts, t.Ok)
    (hw : (ts.map (·.w)).sum = 1) (hopt : ∃ x, SplitOptimal G ts x) (x0 : E) (gamma lam : ℝ) (r : S)
    (hg : 0 < gamma) (hl : 0 < lam) (hc : lam < 2 - gamma * L / 2) :
    ∃ x, Minimises (feasible ts) (fun u => F u + sumG ts u) x ∧
      Filter.Tendsto (fun n => (genAfter G (ts.map (·.prox)) (ts.map (·.w)) none none
        (genInit x0 ts.length gamma lam r) n).xOld) Filter.atTop (𝓝 x) := by
  set s := fun n => genAfter G (ts.map (·.prox)) (ts.map (·.w)) none none (genInit x0 ts.length gamma lam r) n with hs
  -- the auxiliary variables as a function
  have hform : ∃ z : ℕ → Fin ts.length → E, (∀ n, (s n).z = List.ofFn (z n) ∧ (s n).xOld = gMean ts (z n) ∧
      (s n).gamma = gamma ∧ (s n).lam = lam) ∧
      ∀ n, z (n + 1) = fun i => z n i + lam • (gProx G gamma ts (z n) i - gMean ts (z n)) := by
    let z : ℕ → Fin ts.length → E := fun n => Nat.rec (fun _ => x0)
      (fun _ z i => z i + lam • (gProx G gamma ts z i - gMean ts z)) n
    refine ⟨z, fun n => ?_, fun n => rfl⟩
    induction n with
    | zero =>
      have h1 : (s 0).z = List.ofFn (z 0) := by
        show List.replicate ts.length x0 = List.ofFn fun _ => x0
        rw [List.ofFn_const]
      refine ⟨h1, ?_, rfl, rfl⟩
      have h2 := (C47_mean_invariant G ts hw none none x0 gamma lam r 0).2
      rw [← mean_ofFn, ← h1]
      exact h2
    | succ n ih =>
      obtain ⟨i1, i2, i3, i4⟩ := ih
      have e : s (n + 1) = genStep G (ts.map (·.prox)) (ts.map (·.w)) none none (s n) := rfl
      have hz : (s (n + 1)).z = List.ofFn (z (n + 1)) := by
        rw [e]
        show genZ (s n).xOld (G (s n).xOld) (s n).gamma (s n).lam _ (s n).z _ = _
        rw [i1, i2, i3, i4, genZ_ofFn]
        rfl
      refine ⟨hz, ?_, ?_, ?_⟩
      · rw [← mean_ofFn, ← hz, e]
        rfl
      · rw [e]; exact i3
      · rw [e]; exact i4
  obtain ⟨z, hz, hstep⟩ := hform
  have hpos : ∀ i : Fin ts.length, 0 < ts[i].w := fun i => (hok _ (List.getElem_mem i.2)).pos
  have hGc := smooth_grad_continuous hF hS hL
  have hmc : Continuous (gMean ts) := by
    unfold gMean
    exact continuous_finsetSum _ fun i _ => (continuous_apply i).const_smul _
  have hpc : ∀ i, Continuous fun z => gProx G gamma ts z i := by
    intro i
    have ht := hok _ (List.getElem_mem i.2)
    have h1 := exactProx_continuous ht.convex ht.exact (div_pos hg ht.pos)
    exact h1.comp (((hmc.const_smul (2 : ℝ)).sub (continuous_apply i)).sub ((hGc.comp hmc).const_smul gamma))
  obtain ⟨cw, hcw, hcwi⟩ : ∃ c : ℝ, 0 < c ∧ ∀ i : Fin ts.length, c ≤ ts[i].w := by
    have hne : ts ≠ [] := by rintro rfl; simp at hw
    have hne' : (Finset.univ : Finset (Fin ts.length)).Nonempty :=
      ⟨⟨0, List.length_pos_iff.2 hne⟩, Finset.mem_univ _⟩
    refine ⟨Finset.univ.inf' hne' fun i => ts[i].w, ?_, fun i => Finset.inf'_le _ (Finset.mem_univ i)⟩
    rw [Finset.lt_inf'_iff]
    exact fun i _ => hpos i
  have hco : ∀ y p : Fin ts.length → E, cw * dist y p ^ 2 ≤ ∑ i, ts[i].w * ‖y i - p i‖ ^ 2 := by
    intro y p
    have h0 : ∀ i : Fin ts.length, 0 ≤ ts[i].w * ‖y i - p i‖ ^ 2 := fun i =>
      mul_nonneg (hpos i).le (sq_nonneg _)
    have h1 : dist y p ≤ Real.sqrt ((∑ i, ts[i].w * ‖y i - p i‖ ^ 2) / cw) := by
      rw [dist_pi_le_iff (Real.sqrt_nonneg _)]
      intro i
      apply Real.le_sqrt_of_sq_le
      rw [le_div_iff₀ hcw, dist_eq_norm]
      calc ‖y i - p i‖ ^ 2 * cw ≤ ‖y i - p i‖ ^ 2 * ts[i].w :=
            mul_le_mul_of_nonneg_left (hcwi i) (sq_nonneg _)
        _ = ts[i].w * ‖y i - p i‖ ^ 2 := mul_comm _ _
        _ ≤ _ := Finset.single_le_sum (fun i _ => h0 i) (Finset.mem_univ i)
    have h2 := pow_le_pow_left₀ dist_nonneg h1 2
    rw [Real.sq_sqrt (div_nonneg (Finset.sum_nonneg fun i _ => h0 i) hcw.le), le_div_iff₀ hcw] at h2
    linarith
  have hk : 0 < lam * (2 - gamma * L / 2 - lam) := mul_pos hl (by linarith)
  have hFixMin : ∀ y : Fin ts.length → E, (∀ i, gProx G gamma ts y i = gMean ts y) →
      Minimises (feasible ts) (fun u => F u + sumG ts u) (gMean ts y) := by
    intro y hy
    let st : GenSt S E := ⟨gMean ts y, List.ofFn y, gamma, lam, r⟩
    refine C47_fixed_points_minimise hF ts hok hw none none st hg hl.ne' (by simp [st]) ?_ ?_
    · exact (mean_ofFn ts y).symm
    · show genZ (gMean ts y) (G (gMean ts y)) gamma lam _ (List.ofFn y) _ = List.ofFn y
      rw [genZ_ofFn]
      congr 1
      funext i
      have := hy i
      simp only [gProx] at this
      rw [this, sub_self, smul_zero, add_zero]
  have hexist : ∃ y : Fin ts.length → E, ∀ i, gProx G gamma ts y i = gMean ts y := by
    obtain ⟨x, vs, hlen, hsum, hv⟩ := hopt
    have hfst : (ts.zip vs).map Prod.fst = ts := List.map_fst_zip (by omega)
    have hm1 : (ts.zip vs).map (fun p => p.1.prox) = ts.map (·.prox) := by
      have := congrArg (List.map fun t : Term E => t.prox) hfst
      rwa [List.map_map] at this
    have hm2 : (ts.zip vs).map (fun p => p.1.w) = ts.map (·.w) := by
      have := congrArg (List.map fun t : Term E => t.w) hfst
      rwa [List.map_map] at this
    have hfixed := C47_minimisers_are_fixed (G := G) (ts.zip vs) (fun p hp => hok _ (List.of_mem_zip hp).1)
      (by rw [hm2]; exact hw)
      x (fun p hp => (hv p hp).1) (fun p hp => (hv p hp).2)
      (by rw [List.map_snd_zip (by omega)]; exact hsum) gamma lam hg hl.ne' r
    simp only at hfixed
    rw [hm1, hm2] at hfixed
    set zl := (ts.zip vs).map fun t => x - gamma • G x - (gamma / t.1.w) • t.2 with hzl
    have hzlen : zl.length = ts.length := by simp [hzl, hlen]
    let y : Fin ts.length → E := fun i => zl[(i : ℕ)]'(by rw [hzlen]; exact i.2)
    have hy : List.ofFn y = zl := by
      apply List.ext_getElem (by simp [hzlen])
      intro i h1 h2
      simp [y]
    have hzx : genZ x (G x) gamma lam (ts.map (·.prox)) zl (ts.map (·.w)) = zl := congrArg GenSt.z hfixed
    have hmx : (List.zipWith (fun z w => (w : ℝ) • z) zl (ts.map (·.w))).sum = x := by
      have := congrArg GenSt.xOld hfixed
      simp only [genStep] at this
      rwa [hzx] at this
    rw [← hy, mean_ofFn] at hmx
    refine ⟨y, fun i => ?_⟩
    rw [← hy, genZ_ofFn] at hzx
    have h3 := congrFun (List.ofFn_injective hzx) i
    simp only [gProx]
    rw [hmx]
    have h4 := add_eq_left.1 h3
    rcases smul_eq_zero.1 h4 with h5 | h5
    · exact absurd h5 hl.ne'
    · exact sub_eq_zero.1 h5
  obtain ⟨q, hq, hlim⟩ := fejer_converges z (fun y p => ∑ i, ts[i].w * ‖y i - p i‖ ^ 2)
    (fun y => lam * (2 - gamma * L / 2 - lam) * ∑ i, ts[i].w * ‖gProx G gamma ts y i - gMean ts y‖ ^ 2)
    (fun y => ∀ i, gProx G gamma ts y i = gMean ts y)
    (fun p => by simp)
    (fun p => continuous_finsetSum _ fun i _ =>
      (((continuous_apply i).sub continuous_const).norm.pow 2).const_smul ts[i].w)
    hcw hco
    (continuous_const.mul (continuous_finsetSum _ fun i _ =>
      (((hpc i).sub hmc).norm.pow 2).const_smul ts[i].w))
    (fun y => mul_nonneg hk.le (Finset.sum_nonneg fun i _ => mul_nonneg (hpos i).le (sq_nonneg _)))
    (fun y hy i => by
      rcases mul_eq_zero.1 hy with h0 | h0
      · exact absurd h0 hk.ne'
      · rw [Finset.sum_eq_zero_iff_of_nonneg fun i _ => mul_nonneg (hpos i).le (sq_nonneg _)] at h0
        have := h0 i (Finset.mem_univ i)
        rcases mul_eq_zero.1 this with h1 | h1
        · exact absurd h1 (hpos i).ne'
        · exact sub_eq_zero.1 (norm_eq_zero.1 (pow_eq_zero_iff two_ne_zero |>.1 h1)))
    (fun n p hp => by
      have := gen_fejer hF hS hL ts hok hw gamma lam hg hl (z n) p hp
      rw [hstep n]
      exact this)
    hexist
  refine ⟨gMean ts q, hFixMin q hq, ?_⟩
  have := (hmc.tendsto q).comp hlim
  refine this.congr fun n => ?_
  exact (hz n).2.1.symm


/-! ## C117 -/

omit [FiniteDimensional ℝ E] in
/-- Convexity and the quadratic upper models already give differentiability. -/
theorem hasFDerivAt_of_models {F : E → ℝ} {G : E → E} {L : ℝ} (hF : AboveTangents F G) (hS : Smooth F G L)
    (hL : 0 < L) (x : E) : HasFDerivAt F (innerSL ℝ (G x)) x := by
  refine HasFDerivAt.of_isLittleO ?_
  rw [Asymptotics.isLittleO_iff]
  intro c hc
  have hev : ∀ᶠ u in 𝓝 x, dist u x < 2 * c / L := Metric.ball_mem_nhds x (by positivity)
  refine hev.mono fun u hu => ?_
  rw [dist_eq_norm] at hu
  have h1 := hF x u
  have h2 := hS x u
  rw [innerSL_apply_apply, Real.norm_of_nonneg (by linarith)]
  have h3 : L / 2 * ‖u - x‖ ^ 2 ≤ c * ‖u - x‖ := by
    have h4 : L / 2 * ‖u - x‖ ≤ c := by
      rw [lt_div_iff₀ hL] at hu
      linarith
    nlinarith [mul_le_mul_of_nonneg_right h4 (norm_nonneg (u - x))]
  linarith

/-- C117: in finite dimension, without acceleration and parameter updates (relaxation 1), with any step
`0 < β < 2/L` the iterates of `ForwardBackward` converge to a minimiser of `F + g`, from every starting point,
whenever a minimiser exists; and every run that returns normally after enough updates, whatever its
observers, metrics and cost object, returns an `x_final` as close to it as wanted. -/
theorem C117_forwardbackward_converges {C : Set E} {F g : E → ℝ} {G : E → E} {prox : E → ℝ → E} {L : ℝ}
    (hg : ConvexOn ℝ C g) (hF : AboveTangents F G) (hS : Smooth F G L) (hL : 0 < L) (hp : ExactProx C g prox)
    (hex : ∃ x, Minimises C (fun u => F u + g u) x) (x0 : E) (β : ℝ) (r : S) (hb : 0 < β) (hbL : β * L < 2) :
    ∃ x, Minimises C (fun u => F u + g u) x ∧
      Filter.Tendsto (fun n => (afterSteps G prox (userRules none none) ⟨x0, x0, none, none, β, 1, r⟩ n).xOld)
        Filter.atTop (𝓝 x) ∧
      ∀ ε > 0, ∃ N, ∀ (M K : Type) (A : Surroundings S E M K) (m : ℕ) (o : Loop.Obj (FB.St S E) M K),
        (fbRun G prox (userRules none none) A m ⟨x0, x0, none, none, β, 1, r⟩).result = .ok o →
        N ≤ (Loop.updates (fbRun G prox (userRules none none) A m ⟨x0, x0, none, none, β, 1, r⟩).trace).length →
        ∃ xf, xFinal o.x = .ok xf ∧ ‖xf - x‖ < ε := by
  set t : Term E := ⟨C, g, prox, 1⟩ with ht
  have hok : ∀ t' ∈ [t], t'.Ok := by
    intro t' h
    rw [List.mem_singleton] at h
    subst h
    exact ⟨hg, hp, one_pos⟩
  have hsplit : ∃ x, SplitOptimal G [t] x := by
    obtain ⟨x, hx⟩ := hex
    refine ⟨x, [-G x], rfl, by simp, ?_⟩
    intro p hpm
    simp only [List.zip_cons_cons, List.zip_nil_right, List.mem_singleton] at hpm
    subst hpm
    refine ⟨hx.1, fun u hu => ?_⟩
    have := hx.first_order hg (hasFDerivAt_of_models hF hS hL x) hu
    simp only [ht, inner_neg_left]
    linarith
  obtain ⟨x, hmin, hlim⟩ := C116_genforwardbackward_converges (S := S) hF hS hL [t] hok (by simp [ht]) hsplit x0 β 1 r
    hb one_pos (by linarith)
  have hlim' : Filter.Tendsto (fun n => (afterSteps G prox (userRules none none) ⟨x0, x0, none, none, β, 1, r⟩ n).xOld)
      Filter.atTop (𝓝 x) := hlim.congr fun n => C47_single_operator G prox x0 β r n
  have hmin' : Minimises C (fun u => F u + g u) x := by
    refine ⟨hmin.1 t List.mem_cons_self, fun u hu => ?_⟩
    have hu' : u ∈ feasible [t] := by
      intro t' h
      rw [List.mem_singleton] at h
      subst h
      exact hu
    have := hmin.2 u hu'
    simpa [sumG, ht] using this
  refine ⟨x, hmin', hlim', fun ε hε => ?_⟩
  obtain ⟨N, hN⟩ := Filter.eventually_atTop.1 (Metric.tendsto_nhds.1 hlim' ε hε)
  refine ⟨N + 1, fun M K A m o ho hn => ?_⟩
  obtain ⟨-, -, h3⟩ := fbRun_state ho
  set n := (Loop.updates (fbRun G prox (userRules none none) A m ⟨x0, x0, none, none, β, 1, r⟩).trace).length
  obtain ⟨k, hk⟩ : ∃ k, n = k + 1 := ⟨n - 1, by omega⟩
  have hlam : ∀ k, (afterSteps G prox (userRules none none) ⟨x0, x0, none, none, β, 1, r⟩ k).lam = 1 := by
    intro k
    induction k with
    | zero => rfl
    | succ k ih => simpa [afterSteps, FB.step, userRules, applyUpd] using ih
  have hdist := hN n (by omega)
  rw [dist_eq_norm] at hdist
  refine ⟨_, ?_, hdist⟩
  rw [h3, hk]
  simp only [afterSteps]
  have hl := hlam k
  generalize afterSteps G prox (userRules none none) ⟨x0, x0, none, none, β, 1, r⟩ k = s at hl
  simp [xFinal, FB.step, userRules, hl]

end

/-! ## C118 -/

section
open Condat
variable {E H : Type} [NormedAddCommGroup E] [InnerProductSpace ℝ E] [FiniteDimensional ℝ E]
  [NormedAddCommGroup H] [InnerProductSpace ℝ H] [FiniteDimensional ℝ H]

/-- Under the strict step-size condition the metric controls the norm, even after the smoothness term has
been taken out. -/
theorem condatNorm_coercive (O : Ops E H) (sigma tau Lf nL : ℝ) (hs : 0 < sigma)
    (hn : ∀ x, ‖O.op x‖ ≤ nL * ‖x‖) (hc : Lf / 2 < 1 / tau - sigma * nL ^ 2) :
    ∃ c : ℝ, 0 < c ∧ ∀ (x : E) (y : H), c * (‖x‖ ^ 2 + ‖y‖ ^ 2)
      ≤ condatNorm O sigma tau x y - Lf / 2 * ‖x‖ ^ 2 := by
  set δ := 1 / tau - sigma * nL ^ 2 - Lf / 2 with hδ
  have hδ0 : 0 < δ := by linarith
  set k := sigma * nL ^ 2 + δ / 2 with hk
  have hk0 : 0 < k := by positivity
  set e := δ / 2 / (sigma * k) with he
  have he0 : 0 < e := by positivity
  refine ⟨min (δ / 2) e, lt_min (by positivity) he0, fun x y => ?_⟩
  have h1 : ⟪O.op x, y⟫ ≤ nL * ‖x‖ * ‖y‖ := (real_inner_le_norm _ _).trans
    (mul_le_mul_of_nonneg_right (hn x) (norm_nonneg _))
  have h2 : 2 * (nL * ‖x‖ * ‖y‖) ≤ k * ‖x‖ ^ 2 + nL ^ 2 / k * ‖y‖ ^ 2 := by
    have h3 : 0 ≤ 1 / k * (k * ‖x‖ - nL * ‖y‖) ^ 2 := by positivity
    have h4 : 1 / k * (k * ‖x‖ - nL * ‖y‖) ^ 2
        = k * ‖x‖ ^ 2 - 2 * (nL * ‖x‖ * ‖y‖) + nL ^ 2 / k * ‖y‖ ^ 2 := by
      field_simp
      ring
    linarith
  have h5 : 1 / sigma - nL ^ 2 / k = e := by
    rw [he, hk]
    rw [hk] at hk0
    field_simp
    ring
  have h6 : min (δ / 2) e * ‖x‖ ^ 2 ≤ δ / 2 * ‖x‖ ^ 2 := mul_le_mul_of_nonneg_right (min_le_left _ _) (sq_nonneg _)
  have h7 : min (δ / 2) e * ‖y‖ ^ 2 ≤ e * ‖y‖ ^ 2 := mul_le_mul_of_nonneg_right (min_le_right _ _) (sq_nonneg _)
  have h8 : 1 / tau * ‖x‖ ^ 2 = (δ / 2 + k + Lf / 2) * ‖x‖ ^ 2 := by rw [hk, hδ]; ring
  have h9 : 1 / sigma * ‖y‖ ^ 2 = (e + nL ^ 2 / k) * ‖y‖ ^ 2 := by rw [← h5]; ring
  simp only [condatNorm]
  rw [h8, h9]
  nlinarith

/-- C118: in finite dimension, with constant parameters, `0 < ρ < 2` and `(2 - ρ)(1/τ - σ‖L‖²) > L_F/2` (which for
`ρ ≤ 1` follows from the usual `1/τ - σ‖L‖² > L_F/2`), the primal and dual iterates of `Condat` converge to a saddle point of `F + (1/τ)·g + h ∘ L` (hence the primal iterates
to a minimiser), from every starting point, whenever a saddle point exists. -/
theorem C118_condat_converges {C : Set E} {D : Set H} {F g : E → ℝ} {h : H → ℝ} {O : Ops E H} {Lf nL : ℝ}
    (ok : CondatOk C D F g h O) (hS : Smooth F O.grad Lf) (hLf : 0 < Lf) (hn : ∀ x, ‖O.op x‖ ≤ nL * ‖x‖)
    (s : Condat.St E H) (hs : 0 < s.sigma) (ht : 0 < s.tau) (hr0 : 0 < s.rho) (hr2 : s.rho < 2)
    (hc : Lf / 2 < (2 - s.rho) * (1 / s.tau - s.sigma * nL ^ 2))
    (hex : ∃ x y, IsSaddle C D F (fun u => 1 / s.tau * g u) h O.op x y) :
    ∃ x y, IsSaddle C D F (fun u => 1 / s.tau * g u) h O.op x y ∧
      Minimises {u | u ∈ C ∧ O.op u ∈ D} (fun u => F u + 1 / s.tau * g u + h (O.op u)) x ∧
      Filter.Tendsto (fun n => (condatAfter O ⟨none, none, none⟩ s n).x) Filter.atTop (𝓝 x) ∧
      Filter.Tendsto (fun n => (condatAfter O ⟨none, none, none⟩ s n).y) Filter.atTop (𝓝 y) := by
  have hr : 0 < 2 - s.rho := by linarith
  obtain ⟨c, hc0, hco'⟩ := condatNorm_coercive O s.sigma s.tau (Lf / (2 - s.rho)) nL hs hn
    (by rw [div_div, mul_comm (2 - s.rho), ← div_div, div_lt_iff₀ hr]; linarith)
  have hco : ∀ x y, (2 - s.rho) * c * (‖x‖ ^ 2 + ‖y‖ ^ 2)
      ≤ (2 - s.rho) * condatNorm O s.sigma s.tau x y - Lf / 2 * ‖x‖ ^ 2 := fun x y => by
    have h1 := mul_le_mul_of_nonneg_left (hco' x y) hr.le
    have e : (2 - s.rho) * (Lf / (2 - s.rho) / 2 * ‖x‖ ^ 2) = Lf / 2 * ‖x‖ ^ 2 := by field_simp
    rw [mul_sub, e] at h1
    linarith
  have hc1 : 0 < (2 - s.rho) * c := mul_pos hr hc0
  have hm : ∀ x y, Lf / 2 * ‖x‖ ^ 2 ≤ (2 - s.rho) * condatNorm O s.sigma s.tau x y := fun x y => by
    have := hco x y
    have : 0 ≤ (2 - s.rho) * c * (‖x‖ ^ 2 + ‖y‖ ^ 2) := by positivity
    linarith
  have hopc : Continuous O.op := by
    refine LipschitzWith.continuous (K := nL.toNNReal) (LipschitzWith.of_dist_le_mul fun x y => ?_)
    rw [dist_eq_norm, dist_eq_norm, ← ok.op_sub]
    refine (hn _).trans (mul_le_mul_of_nonneg_right (Real.le_coe_toNNReal nL) (norm_nonneg _))
  have hadjc : Continuous O.adj := by
    refine LipschitzWith.continuous (K := nL.toNNReal) (LipschitzWith.of_dist_le_mul fun x y => ?_)
    rw [dist_eq_norm, dist_eq_norm]
    have hsub : O.adj x - O.adj y = O.adj (x - y) := by
      apply ext_inner_left ℝ
      intro v
      rw [inner_sub_right, ← ok.adjoint, ← ok.adjoint, ← ok.adjoint, inner_sub_right]
    rw [hsub]
    set v := O.adj (x - y) with hv
    have h1 : ‖v‖ ^ 2 = ⟪O.op v, x - y⟫ := by rw [ok.adjoint, ← hv, real_inner_self_eq_norm_sq]
    have h2 : ⟪O.op v, x - y⟫ ≤ nL.toNNReal * ‖v‖ * ‖x - y‖ :=
      (real_inner_le_norm _ _).trans (mul_le_mul_of_nonneg_right ((hn v).trans
        (mul_le_mul_of_nonneg_right (Real.le_coe_toNNReal nL) (norm_nonneg _))) (norm_nonneg _))
    by_contra hcc
    push Not at hcc
    have hpos : 0 < ‖v‖ := lt_of_le_of_lt (mul_nonneg (NNReal.coe_nonneg _) (norm_nonneg _)) hcc
    nlinarith [mul_lt_mul_of_pos_left hcc hpos]
  have hGc := smooth_grad_continuous ok.tangents hS hLf
  let stOf : E × H → Condat.St E H := fun p => ⟨p.1, p.2, s.rho, s.sigma, s.tau⟩
  have hσ : 0 < 1 / s.sigma := by positivity
  have hhalf1 : Continuous fun p : E × H => (half O (stOf p)).1 := by
    have h1 := exactProx_continuous ok.convexG ok.prox one_pos
    exact h1.comp ((continuous_fst.sub ((hGc.comp continuous_fst).const_smul s.tau)).sub
      ((hadjc.comp continuous_snd).const_smul s.tau))
  have hhalf2 : Continuous fun p : E × H => (half O (stOf p)).2 := by
    have h1 := exactProx_continuous ok.convexH ok.proxDual hσ
    have h2 : Continuous fun p : E × H => p.2 + s.sigma • O.op ((2 : ℝ) • (half O (stOf p)).1 - p.1) :=
      continuous_snd.add ((hopc.comp ((hhalf1.const_smul (2 : ℝ)).sub continuous_fst)).const_smul s.sigma)
    exact h2.sub ((h1.comp (h2.const_smul (1 / s.sigma))).const_smul s.sigma)
  have hnormc : ∀ {X : Type} [TopologicalSpace X] {a : X → E} {b : X → H}, Continuous a → Continuous b →
      Continuous fun t => condatNorm O s.sigma s.tau (a t) (b t) := by
    intro X _ a b ha hb
    exact ((continuous_const.mul (ha.norm.pow 2)).sub (continuous_const.mul ((hopc.comp ha).inner hb))).add
      (continuous_const.mul (hb.norm.pow 2))
  have hpar : ∀ k, condatAfter O ⟨none, none, none⟩ s k =
      stOf ((condatAfter O ⟨none, none, none⟩ s k).x, (condatAfter O ⟨none, none, none⟩ s k).y) := by
    intro k
    induction k with
    | zero => rfl
    | succ k ih =>
      have h1 := congrArg Condat.St.rho ih
      have h2 := congrArg Condat.St.sigma ih
      have h3 := congrArg Condat.St.tau ih
      simp only [stOf] at h1 h2 h3
      simp only [condatAfter, Condat.step, app, stOf, h1, h2, h3]
  have hop0 : O.op 0 = 0 := by
    have := ok.op_sub 0 0
    rw [sub_self] at this
    rw [this]
    exact sub_self _
  obtain ⟨q, hq, hlim⟩ := fejer_converges
    (fun n => ((condatAfter O ⟨none, none, none⟩ s n).x, (condatAfter O ⟨none, none, none⟩ s n).y))
    (fun y p => condatNorm O s.sigma s.tau (y.1 - p.1) (y.2 - p.2))
    (fun p => s.rho * ((2 - s.rho) * condatNorm O s.sigma s.tau (p.1 - (half O (stOf p)).1) (p.2 - (half O (stOf p)).2)
      - Lf / 2 * ‖p.1 - (half O (stOf p)).1‖ ^ 2))
    (fun p => IsSaddle C D F (fun u => 1 / s.tau * g u) h O.op p.1 p.2)
    (fun p => by simp [condatNorm, hop0])
    (fun p => hnormc (continuous_fst.sub continuous_const) (continuous_snd.sub continuous_const))
    (c := c) hc0
    (fun y p => by
      have h1 := hco' (y.1 - p.1) (y.2 - p.2)
      have h2 : dist y p ^ 2 ≤ ‖y.1 - p.1‖ ^ 2 + ‖y.2 - p.2‖ ^ 2 := by
        rw [Prod.dist_eq, dist_eq_norm, dist_eq_norm]
        rcases max_cases ‖y.1 - p.1‖ ‖y.2 - p.2‖ with ⟨hh, -⟩ | ⟨hh, -⟩ <;> rw [hh]
        · linarith [sq_nonneg ‖y.2 - p.2‖]
        · linarith [sq_nonneg ‖y.1 - p.1‖]
      have h3 := mul_le_mul_of_nonneg_left h2 hc0.le
      have h4 : 0 ≤ Lf / (2 - s.rho) / 2 * ‖y.1 - p.1‖ ^ 2 := by positivity
      linarith)
    (continuous_const.mul ((continuous_const.mul (hnormc (continuous_fst.sub hhalf1) (continuous_snd.sub hhalf2))).sub
      (continuous_const.mul ((continuous_fst.sub hhalf1).norm.pow 2))))
    (fun p => mul_nonneg hr0.le (by linarith [hm (p.1 - (half O (stOf p)).1) (p.2 - (half O (stOf p)).2)]))
    (fun p hp => by
      rcases mul_eq_zero.1 hp with h0 | h0
      · exact absurd h0 hr0.ne'
      · have h1 := hco (p.1 - (half O (stOf p)).1) (p.2 - (half O (stOf p)).2)
        rw [h0] at h1
        have h2 : ‖p.1 - (half O (stOf p)).1‖ ^ 2 + ‖p.2 - (half O (stOf p)).2‖ ^ 2 ≤ 0 := by
          by_contra hcc
          push Not at hcc
          linarith [mul_pos hc1 hcc]
        have h3 : ‖p.1 - (half O (stOf p)).1‖ = 0 := by
          nlinarith [sq_nonneg ‖p.1 - (half O (stOf p)).1‖, sq_nonneg ‖p.2 - (half O (stOf p)).2‖,
            norm_nonneg (p.1 - (half O (stOf p)).1)]
        have h4 : ‖p.2 - (half O (stOf p)).2‖ = 0 := by
          nlinarith [sq_nonneg ‖p.1 - (half O (stOf p)).1‖, sq_nonneg ‖p.2 - (half O (stOf p)).2‖,
            norm_nonneg (p.2 - (half O (stOf p)).2)]
        have e1 := sub_eq_zero.1 (norm_eq_zero.1 h3)
        have e2 := sub_eq_zero.1 (norm_eq_zero.1 h4)
        refine (C49_fixed_iff_saddle ok ⟨none, none, none⟩ (stOf p) hr0.ne' hs ht).1 ⟨?_, ?_⟩
        · simp only [Condat.step]
          rw [← e1]
          simp only [stOf]
          module
        · simp only [Condat.step]
          rw [← e2]
          simp only [stOf]
          module)
    (fun n p hp => by
      have h1 := C79_condat_fejer ok hS hLf ⟨none, none, none⟩ (stOf ((condatAfter O ⟨none, none, none⟩ s n).x,
        (condatAfter O ⟨none, none, none⟩ s n).y)) hs ht hr0.le hp
      rw [← hpar n] at h1
      have e := hpar n
      have h2 := congrArg Condat.St.rho e
      have h3 := congrArg Condat.St.sigma e
      have h4 := congrArg Condat.St.tau e
      simp only [stOf] at h2 h3 h4
      rw [h2, h3, h4] at h1
      simp only
      rw [← hpar n]
      exact h1)
    (by obtain ⟨x, y, hxy⟩ := hex; exact ⟨(x, y), hxy⟩)
  refine ⟨q.1, q.2, hq, hq.minimises, ?_, ?_⟩
  · exact (continuous_fst.tendsto q).comp hlim
  · exact (continuous_snd.tendsto q).comp hlim

end

/-! ## C119 -/

section
open Fista
variable {E : Type} [NormedAddCommGroup E] [InnerProductSpace ℝ E] [FiniteDimensional ℝ E] {U : Type}

omit [FiniteDimensional ℝ E] in
theorem fb_map_fixed {C : Set E} {F g : E → ℝ} {G : E → E} {prox : E → ℝ → E} (hg : ConvexOn ℝ C g)
    (hF : AboveTangents F G) (hp : ExactProx C g prox) {β : ℝ} (hb : 0 < β) (q : E)
    (hq : prox (q - β • G q) β = q) : Minimises C (fun u => F u + g u) q := by
  have hpr := hp (q - β • G q) β hb
  rw [hq] at hpr
  apply minimises_of_first_order hF hpr.1
  intro u hu
  have := hpr.variational hg hb.le hu
  have e : q - β • G q - q = -(β • G q) := by abel
  rw [e, inner_neg_left, real_inner_smul_left] at this
  have h2 : β * (g q - g u) ≤ β * ⟪G q, u - q⟫ := by linarith
  exact le_of_mul_le_mul_left h2 hb

/-- C119: in finite dimension, with Chambolle-Dossal acceleration (`a_cd = a > 2`), no restart strategy, any
initial relaxation and `0 < β ≤ 1/L`, the iterates of `ForwardBackward` converge to a minimiser of `F + g`
from every starting point, whenever a minimiser exists (not only their objective values); and every run that
returns normally after enough updates returns an `x_final` as close to it as wanted. -/
theorem C119_chambolle_dossal_converges {C : Set E} {F g : E → ℝ} {G : E → E} {prox : E → ℝ → E} {L : ℝ}
    (hg : ConvexOn ℝ C g) (hF : AboveTangents F G) (hS : Smooth F G L) (hL : 0 < L) (hp : ExactProx C g prox)
    (hex : ∃ x, Minimises C (fun u => F u + g u) x) (a : ℝ) (ha : 2 < a) (x0 : E) (β lam : ℝ) (v : U)
    (hb : 0 < β) (hbL : β * L ≤ 1) :
    ∃ x, Minimises C (fun u => F u + g u) x ∧
      Filter.Tendsto (fun n => (afterSteps G prox fistaRules ⟨x0, x0, none, none, β, lam, (cdObj a, v)⟩ n).xOld)
        Filter.atTop (𝓝 x) ∧
      ∀ ε > 0, ∃ N, ∀ (M K : Type) (A : Surroundings (Fista.Obj × U) E M K) (m : ℕ)
        (o : Loop.Obj (FB.St (Fista.Obj × U) E) M K),
        (fbRun G prox fistaRules A m ⟨x0, x0, none, none, β, lam, (cdObj a, v)⟩).result = .ok o →
        N ≤ (Loop.updates (fbRun G prox fistaRules A m
          ⟨x0, x0, none, none, β, lam, (cdObj a, v)⟩).trace).length →
        ∃ xf, xFinal o.x = .ok xf ∧ ‖xf - x‖ < ε := by
  have ha0 : 0 < a := by linarith
  have hst := fista_steps (G := G) (prox := prox) (f := cdObj a) rfl rfl x0 β lam v
  set s := afterSteps G prox (fistaRules (U := U)) ⟨x0, x0, none, none, β, lam, (cdObj a, v)⟩ with hsdef
  have hTc : Continuous fun z => prox (z - β • G z) β :=
    (exactProx_continuous hg hp hb).comp
      (continuous_id.sub ((smooth_grad_continuous hF hS hL).const_smul β))
  have htv : ∀ k : ℕ, tSeq (cdObj a) (k + 2) = (k + a) / a := by
    intro k; rw [(C39_closed_form a (k + 1)).1]; push_cast; congr 1; ring
  have hzk : ∀ k : ℕ, (s (k + 1 + 3)).zOld = (s (k + 1 + 3)).xOld
      + (((k + a) / a - 1) / (((k + 1 : ℕ) + a) / a)) • ((s (k + 1 + 3)).xOld - (s (k + 3)).xOld) := by
    intro k
    have h5 := (hst (k + 3)).2
    simp only at h5 ⊢
    rw [show k + 1 + 3 = k + 3 + 1 by ring, h5, (C39_closed_form a (k + 2)).2]
    rw [show k + 2 + 1 = (k + 1) + 2 by ring, htv, htv]
    module
  obtain ⟨q, hq, hlim⟩ := cd_converges hg hF hS hb hbL (fun z => prox (z - β • G z) β) hTc
    (fun z => hp _ _ hb) (fun q hq => fb_map_fixed hg hF hp hb q hq) hex
    (fun k => (s (k + 3)).xOld) (fun k => (s (k + 3)).zOld) a ha
    (fun k => (hst (k + 3)).1) hzk
  have hx : Filter.Tendsto (fun n => (s n).xOld) Filter.atTop (𝓝 q) :=
    (Filter.tendsto_add_atTop_iff_nat (f := fun n => (s n).xOld) 3).1 hlim
  have hz : Filter.Tendsto (fun n => (s n).zOld) Filter.atTop (𝓝 q) := by
    rw [← Filter.tendsto_add_atTop_iff_nat 4]
    have hd : Filter.Tendsto (fun k => (s (k + 1 + 3)).xOld - (s (k + 3)).xOld) Filter.atTop (𝓝 0) := by
      have := (hlim.comp (Filter.tendsto_add_atTop_nat 1)).sub hlim
      rwa [sub_self] at this
    have h1 : Filter.Tendsto (fun k : ℕ => (((k + a) / a - 1) / (((k + 1 : ℕ) + a) / a))
        • ((s (k + 1 + 3)).xOld - (s (k + 3)).xOld)) Filter.atTop (𝓝 0) := by
      rw [tendsto_zero_iff_norm_tendsto_zero]
      refine squeeze_zero (fun n => norm_nonneg _) (fun n => ?_) (tendsto_zero_iff_norm_tendsto_zero.1 hd)
      rw [norm_smul]
      refine mul_le_of_le_one_left (norm_nonneg _) ?_
      have hn0 : (0 : ℝ) ≤ n := Nat.cast_nonneg n
      have e1 : ((n : ℝ) + a) / a - 1 = n / a := by field_simp; ring
      rw [e1, Real.norm_of_nonneg (by positivity), div_le_one (by positivity)]
      push_cast
      exact div_le_div_of_nonneg_right (by linarith) ha0.le
    have h2 := (hlim.comp (Filter.tendsto_add_atTop_nat 1)).add h1
    rw [add_zero] at h2
    refine h2.congr fun k => ?_
    simp only [Function.comp_apply]
    rw [← hzk k]
  refine ⟨q, hq, hx, fun ε hε => ?_⟩
  obtain ⟨N, hN⟩ := Filter.eventually_atTop.1 (Metric.tendsto_nhds.1 hz ε hε)
  refine ⟨N + 1, fun M K A m o ho hn => ?_⟩
  obtain ⟨-, -, h3⟩ := fbRun_state ho
  set n := (Loop.updates (fbRun G prox fistaRules A m ⟨x0, x0, none, none, β, lam, (cdObj a, v)⟩).trace).length
  obtain ⟨k, hk⟩ : ∃ k, n = k + 1 := ⟨n - 1, by omega⟩
  have hdist := hN n (by omega)
  rw [dist_eq_norm] at hdist
  refine ⟨_, ?_, hdist⟩
  rw [h3, hk]
  simp only [hsdef, afterSteps, xFinal]
  rw [(step_xNew _ _ _ _).2]

end

/-! ## C120 -/

section
open GD
variable {ι : Type} [Fintype ι]

/-- On real data, `VanillaGenericGradOpt` with `epoch_size = 1` and a constant step runs the iteration of
`ForwardBackward` without acceleration. -/
theorem vanilla_run_eq_fb (prox : (ι → ℝ) → (ι → ℝ) → (ι → ℝ)) (G : EuclideanSpace ℝ ι → EuclideanSpace ℝ ι)
    (x0 : ι → ℝ) (eta eps : ℝ) (st : Option ℝ) (idxs : List ℕ) :
    ∃ c s t, GD.init .vanilla x0 prox (.float eta) (.float eps) none 1 st = .ok (c, s) ∧
      run c (idxs.map fun k => (k, fun x i => (G (WithLp.toLp 2 x)).ofLp i)) s = .ok t ∧
      WithLp.toLp 2 t.xNew = (afterSteps G (fun y b => WithLp.toLp 2 (prox y.ofLp fun _ => b)) (userRules none none)
        ⟨WithLp.toLp 2 x0, WithLp.toLp 2 x0, none, none, eta, 1, ()⟩ idxs.length).xOld := by
  obtain ⟨c, s, t, h1, h2, h3⟩ := C53_vanilla_recursion x0 prox eta eps none 1 one_ne_zero st
    (idxs.map fun k => (k, fun x i => (G (WithLp.toLp 2 x)).ofLp i))
  refine ⟨c, s, t, h1, h2, ?_⟩
  have inv : ∀ k, (afterSteps G (fun y b => WithLp.toLp 2 (prox y.ofLp fun _ => b)) (userRules none none)
        ⟨WithLp.toLp 2 x0, WithLp.toLp 2 x0, none, none, eta, 1, ()⟩ k).zOld
      = (afterSteps G (fun y b => WithLp.toLp 2 (prox y.ofLp fun _ => b)) (userRules none none)
        ⟨WithLp.toLp 2 x0, WithLp.toLp 2 x0, none, none, eta, 1, ()⟩ k).xOld ∧
      (afterSteps G (fun y b => WithLp.toLp 2 (prox y.ofLp fun _ => b)) (userRules none none)
        ⟨WithLp.toLp 2 x0, WithLp.toLp 2 x0, none, none, eta, 1, ()⟩ k).beta = eta ∧
      (afterSteps G (fun y b => WithLp.toLp 2 (prox y.ofLp fun _ => b)) (userRules none none)
        ⟨WithLp.toLp 2 x0, WithLp.toLp 2 x0, none, none, eta, 1, ()⟩ k).lam = 1 := by
    intro k
    induction k with
    | zero => exact ⟨rfl, rfl, rfl⟩
    | succ k ih =>
      obtain ⟨-, i2, i3⟩ := ih
      simp only [afterSteps]
      generalize afterSteps G (fun y b => WithLp.toLp 2 (prox y.ofLp fun _ => b)) (userRules none none)
        ⟨WithLp.toLp 2 x0, WithLp.toLp 2 x0, none, none, eta, 1, ()⟩ k = r at i2 i3
      refine ⟨?_, ?_, ?_⟩
      · simp [FB.step, userRules, i3]
      · simp [FB.step, userRules, applyUpd, i2]
      · simp [FB.step, userRules, applyUpd, i3]
  have hiter : ∀ k, (afterSteps G (fun y b => WithLp.toLp 2 (prox y.ofLp fun _ => b)) (userRules none none)
        ⟨WithLp.toLp 2 x0, WithLp.toLp 2 x0, none, none, eta, 1, ()⟩ k).xOld
      = (fun z => WithLp.toLp 2 (prox (z - eta • G z).ofLp fun _ => eta))^[k] (WithLp.toLp 2 x0) := by
    intro k
    induction k with
    | zero => rfl
    | succ k ih =>
      obtain ⟨i1, i2, -⟩ := inv k
      rw [Function.iterate_succ_apply', ← ih]
      simp only [afterSteps, FB.step, i1, i2]
  have hrun : ∀ (l : List ℕ) (y : EuclideanSpace ℝ ι),
      WithLp.toLp 2 (proxGrad (fun (x : ι → ℝ) e g i => x i - ((e : ℝ) : ℝ) * g i) (fun x e => prox x fun _ => e)
        (fun e _ => e) 1 (l.map fun k => (k, fun x i => (G (WithLp.toLp 2 x)).ofLp i)) (y.ofLp, eta)).1
      = (fun z => WithLp.toLp 2 (prox (z - eta • G z).ofLp fun _ => eta))^[l.length] y := by
    intro l
    induction l with
    | nil => intro y; rfl
    | cons k l ih =>
      intro y
      simp only [List.map_cons, proxGrad, Nat.mod_one, if_true, List.length_cons, Function.iterate_succ_apply]
      exact ih (WithLp.toLp 2 (prox (y - eta • G y).ofLp fun _ => eta))
  have h4 := congrArg Prod.fst h3
  simp only at h4
  rw [hiter, ← hrun idxs (WithLp.toLp 2 x0), h4]
  rfl

/-- C120: in exact arithmetic, `VanillaGenericGradOpt` on real data with `epoch_size = 1`, a constant step
`0 < η < 2/L` and one convex `L`-smooth gradient converges to a minimiser of `F + g`, from every starting
point, whatever the update indices, whenever a minimiser exists. -/
theorem C120_vanilla_converges {C : Set (EuclideanSpace ℝ ι)} {F g : EuclideanSpace ℝ ι → ℝ}
    {G : EuclideanSpace ℝ ι → EuclideanSpace ℝ ι} {L : ℝ}
    (prox : (ι → ℝ) → (ι → ℝ) → (ι → ℝ)) (hg : ConvexOn ℝ C g) (hF : AboveTangents F G) (hS : Smooth F G L)
    (hL : 0 < L) (hp : ExactProx C g fun y b => WithLp.toLp 2 (prox y.ofLp fun _ => b))
    (hex : ∃ x, Minimises C (fun u => F u + g u) x) (x0 : ι → ℝ) (eta eps : ℝ) (st : Option ℝ)
    (he : 0 < eta) (heL : eta * L < 2) :
    ∃ x, Minimises C (fun u => F u + g u) x ∧ ∀ ε > 0, ∃ N, ∀ idxs : List ℕ, N ≤ idxs.length →
      ∃ c s t, GD.init .vanilla x0 prox (.float eta) (.float eps) none 1 st = .ok (c, s) ∧
        run c (idxs.map fun k => (k, fun x i => (G (WithLp.toLp 2 x)).ofLp i)) s = .ok t ∧
        ‖WithLp.toLp 2 t.xNew - x‖ < ε := by
  obtain ⟨x, hx, hlim, -⟩ := C117_forwardbackward_converges (S := Unit) hg hF hS hL hp hex (WithLp.toLp 2 x0) eta ()
    he heL
  refine ⟨x, hx, fun ε hε => ?_⟩
  obtain ⟨N, hN⟩ := Filter.eventually_atTop.1 (Metric.tendsto_nhds.1 hlim ε hε)
  refine ⟨N, fun idxs hlen => ?_⟩
  obtain ⟨c, s, t, h1, h2, h3⟩ := vanilla_run_eq_fb prox G x0 eta eps st idxs
  refine ⟨c, s, t, h1, h2, ?_⟩
  have hdist := hN idxs.length hlen
  rw [dist_eq_norm] at hdist
  rw [h3]
  exact hdist

/-- C120: `MomentumGradOpt` with `epoch_size = 1` converges under the same conditions, for every `beta`, because its
momentum is reset in every update (C55). -/
theorem C120_momentum_converges {C : Set (EuclideanSpace ℝ ι)} {F g : EuclideanSpace ℝ ι → ℝ}
    {G : EuclideanSpace ℝ ι → EuclideanSpace ℝ ι} {L : ℝ}
    (prox : (ι → ℝ) → (ι → ℝ) → (ι → ℝ)) (hg : ConvexOn ℝ C g) (hF : AboveTangents F G) (hS : Smooth F G L)
    (hL : 0 < L) (hp : ExactProx C g fun y b => WithLp.toLp 2 (prox y.ofLp fun _ => b))
    (hex : ∃ x, Minimises C (fun u => F u + g u) x) (x0 : ι → ℝ) (beta eta eps : ℝ) (st : Option ℝ)
    (he : 0 < eta) (heL : eta * L < 2) :
    ∃ x, Minimises C (fun u => F u + g u) x ∧ ∀ ε > 0, ∃ N, ∀ idxs : List ℕ, N ≤ idxs.length →
      ∃ k c s t, momentumArgs (.float beta) = .ok k ∧
        GD.init k x0 prox (.float eta) (.float eps) none 1 st = .ok (c, s) ∧
        run c (idxs.map fun k => (k, fun x i => (G (WithLp.toLp 2 x)).ofLp i)) s = .ok t ∧
        ‖WithLp.toLp 2 t.xNew - x‖ < ε := by
  obtain ⟨x, hx, h⟩ := C120_vanilla_converges prox hg hF hS hL hp hex x0 eta eps st he heL
  refine ⟨x, hx, fun ε hε => ?_⟩
  obtain ⟨N, hN⟩ := h ε hε
  refine ⟨N, fun idxs hlen => ?_⟩
  obtain ⟨c', s', t', h1, h2, h3⟩ := hN idxs hlen
  obtain ⟨t, t2, h4, h5, h6, -⟩ := C55_momentum_is_vanilla beta x0 prox (.float eta) (.float eps) none st
    (idxs.map fun k => (k, fun x i => (G (WithLp.toLp 2 x)).ofLp i)) _ c' _ s' rfl h1
  rw [h5] at h2
  cases h2
  refine ⟨_, _, _, t, rfl, rfl, h4, ?_⟩
  rw [h6]
  exact h3

end

/-! ## The step-size bound cannot be relaxed -/

/-- C117: the bound `β < 2/L` cannot be weakened: for `F(x) = L/2·x²`, `g = 0` on `ℝ` and `β = 2/L` the
iterates oscillate between `x₀` and `-x₀`. -/
theorem C117_bound_is_sharp (L : ℝ) (hL : 0 < L) (x0 : ℝ) (hx0 : x0 ≠ 0) :
    AboveTangents (fun x : ℝ => L / 2 * x ^ 2) (fun x => L * x) ∧ Smooth (fun x : ℝ => L / 2 * x ^ 2) (fun x => L * x) L ∧
    ExactProx Set.univ (fun _ : ℝ => 0) (fun y _ => y) ∧
    ¬ ∃ x, Filter.Tendsto (fun n => (afterSteps (fun x : ℝ => L * x) (fun y _ => y) (userRules none none)
      (⟨x0, x0, none, none, 2 / L, 1, ()⟩ : FB.St Unit ℝ) n).xOld) Filter.atTop (𝓝 x) := by
  refine ⟨?_, ?_, ?_, ?_⟩
  · intro x u
    simp only [RCLike.inner_apply, conj_trivial]
    nlinarith [mul_nonneg hL.le (sq_nonneg (u - x))]
  · intro x u
    simp only [RCLike.inner_apply, conj_trivial, Real.norm_eq_abs, sq_abs]
    nlinarith [mul_nonneg hL.le (sq_nonneg (u - x))]
  · intro y b _
    refine ⟨Set.mem_univ _, fun u _ => ?_⟩
    have := sq_nonneg (y - u)
    simpa using this
  · rintro ⟨x, hx⟩
    have inv : ∀ n, (afterSteps (fun x : ℝ => L * x) (fun y _ => y) (userRules none none)
        (⟨x0, x0, none, none, 2 / L, 1, ()⟩ : FB.St Unit ℝ) n) =
        (if n = 0 then ⟨x0, x0, none, none, 2 / L, 1, ()⟩ else
          ⟨(-1) ^ n * x0, (-1) ^ n * x0, some ((-1) ^ n * x0), some ((-1) ^ n * x0), 2 / L, 1, ()⟩) := by
      intro n
      induction n with
      | zero => simp [afterSteps]
      | succ n ih =>
        have e : ∀ y : ℝ, y - 2 / L * (L * y) = -y := by intro y; field_simp; ring
        rw [afterSteps, ih]
        by_cases h : n = 0
        · subst h
          simp [FB.step, userRules, applyUpd, e]
        · simp [FB.step, userRules, applyUpd, h, e, pow_succ]
    have hx' : Filter.Tendsto (fun n => (-1 : ℝ) ^ (n + 1) * x0) Filter.atTop (𝓝 x) := by
      refine (hx.comp (Filter.tendsto_add_atTop_nat 1)).congr fun n => ?_
      simp only [Function.comp_apply]
      rw [inv]
      simp
    have h2 : Filter.Tendsto (fun n => (-1 : ℝ) ^ (n + 1 + 1) * x0) Filter.atTop (𝓝 x) :=
      hx'.comp (Filter.tendsto_add_atTop_nat 1)
    have h3 : Filter.Tendsto (fun n => (-1 : ℝ) ^ (n + 1 + 1) * x0) Filter.atTop (𝓝 (-x)) := by
      refine hx'.neg.congr fun n => ?_
      rw [pow_succ (-1 : ℝ) (n + 1)]; ring
    have h4 : x = -x := tendsto_nhds_unique h2 h3
    have h5 : x = 0 := by linarith
    rw [h5] at hx'
    have h6 := hx'.abs
    simp only [abs_mul, abs_pow, abs_neg, abs_one, one_pow, one_mul, abs_zero] at h6
    have h7 := tendsto_nhds_unique h6 tendsto_const_nhds
    exact hx0 (abs_eq_zero.1 h7.symm)

/-! ## Non-vacuity -/

/-- `½(x-3)² + |x| + |x|` with weights `1/4, 3/4`, `γ = 1`, `λ = 1`: the iterates converge to a minimiser. -/
example : ∃ x, Minimises (feasible [(⟨Set.univ, fun x => |x|, softR, 1/4⟩ : Term ℝ), ⟨Set.univ, fun x => |x|, softR, 3/4⟩])
    (fun u => 1 / 2 * (u - 3) ^ 2 + sumG [(⟨Set.univ, fun x => |x|, softR, 1/4⟩ : Term ℝ),
      ⟨Set.univ, fun x => |x|, softR, 3/4⟩] u) x := by
  obtain ⟨x, hx, -⟩ := C116_genforwardbackward_converges (S := Unit) sq_above sq_smooth one_pos
    [(⟨Set.univ, fun x => |x|, softR, 1/4⟩ : Term ℝ), ⟨Set.univ, fun x => |x|, softR, 3/4⟩]
    (by
      intro t ht
      simp only [List.mem_cons, List.not_mem_nil, or_false] at ht
      rcases ht with rfl | rfl
      · exact ⟨abs_convex, softR_exact, by norm_num⟩
      · exact ⟨abs_convex, softR_exact, by norm_num⟩)
    (by norm_num)
    ⟨1, [1, 1], rfl, by norm_num, by
      intro p hp
      simp only [List.zip_cons_cons, List.zip_nil_right, List.mem_cons, List.not_mem_nil, or_false] at hp
      refine ⟨by rcases hp with rfl | rfl <;> exact Set.mem_univ _, fun u _ => ?_⟩
      have := le_abs_self u
      rcases hp with rfl | rfl <;> simp <;> linarith⟩
    7 1 1 () one_pos one_pos (by norm_num)
  exact ⟨x, hx⟩

example := C117_forwardbackward_converges (S := Unit) abs_convex sq_above sq_smooth one_pos softR_exact
  ⟨2, two_minimises⟩ 7 (3 / 2) () (by norm_num) (by norm_num)

example := C118_condat_converges condat_example_ok sq_smooth one_pos (nL := 1) (fun x => by simp)
  ⟨0, 0, 1 / 2, 1 / 2, 1 / 2⟩ (by norm_num) (by norm_num) (by norm_num) (by norm_num) (by norm_num)
  ⟨2, 1, condat_example_saddle _⟩

example := C119_chambolle_dossal_converges (U := Unit) abs_convex sq_above sq_smooth one_pos softR_exact
  ⟨2, two_minimises⟩ 3 (by norm_num) 7 1 1 () one_pos (by norm_num)

/-- `½‖x - v‖²` without a constraint, on vectors with three entries. -/
example (v : EuclideanSpace ℝ (Fin 3)) := C120_vanilla_converges (C := Set.univ)
  (F := fun x : EuclideanSpace ℝ (Fin 3) => 1 / 2 * ‖x - v‖ ^ 2) (g := fun _ => 0) (G := fun x => x - v) (L := 1)
  (fun y _ => y) (convexOn_const 0 convex_univ)
  (fun x u => by
    have e : u - v = (x - v) + (u - x) := by abel
    simp only
    rw [e, norm_add_sq_real]
    nlinarith [sq_nonneg ‖u - x‖])
  (fun x u => by
    have e : u - v = (x - v) + (u - x) := by abel
    simp only
    rw [e, norm_add_sq_real]
    nlinarith [sq_nonneg ‖u - x‖])
  one_pos
  (fun y b _ => ⟨Set.mem_univ _, fun u _ => by simp⟩)
  ⟨v, Set.mem_univ _, fun u _ => by simp⟩ (fun _ => 0) 1 0 none one_pos (by norm_num)

end Verif
