import Verif.Props.Equivariance
import Verif.Props.Proximity
import Verif.Model.Cost

/-!
# C141: the units of the data; C142: restarts couple the images of a stack
-/

namespace Verif
open Linear Prox Noise Eqv
open Cx (Carries CarriesProx)

set_option linter.unusedSectionVars false

/-! ## C141: the algorithms -/

section Units
variable {ι 𝕜 : Type} [Fintype ι] [RCLike 𝕜]

theorem geZero_vdot_scale {s : ℝ} (hs : 0 < s) (a b : ι → 𝕜) :
    Cx.geZero (Cx.vdot (scale s a) (scale s b)) ↔ Cx.geZero (Cx.vdot a b) := by
  rw [Cx.vdot_scale, Cx.geZero_mul (by positivity)]

/-- C141: with the start and the operators in other units, `ForwardBackward` with any fresh FISTA object (momentum
mode and restart strategy) returns the same run in these units: the same step sizes, relaxations and restarts. -/
theorem C141_forwardbackward (s : ℝ) (hs : 0 < s) (G G' : (ι → 𝕜) → ι → 𝕜) (hG : Carries (scale s) (scale s) G G')
    (P P' : (ι → 𝕜) → ℝ → ι → 𝕜) (hP : CarriesProx (scale s) P P') (o : Fista.Obj) (ho : o.delta0 = none)
    (beta lam : ℝ) (x : ι → 𝕜) (n : ℕ) :
    (Cx.fistaAfter G' P' o beta lam (scale s x) n).xNew = (Cx.fistaAfter G P o beta lam x n).xNew.map (scale s) ∧
    (Cx.fistaAfter G' P' o beta lam (scale s x) n).zNew = (Cx.fistaAfter G P o beta lam x n).zNew.map (scale s) ∧
    (Cx.fistaAfter G' P' o beta lam (scale s x) n).beta = (Cx.fistaAfter G P o beta lam x n).beta ∧
    (Cx.fistaAfter G' P' o beta lam (scale s x) n).lam = (Cx.fistaAfter G P o beta lam x n).lam := by
  have e := (Cx.fistaAfter_mapR (Cx.scaleL s) (Cx.blind_scaleObj s) hG hP o (fun f _ z xn xo =>
    Cx.restartWith_scale hs (φ := Cx.scaleL s) (fun a b => map_sub _ a b)
      (ge := fun a b => Cx.geZero (Cx.vdot a b)) (ge' := fun a b => Cx.geZero (Cx.vdot a b))
      (fun a b => geZero_vdot_scale hs a b)
      (fun a => Cx.norm2_scale hs a) f z xn xo) beta lam x n).1
  have e1 : Cx.scaleObj s o = o := by
    rcases o with ⟨m, r, t, t', d, sg⟩
    simp only at ho
    subst ho
    rfl
  rw [e1] at e
  have e' : Cx.fistaAfter G' P' o beta lam (scale s x) n
      = Cx.mapStR (scale s) (fun r => (Cx.scaleObj s r.1, ())) (Cx.fistaAfter G P o beta lam x n) := e
  rw [e']
  exact ⟨rfl, rfl, rfl, rfl⟩

/-- C141 for `POGM`, `GenForwardBackward` and `Condat`. -/
theorem C141_other_algorithms {κ : Type} [Fintype κ] (s : ℝ) (hs : 0 < s) (G G' : (ι → 𝕜) → ι → 𝕜)
    (hG : Carries (scale s) (scale s) G G') (P P' : (ι → 𝕜) → ℝ → ι → 𝕜) (hP : CarriesProx (scale s) P P')
    (Ps Ps' : List ((ι → 𝕜) → ℝ → ι → 𝕜)) (hPs : List.Forall₂ (CarriesProx (scale s)) Ps Ps')
    (D D' : (κ → 𝕜) → ℝ → κ → 𝕜) (hD : CarriesProx (scale s) D D') (L L' : (ι → 𝕜) → κ → 𝕜)
    (hL : Carries (scale s) (scale s) L L') (A A' : (κ → 𝕜) → ι → 𝕜) (hA : Carries (scale s) (scale s) A A')
    (U : Condat.Upd) (w : List ℝ) (a b c : ℝ) (x0 x y z : ι → 𝕜) (v : κ → 𝕜) (n : ℕ) :
    (Cx.pogmAfter G' P' a b (scale s x0) (scale s x) (scale s y) (scale s z) n).xOld
      = scale s (Cx.pogmAfter G P a b x0 x y z n).xOld ∧
    (Cx.genAfter G' Ps' w a b (scale s x) n).xOld = scale s (Cx.genAfter G Ps w a b x n).xOld ∧
    (Cx.condatAfter ⟨G', P', D', L', A'⟩ U a b c (scale s x) (scale s v) n).x
      = scale s (Cx.condatAfter ⟨G, P, D, L, A⟩ U a b c x v n).x ∧
    (Cx.condatAfter ⟨G', P', D', L', A'⟩ U a b c (scale s x) (scale s v) n).y
      = scale s (Cx.condatAfter ⟨G, P, D, L, A⟩ U a b c x v n).y := by
  have e1 : Cx.pogmAfter G' P' a b (scale s x0) (scale s x) (scale s y) (scale s z) n
      = Cx.mapPogm (scale s) (Cx.pogmAfter G P a b x0 x y z n) :=
    Cx.pogmAfter_mapL (Cx.scaleL s) (fun a b => geZero_vdot_scale hs a b) hG hP a b x0 x y z n
  have e2 : Cx.genAfter G' Ps' w a b (scale s x) n = Cx.mapGen (scale s) (Cx.genAfter G Ps w a b x n) :=
    Cx.genAfter_mapL (Cx.scaleL s) hG hPs w a b x n
  have e3 : Cx.condatAfter ⟨G', P', D', L', A'⟩ U a b c (scale s x) (scale s v) n
      = Cx.mapCondat (scale s) (scale s) (Cx.condatAfter ⟨G, P, D, L, A⟩ U a b c x v n) :=
    Cx.condatAfter_mapL (Cx.scaleL s) (Cx.scaleL s) ⟨G, P, D, L, A⟩ ⟨G', P', D', L', A'⟩ hG hP hD hL hA U a b c x v n
  rw [e1, e2, e3]
  exact ⟨rfl, rfl, rfl, rfl⟩

end Units

theorem gd_run_units {ι 𝕜 : Type} [RCLike 𝕜] (s r : ℝ) (hs : 0 < s) (hr0 : 0 < r) (k : GD.Kind)
    (hr : Cx.adaptive k = true → r = s) (hr1 : Cx.adaptive k = false → r = 1) (x : ι → 𝕜)
    (P P' : (ι → 𝕜) → (ι → ℝ) → ι → 𝕜) (hP : CarriesProx (scale s) P P') (eta eps : ℝ)
    (eu eu' : Option (ℝ → ℕ → ℝ)) (heu : Cx.EtaScaled r eu eu') (epoch : ℕ)
    (st : Option ℝ) (h h' : GD.History ι 𝕜)
    (hh : List.Forall₂ (fun p q => q.1 = p.1 ∧ Carries (scale s) (scale s) p.2 q.2) h h') :
    (do let (c, s) ← GD.init k (scale s x) P' (.float (r * eta)) (.float (r * eps)) eu' epoch st
        let t ← GD.run c h' s
        return t.xNew)
      = (do let (c, u) ← GD.init k x P (.float eta) (.float eps) eu epoch st
            let t ← GD.run c h u
            return scale s t.xNew) := by
  have e := Cx.gd_run_mapS (fun i : ι => i) hs hr0
    (⟨k, epoch, GD.initEps k eps, eu, P⟩ : GD.Conf ι 𝕜) (⟨k, epoch, GD.initEps k (r * eps), eu', P'⟩ : GD.Conf ι 𝕜)
    rfl rfl hr (by cases k <;> simp [GD.initEps]) heu (fun v t => hP v t) h h' hh
    ⟨x, x, fun _ => 0, GD.initSpeed k, eta, 1, 1, fun _ _ => 0⟩
  have es : ∀ i : ι, r ^ 2 * GD.initSpeed k i = GD.initSpeed k i := by
    intro i
    cases k <;> simp [GD.initSpeed, Cx.adaptive] at hr1 ⊢ <;> exact Or.inl hr1
  have e0 : Cx.mapGDS (fun i : ι => i) s r (⟨x, x, fun _ => 0, GD.initSpeed k, eta, 1, 1, fun _ _ => 0⟩ : GD.St ι 𝕜)
      = ⟨scale s x, scale s x, fun _ => 0, GD.initSpeed k, r * eta, 1, 1, fun _ _ => 0⟩ := by
    simp only [Cx.mapGDS, mul_zero, es]; rfl
  rw [e0] at e
  simp only [GD.init, GD.checkParam, bind, Except.bind, e, pure, Except.pure]
  cases GD.run (⟨k, epoch, GD.initEps k eps, eu, P⟩ : GD.Conf ι 𝕜) h
    ⟨x, x, fun _ => 0, GD.initSpeed k, eta, 1, 1, fun _ _ => 0⟩ <;> rfl

/-- C141 for the gradient-descent classes that do not divide by an accumulated speed (`GenericGradOpt`,
`VanillaGenericGradOPt`, `MomentumGradOpt`, `SAGAOptGradOpt`): other units of the data change nothing but the units of
the result, over any history of updates and with the same parameters. -/
theorem C141_gradient_descent {ι 𝕜 : Type} [RCLike 𝕜] (s : ℝ) (hs : 0 < s) (k : GD.Kind)
    (hk : k = .generic ∨ k = .vanilla ∨ (∃ b, k = .momentum b) ∨ k = .saga) (x : ι → 𝕜)
    (P P' : (ι → 𝕜) → (ι → ℝ) → ι → 𝕜) (hP : CarriesProx (scale s) P P') (eta eps : ℝ)
    (eu : Option (ℝ → ℕ → ℝ)) (epoch : ℕ) (st : Option ℝ) (h h' : GD.History ι 𝕜)
    (hh : List.Forall₂ (fun p q => q.1 = p.1 ∧ Carries (scale s) (scale s) p.2 q.2) h h') :
    (do let (c, s) ← GD.init k (scale s x) P' (.float eta) (.float eps) eu epoch st
        let t ← GD.run c h' s
        return t.xNew)
      = (do let (c, u) ← GD.init k x P (.float eta) (.float eps) eu epoch st
            let t ← GD.run c h u
            return scale s t.xNew) := by
  have ha : Cx.adaptive k = false := by rcases hk with rfl | rfl | ⟨b, rfl⟩ | rfl <;> rfl
  have e := gd_run_units s 1 hs one_pos k (by simp [ha]) (fun _ => rfl) x P P' hP eta eps eu eu
    (by cases eu <;> simp [Cx.EtaScaled]) epoch st h h' hh
  simpa only [one_mul] using e

/-- C141 for the classes that divide by an accumulated speed (`AdaGenericGradOpt`, `RMSpropGradOpt`, `ADAMGradOpt`):
their learning rate and `epsilon` have the units of the data, so the result is in the new units when these two are
given in the new units as well. -/
theorem C141_adaptive_gradient_descent {ι 𝕜 : Type} [RCLike 𝕜] (s : ℝ) (hs : 0 < s) (k : GD.Kind)
    (hk : k = .ada ∨ (∃ g, k = .rmsprop g) ∨ ∃ g b, k = .adam g b) (x : ι → 𝕜)
    (P P' : (ι → 𝕜) → (ι → ℝ) → ι → 𝕜) (hP : CarriesProx (scale s) P P') (eta eps : ℝ)
    (epoch : ℕ) (st : Option ℝ) (h h' : GD.History ι 𝕜)
    (hh : List.Forall₂ (fun p q => q.1 = p.1 ∧ Carries (scale s) (scale s) p.2 q.2) h h') :
    (do let (c, u) ← GD.init k (scale s x) P' (.float (s * eta)) (.float (s * eps)) none epoch st
        let t ← GD.run c h' u
        return t.xNew)
      = (do let (c, u) ← GD.init k x P (.float eta) (.float eps) none epoch st
            let t ← GD.run c h u
            return scale s t.xNew) := by
  have ha : Cx.adaptive k = true := by rcases hk with rfl | ⟨g, rfl⟩ | ⟨g, b, rfl⟩ <;> rfl
  exact gd_run_units s s hs hs k (fun _ => rfl) (by simp [ha]) x P P' hP eta eps none none trivial epoch st h h' hh

/-- C141: without that, AdaGrad's result is not in the new units: already the first update of the one-pixel problem
`x ↦ x² / 2` in units twice as small differs, for every learning rate and `epsilon` above zero. -/
theorem C141_adagrad_fixed_rate_fails (eta eps : ℝ) (he : 0 < eta) (hp : 0 < eps) :
    (do let (c, u) ← GD.init .ada (scale (𝕜 := ℝ) 2 fun _ : Unit => 1) (fun v _ => v) (.float eta) (.float eps) none 10 none
        let t ← GD.run c [(1, fun v => v)] u
        return t.xNew)
      ≠ (do let (c, u) ← GD.init .ada (fun _ : Unit => (1 : ℝ)) (fun v _ => v) (.float eta) (.float eps) none 10 none
            let t ← GD.run c [(1, fun v => v)] u
            return scale 2 t.xNew) := by
  intro h
  simp [GD.init, GD.checkParam, GD.run, GD.update, GD.prepare, GD.updateDir, GD.updateSpeed, GD.stepOf, GD.initSpeed,
    GD.initEps, scale, bind, Except.bind, pure, Except.pure] at h
  have h := congrFun h ()
  simp only [scale, RCLike.ofReal_ofNat] at h
  have h5 : (2 : ℝ) + eps ≠ 0 := by positivity
  have h6 : (1 : ℝ) + eps ≠ 0 := by positivity
  field_simp at h
  nlinarith

/-! ## C141: the operators -/

/-- C141: operators that carry a change of units exactly: `MatrixOperator` and its adjoint, the gradient of
`GradBasic` with the data in the new units, hard thresholding with the weights in the new units, `Ridge`, and
`Positivity`. -/
theorem C141_operators {m ι 𝕜 : Type} [Fintype m] [Fintype ι] [RCLike 𝕜] (s : ℝ) (hs : 0 < s) :
    (∀ a : m → ι → 𝕜, Carries (scale s) (scale s) (matOp a) (matOp a)) ∧
    (∀ a : m → ι → 𝕜, Carries (scale s) (scale s) (matAdjOp a) (matAdjOp a)) ∧
    (∀ (a : m → ι → 𝕜) (y : m → 𝕜), Carries (scale s) (scale s) (gradBasic (matOp a) (matAdjOp a) y)
      (gradBasic (matOp a) (matAdjOp a) (scale s y))) ∧
    (∀ (w : ι → ℝ) (x : ι → 𝕜) (c : ℝ),
      sparseOp (fun i => s * w i) "hard" (scale s x) c = (sparseOp w "hard" x c).map (scale s)) ∧
    (∀ w : ι → ℝ, CarriesProx (scale (𝕜 := 𝕜) s) (ridgeOp (fun v => v) w) (ridgeOp (fun v => v) w)) ∧
    (∀ x : ι → ℝ, Positivity.positivityOp (scale s x) = scale s (Positivity.positivityOp x)) := by
  have h1 : ∀ a : m → ι → 𝕜, Carries (scale s) (scale s) (matOp a) (matOp a) := by
    intro a x
    funext i
    simp only [matOp, scale, Finset.mul_sum]
    exact Finset.sum_congr rfl fun j _ => by ring
  have h2 : ∀ a : m → ι → 𝕜, Carries (scale s) (scale s) (matAdjOp a) (matAdjOp a) := by
    intro a x
    funext i
    simp only [matAdjOp, scale]
    split_ifs <;> (rw [Finset.mul_sum]; exact Finset.sum_congr rfl fun j _ => by ring)
  refine ⟨h1, h2, ?_, ?_, ?_, ?_⟩
  · intro a y x
    unfold gradBasic
    rw [h1, ← h2]
    congr 1
    funext i
    simp [scale, mul_sub]
  · intro w x c
    simp only [sparseOp, thresh]
    simp only [List.mem_cons, String.reduceEq, List.not_mem_nil, or_false, not_true_eq_false, if_false, Except.map]
    congr 1
    funext i
    have hn : ‖(s : 𝕜) * x i‖ = s * ‖x i‖ := by rw [norm_mul, RCLike.norm_ofReal, abs_of_pos hs]
    have hi : s * w i * c ≤ s * ‖x i‖ ↔ w i * c ≤ ‖x i‖ := by rw [mul_assoc]; exact mul_le_mul_iff_right₀ hs
    simp only [hardThresh, scale, hn, ge_iff_le, hi]
    ring
  · intro w x c
    funext i
    simp only [ridgeOp, scale]
    ring
  · intro x
    funext i
    have hi : 0 < s * x i ↔ 0 < x i := mul_pos_iff_of_pos_left hs
    by_cases h : 0 < x i
    · have h' := hi.mpr h
      simp [scale, Positivity.positivityOp, Positivity.posThresh, Positivity.finVal, Ext.gtZero, Ext.mulBool, h, h']
    · have h' : ¬ 0 < s * x i := fun q => h (hi.mp q)
      simp [scale, Positivity.positivityOp, Positivity.posThresh, Positivity.finVal, Ext.gtZero, Ext.mulBool, h, h']

theorem softExact_scale {𝕜 : Type} [RCLike 𝕜] {s : ℝ} (hs : 0 < s) (t : ℝ) (x : 𝕜) :
    softExact (s * t) ((s : 𝕜) * x) = (s : 𝕜) * softExact t x := by
  unfold softExact
  rw [norm_mul, RCLike.norm_ofReal, abs_of_pos hs, mul_div_mul_left _ _ hs.ne', RCLike.real_smul_eq_coe_mul,
    RCLike.real_smul_eq_coe_mul]
  ring

theorem thresh_near_softExact {ι 𝕜 : Type} [Fintype ι] [RCLike 𝕜] (x : ι → 𝕜) (t : ι → ℝ) (ht : ∀ i, 0 ≤ t i) :
    ∃ out, thresh x t "soft" = .ok out ∧ ∀ i, ‖out i - softExact (t i) (x i)‖ ≤ 2⁻¹ ^ 52 + 1 / 10 ^ 15 := by
  obtain ⟨out, p, h1, h2, h3⟩ := C27_returned_value_close_to_prox x t ht
  have h4 : Spec.IsUniqueProx (fun u => ∑ i, t i * ‖u i‖) x fun i => softExact (t i) (x i) := by
    apply isUniqueProx_of_coord (fun i v => t i * ‖v‖)
    intro i v
    exact strong_of_subgradient (fun v => t i * ‖v‖) _ _ (shrink_subgradient (t i) (ht i) (x i)) v
  have h5 : p = fun i => softExact (t i) (x i) := h4.2 p h2.1
  refine ⟨out, h1, fun i => ?_⟩
  have := h3 i
  rw [h5] at this
  exact this

/-- C141 (partial): soft thresholding, with the weights in the new units, carries a change of units up to
`(1 + s)(2⁻⁵² + 10⁻¹⁵)` in every entry.  Missing: exact equality, or a bound relative to the units, which
`C141_soft_vanishes` refutes. -/
theorem C141_soft_partial {ι 𝕜 : Type} [Fintype ι] [RCLike 𝕜] (s : ℝ) (hs : 0 < s) (w : ι → ℝ) (x : ι → 𝕜) (c : ℝ)
    (hw : ∀ i, 0 ≤ w i * c) :
    ∃ a b, sparseOp (fun i => s * w i) "soft" (scale s x) c = .ok a ∧ sparseOp w "soft" x c = .ok b ∧
      ∀ i, ‖a i - scale s b i‖ ≤ (1 + s) * (2⁻¹ ^ 52 + 1 / 10 ^ 15) := by
  obtain ⟨b, hb, hb'⟩ := thresh_near_softExact x (fun i => w i * c) hw
  obtain ⟨a, ha, ha'⟩ := thresh_near_softExact (scale s x) (fun i => s * w i * c)
    (fun i => by rw [mul_assoc]; exact mul_nonneg hs.le (hw i))
  refine ⟨a, b, ha, hb, fun i => ?_⟩
  have h1 := ha' i
  have h2 := hb' i
  have e : softExact (s * w i * c) (scale s x i) = (s : 𝕜) * softExact (w i * c) (x i) := by
    rw [mul_assoc]; exact softExact_scale hs _ _
  rw [e] at h1
  have h3 : ‖(s : 𝕜) * (softExact (w i * c) (x i) - b i)‖ ≤ s * (2⁻¹ ^ 52 + 1 / 10 ^ 15) := by
    rw [norm_mul, RCLike.norm_ofReal, abs_of_pos hs, norm_sub_rev]
    exact mul_le_mul_of_nonneg_left h2 hs.le
  calc ‖a i - scale s b i‖ = ‖(a i - (s : 𝕜) * softExact (w i * c) (x i)) + (s : 𝕜) * (softExact (w i * c) (x i) - b i)‖ := by
        congr 1; simp only [scale]; ring
    _ ≤ _ := norm_add_le _ _
    _ ≤ (2⁻¹ ^ 52 + 1 / 10 ^ 15) + s * (2⁻¹ ^ 52 + 1 / 10 ^ 15) := add_le_add h1 h3
    _ = _ := by ring

theorem soft_small_zero {ι 𝕜 : Type} [RCLike 𝕜] (x : ι → 𝕜) (t : ι → ℝ) (ht : ∀ i, 0 ≤ t i)
    (hx : ∀ i, ‖x i‖ ≤ 1 / (2 * 10 ^ 15)) : thresh x t "soft" = .ok fun _ => 0 := by
  have e : thresh x t "soft" = .ok fun i => aroundK 15 (softRaw x t i) := by simp [thresh]
  rw [e]
  congr 1
  funext i
  have hn : ‖softRaw x t i‖ ≤ 1 / (2 * 10 ^ 15) := by
    rw [softRaw_eq_smul, norm_smul, Real.norm_of_nonneg (softFactor_nonneg _ _)]
    calc _ ≤ 1 * ‖x i‖ := mul_le_mul_of_nonneg_right (softFactor_le_one _ _ (ht i)) (norm_nonneg _)
      _ ≤ _ := by rw [one_mul]; exact hx i
  have z : ∀ r : ℝ, |r| ≤ 1 / (2 * 10 ^ 15) → around 15 r = 0 := by
    intro r hr
    rw [around_eq_zero_iff]
    calc |r| * 10 ^ 15 ≤ 1 / (2 * 10 ^ 15) * 10 ^ 15 := mul_le_mul_of_nonneg_right hr (by positivity)
      _ = 1 / 2 := by norm_num
  unfold aroundK
  rw [z _ ((RCLike.abs_re_le_norm _).trans hn), z _ ((RCLike.abs_im_le_norm _).trans hn)]
  simp

/-- C141: soft thresholding does not carry a change of units: whatever the array and the weights, in small enough
units its result is exactly zero, because of the final rounding to fifteen decimals. -/
theorem C141_soft_vanishes {ι 𝕜 : Type} [Fintype ι] [RCLike 𝕜] (w : ι → ℝ) (x : ι → 𝕜) (c : ℝ)
    (hw : ∀ i, 0 ≤ w i * c) :
    ∃ s0 > 0, ∀ s : ℝ, 0 < s → s ≤ s0 →
      sparseOp (fun i => s * w i) "soft" (scale s x) c = .ok fun _ => 0 := by
  refine ⟨1 / (2 * 10 ^ 15 * (1 + ∑ i, ‖x i‖)), by positivity, fun s h0 h1 => ?_⟩
  refine soft_small_zero _ _ (fun i => by rw [mul_assoc]; exact mul_nonneg h0.le (hw i)) fun i => ?_
  have hS : ‖x i‖ ≤ 1 + ∑ i, ‖x i‖ := by
    have := Finset.single_le_sum (f := fun i => ‖x i‖) (fun i _ => norm_nonneg _) (Finset.mem_univ i)
    linarith
  have hp : 0 < 1 + ∑ i, ‖x i‖ := by positivity
  simp only [scale]
  rw [norm_mul, RCLike.norm_ofReal, abs_of_pos h0]
  calc s * ‖x i‖ ≤ 1 / (2 * 10 ^ 15 * (1 + ∑ i, ‖x i‖)) * (1 + ∑ i, ‖x i‖) :=
        mul_le_mul h1 hS (norm_nonneg _) (by positivity)
    _ = 1 / (2 * 10 ^ 15) := by field_simp

/-- C141: `ForwardBackward` on a least-squares problem with `SparseThreshold(weights=w)` (all weights zero included)
started at zero: whatever the matrix, the data and the FISTA object, in small enough units of the data and weights
every iterate is exactly zero. -/
theorem C141_sparse_regression_vanishes {m ι 𝕜 : Type} [Fintype m] [Fintype ι] [RCLike 𝕜] (a : m → ι → 𝕜) (y : m → 𝕜)
    (w : ι → ℝ) (hw : ∀ i, 0 ≤ w i) (beta : ℝ) (hb : 0 ≤ beta) :
    ∃ s0 > 0, ∀ s : ℝ, 0 < s → s ≤ s0 → ∀ (P : (ι → 𝕜) → ℝ → ι → 𝕜),
      (∀ x c, sparseOp (fun i => s * w i) "soft" x c = .ok (P x c)) → ∀ (o : Fista.Obj),
      o.restart = .none → ∀ (lam : ℝ) (n : ℕ),
      (Cx.fistaAfter (gradBasic (matOp a) (matAdjOp a) (scale s y)) P o beta lam (fun _ => 0) n).xOld = fun _ => 0 := by
  obtain ⟨s0, h0, hs0⟩ := C141_soft_vanishes (𝕜 := 𝕜) w (scale (-beta) (gradBasic (matOp a) (matAdjOp a) y (fun _ => 0)))
    beta (fun i => mul_nonneg (hw i) hb)
  refine ⟨s0, h0, fun s hs hs1 P hP o ho lam n => ?_⟩
  have ops := C141_operators (m := m) (ι := ι) (𝕜 := 𝕜) s hs
  have z0 : scale s (fun _ : ι => (0 : 𝕜)) = fun _ => 0 := by funext i; simp [scale]
  have hG : gradBasic (matOp a) (matAdjOp a) (scale s y) (fun _ => 0)
      = scale s (gradBasic (matOp a) (matAdjOp a) y fun _ => 0) := by
    have := ops.2.2.1 a y (fun _ => 0)
    rwa [z0] at this
  have hz : P ((fun _ => 0) - beta • gradBasic (matOp a) (matAdjOp a) (scale s y) (fun _ => 0)) beta = fun _ => 0 := by
    have e : ((fun _ => 0) - beta • gradBasic (matOp a) (matAdjOp a) (scale s y) (fun _ => 0) : ι → 𝕜)
        = scale s (scale (-beta) (gradBasic (matOp a) (matAdjOp a) y fun _ => 0)) := by
      rw [hG]
      funext i
      simp only [Pi.sub_apply, Pi.smul_apply, scale, RCLike.real_smul_eq_coe_mul, RCLike.ofReal_neg]
      ring
    have h := hs0 s hs hs1
    rw [← e, hP] at h
    exact Except.ok.inj h
  have main : (Cx.fistaAfter (gradBasic (matOp a) (matAdjOp a) (scale s y)) P o beta lam (fun _ => 0) n).xOld
        = (fun _ => 0) ∧
      (Cx.fistaAfter (gradBasic (matOp a) (matAdjOp a) (scale s y)) P o beta lam (fun _ => 0) n).zOld = (fun _ => 0) ∧
      (Cx.fistaAfter (gradBasic (matOp a) (matAdjOp a) (scale s y)) P o beta lam (fun _ => 0) n).beta = beta ∧
      (Cx.fistaAfter (gradBasic (matOp a) (matAdjOp a) (scale s y)) P o beta lam (fun _ => 0) n).rules.1.restart = .none
      := by
    induction n with
    | zero => exact ⟨rfl, rfl, rfl, ho⟩
    | succ n ih =>
      obtain ⟨i1, i2, i3, i4⟩ := ih
      have e : Cx.fistaAfter (gradBasic (matOp a) (matAdjOp a) (scale s y)) P o beta lam (fun _ => 0) (n + 1)
          = Cx.fbStep (gradBasic (matOp a) (matAdjOp a) (scale s y)) P Cx.fistaRules
            (Cx.fistaAfter (gradBasic (matOp a) (matAdjOp a) (scale s y)) P o beta lam (fun _ => 0) n) := by
        unfold Cx.fistaAfter; rw [Function.iterate_succ_apply']
      rw [e]
      generalize Cx.fistaAfter (gradBasic (matOp a) (matAdjOp a) (scale s y)) P o beta lam (fun _ => 0) n = q at i1 i2 i3 i4
      refine ⟨?_, ?_, ?_, ?_⟩
      · simp only [Cx.fbStep, i2, i3, hz]
      · simp only [Cx.fbStep, i1, i2, i3, hz]
        split_ifs
        · rfl
        · funext i; simp
      · simp only [Cx.fbStep, Cx.fistaRules, Cx.fistaRulesWith, Cx.restartWith, i4, FB.applyUpd, Fista.updateBeta, i3]
        split_ifs <;> rfl
      · rw [← i4]
        exact Cx.restart_kept' _ _ _ _ _ _
  exact main.1

/-- In the original units the result is not zero: one pixel with the value one. -/
example : ∃ P : (Unit → ℝ) → ℝ → Unit → ℝ, (∀ x c, sparseOp (fun _ => 0) "soft" x c = .ok (P x c)) ∧
    (Cx.fistaAfter (gradBasic (matOp fun _ _ : Unit => (1 : ℝ)) (matAdjOp fun _ _ : Unit => (1 : ℝ)) fun _ => 1) P
      ⟨.regular 1 1 4, .none, 1, 1, none, false⟩ 1 1 (fun _ => 0) 1).xOld = fun _ => 1 := by
  refine ⟨fun x c i => aroundK 15 (softRaw x (fun _ => 0 * c) i), fun x c => by simp [sparseOp, thresh], ?_⟩
  have hs : ∀ r : ℝ, softFactor 0 r = 1 := fun r => by simp [softFactor]
  have h1 : around 15 (1 : ℝ) = 1 := by
    have h := rint_intCast (K := ℝ) (10 ^ 15)
    rw [Int.cast_pow, Int.cast_ofNat] at h
    unfold around
    rw [one_mul, h]
    norm_num
  funext i
  simp [Cx.fistaAfter, Cx.fbStep, gradBasic, matOp, matAdjOp, softRaw, hs, aroundK, h1]

/-- C141: `GroupLASSO` does not carry a change of units either, and in the other direction: whatever the array and
the weights, in small enough units it keeps every non-zero entry, although in the original units it sets every group
with norm at most the weight to zero. -/
theorem C141_groupLASSO_keeps_all {γ κ 𝕜 : Type} [Fintype γ] [Fintype κ] [RCLike 𝕜] (w : κ → ℝ) (x : γ × κ → 𝕜) (c : ℝ)
    (hw : ∀ k, 0 ≤ w k * c) :
    (∃ s0 > 0, ∀ s : ℝ, 0 < s → s ≤ s0 → ∀ i, x i ≠ 0 → groupOp (fun k => s * w k) (scale s x) c i ≠ 0) ∧
    (∀ i, eps32 ≤ normAxis0 x i.2 → normAxis0 x i.2 ≤ w i.2 * c → groupOp w x c i = 0) := by
  have he : 0 < eps32 := by unfold eps32; positivity
  constructor
  · have hS0 : 0 ≤ ∑ k, w k * c := Finset.sum_nonneg fun k _ => hw k
    refine ⟨eps32 / (1 + ∑ k, w k * c), by positivity, fun s h0 h1 i hi => ?_⟩
    have hle : w i.2 * c ≤ ∑ k, w k * c := Finset.single_le_sum (f := fun k => w k * c) (fun k _ => hw k) (Finset.mem_univ _)
    have hd : 0 < max (normAxis0 (scale s x) i.2) eps32 := lt_of_lt_of_le he (le_max_right _ _)
    have hlt : s * w i.2 * c < max (normAxis0 (scale s x) i.2) eps32 := by
      refine lt_of_lt_of_le ?_ (le_max_right _ _)
      have h2 : s * (1 + ∑ k, w k * c) ≤ eps32 := by rwa [le_div_iff₀ (by positivity)] at h1
      nlinarith
    have hf : 0 < 1 - s * w i.2 * c / max (normAxis0 (scale s x) i.2) eps32 := by
      rw [sub_pos, div_lt_one hd]; exact hlt
    unfold groupOp
    refine mul_ne_zero (mul_ne_zero ?_ hi) ?_
    · exact_mod_cast h0.ne'
    · rw [max_eq_right hf.le]
      exact_mod_cast hf.ne'
  · intro i h1 h2
    unfold groupOp
    rw [max_eq_left h1]
    have : 1 - w i.2 * c / normAxis0 x i.2 ≤ 0 := by
      rw [sub_nonpos, le_div_iff₀ (lt_of_lt_of_le he h1)]; linarith
    rw [max_eq_left this]
    simp

/-- There are such groups: one entry of value one and weight two. -/
example : eps32 ≤ normAxis0 (fun _ : Unit × Unit => (1 : ℝ)) () ∧
    normAxis0 (fun _ : Unit × Unit => (1 : ℝ)) () ≤ (2 : ℝ) * 1 ∧ (fun _ : Unit × Unit => (1 : ℝ)) ((), ()) ≠ 0 := by
  have h : normAxis0 (fun _ : Unit × Unit => (1 : ℝ)) () = 1 := by simp [normAxis0]
  rw [h]
  refine ⟨?_, by norm_num, by norm_num⟩
  unfold eps32
  norm_num

/-! ## C141: the convergence test -/

/-- C141: in other units every cost is multiplied by `s ^ 2` (for `GradBasic` with the data in these units, and for
`SparseThreshold` with the weights in these units). -/
theorem C141_costs {E F : Type} [NormedAddCommGroup E] [InnerProductSpace ℝ E] [NormedAddCommGroup F]
    [InnerProductSpace ℝ F] {ι κ 𝕜 : Type} [Fintype κ] [RCLike 𝕜] (s : ℝ) (hs : 0 < s) :
    (∀ (op : E →ₗ[ℝ] F) (y : F) (x : E), gradCost op (s • y) (s • x) = s ^ 2 * gradCost op y x) ∧
    (∀ (L : (ι → 𝕜) → κ → 𝕜) (w : κ → ℝ) (x : ι → 𝕜), Carries (scale s) (scale s) L L →
      sparseCost L (fun k => s * w k) (scale s x) = s ^ 2 * sparseCost L w x) := by
  refine ⟨fun op y x => ?_, fun L w x hL => ?_⟩
  · unfold gradCost
    rw [map_smul, ← smul_sub, norm_smul, Real.norm_of_nonneg hs.le]
    ring
  · have hL' : ∀ x, L (scale s x) = scale s (L x) := hL
    unfold sparseCost
    rw [hL', Finset.mul_sum]
    refine Finset.sum_congr rfl fun k _ => ?_
    simp only [scale, norm_mul, RCLike.norm_ofReal, abs_mul, abs_of_pos hs]
    ring

/-- C141 (partial): the decision of the convergence test over a full window is the same in other units, as long as
in both the mean of the recent costs is above `5e-17`.  Missing: smaller costs, where `C141_test_always_passes`
refutes it. -/
theorem C141_test_partial (q : ℝ) (hq : 0 < q) (t1 t2 : ℝ) (h1 : 1 / (2 * 10 ^ 16) < |t1|)
    (h2 : 1 / (2 * 10 ^ 16) < |q * t1|) :
    Cost.costDiff (some (q * t1)) (some (q * t2)) = Cost.costDiff (some t1) (some t2) := by
  have n1 : around 16 t1 ≠ 0 := by
    rw [Ne, around_eq_zero_iff, not_le]
    calc (1 / 2 : ℝ) = 1 / (2 * 10 ^ 16) * 10 ^ 16 := by norm_num
      _ < _ := mul_lt_mul_of_pos_right h1 (by positivity)
  have n2 : around 16 (q * t1) ≠ 0 := by
    rw [Ne, around_eq_zero_iff, not_le]
    calc (1 / 2 : ℝ) = 1 / (2 * 10 ^ 16) * 10 ^ 16 := by norm_num
      _ < _ := mul_lt_mul_of_pos_right h2 (by positivity)
  simp only [Cost.costDiff, if_pos n1, if_pos n2]
  rw [← mul_sub, abs_mul, abs_mul, mul_div_mul_left _ _ (abs_pos.mpr hq.ne').ne']

/-- C141: whatever costs a run produces, in small enough units every full window passes the test: the run is
stopped as converged. -/
theorem C141_test_always_passes (o : Cost.CostObj ℝ) (hl : ((o.testList ++ [o.cost]).length : ℤ) = o.testRange)
    (ht : 0 ≤ o.tolerance) :
    ∃ q0 > 0, ∀ q : ℝ, 0 < q → q ≤ q0 →
      (Cost.checkCost { o with cost := q * o.cost, testList := o.testList.map (q * ·) }).2 = true := by
  set tl := o.testList ++ [o.cost] with htl
  set d := tl.drop (tl.length / 2) with hd
  have hlen : 0 < tl.length := by simp [htl]
  have hdne : d ≠ [] := by
    rw [hd, Ne, List.drop_eq_nil_iff, not_le]
    omega
  set a := d.sum / (d.length : ℝ) with ha
  refine ⟨1 / (2 * 10 ^ 16 * (1 + |a|)), by positivity, fun q h0 h1 => ?_⟩
  have hm : (o.testList.map (q * ·)) ++ [q * o.cost] = tl.map (q * ·) := by simp [htl]
  have hsum : ((tl.map (q * ·)).drop (tl.length / 2)).sum = q * d.sum := by
    rw [← List.map_drop, ← hd, List.sum_map_mul_left, List.map_id']
  have hz : around 16 (q * a) = 0 := by
    rw [around_eq_zero_iff, abs_mul, abs_of_pos h0]
    have : q * |a| ≤ 1 / (2 * 10 ^ 16 * (1 + |a|)) * (1 + |a|) :=
      mul_le_mul h1 (by linarith) (abs_nonneg _) (by positivity)
    calc q * |a| * 10 ^ 16 ≤ 1 / (2 * 10 ^ 16 * (1 + |a|)) * (1 + |a|) * 10 ^ 16 :=
          mul_le_mul_of_nonneg_right this (by positivity)
      _ = 1 / 2 := by field_simp
  have hmean : Cost.mean ((tl.map (q * ·)).drop (tl.length / 2)) = some (q * a) := by
    have hne : (tl.map (q * ·)).drop (tl.length / 2) ≠ [] := by
      rw [← List.map_drop, ← hd]; simpa using hdne
    unfold Cost.mean
    rw [if_neg hne, hsum]
    congr 1
    rw [← List.map_drop, ← hd, List.length_map, ha]
    ring
  unfold Cost.checkCost
  simp only [hm, List.length_map, hl, if_true]
  rw [hmean]
  simp [Cost.costDiff, hz, ht]

/-- The hypotheses are met by a window of two costs. -/
example : ∃ o : Cost.CostObj ℝ, ((o.testList ++ [o.cost]).length : ℤ) = o.testRange ∧ 0 ≤ o.tolerance ∧
    (Cost.checkCost o).2 = false := by
  refine ⟨⟨1, [], some 1, 1, [2], 2, 0⟩, by norm_num, by norm_num, ?_⟩
  have h1 : around 16 (1 : ℝ) ≠ 0 := by rw [Ne, around_eq_zero_iff]; norm_num
  simp [Cost.checkCost, Cost.mean, Cost.costDiff, h1]
  norm_num

/-! ## C142: restarts -/

/-- C142: a restart strategy couples the images of a stack: two one-pixel least-squares problems without
regularisation, started at one, with step size `3/4`; with the greedy strategy the second pixel after two updates is
`65/128` in the stack and `13/64` alone. -/
theorem C142_restart_couples_images (minBeta sg xi p q r : ℝ) :
    (Cx.fistaAfter (eachImage fun (k : Bool) (v : Unit → ℝ) i => (if k then 1 else 1 / 4) * v i)
      (fun v _ => v) ⟨.regular p q r, .greedy minBeta sg xi, 1, 1, none, false⟩ (3 / 4) 2 (fun _ => 1) 2).zOld (false, ())
        = 65 / 128 ∧
    (Cx.fistaAfter (fun (v : Unit → ℝ) i => (1 / 4) * v i)
      (fun v _ => v) ⟨.regular p q r, .greedy minBeta sg xi, 1, 1, none, false⟩ (3 / 4) 2 (fun _ => 1) 2).zOld ()
        = 13 / 64 := by
  classical
  have hg : ∀ c : ℝ, Cx.geZero c ↔ 0 ≤ c := fun c => geZero_real c
  have hG : (eachImage fun (k : Bool) (v : Unit → ℝ) i => (if k then 1 else 1 / 4) * v i)
      = fun v p => (if p.1 then 1 else 1 / 4) * v p := rfl
  rw [hG]
  constructor
  · simp [Cx.fistaAfter, Cx.fbStep, Cx.fistaRules, Cx.fistaRulesWith, Cx.restartWith, FB.applyUpd, Fista.updateBeta,
      Fista.updateLambda, hg, Cx.vdot, Fintype.sum_prod_type]
    norm_num
  · simp [Cx.fistaAfter, Cx.fbStep, Cx.fistaRules, Cx.fistaRulesWith, Cx.restartWith, FB.applyUpd, Fista.updateBeta,
      Fista.updateLambda, hg, Cx.vdot]
    norm_num

/-- The first `POGM` update from zero for the cost "sum of the entries" without regularisation. -/
theorem pogm_linear_first {ι : Type} [Fintype ι] (beta sb : ℝ) (y : ι → ℝ) [Nonempty ι] :
    let s := Cx.pogmAfter (fun _ _ => (1 : ℝ)) (fun v _ => v) beta sb 0 0 y 0 1
    let phi := 0.5 * (1 + Real.sqrt 5)
    s.uOld = (fun _ => -beta) ∧ s.xOld = (fun _ => -beta - beta / phi) ∧ s.z = s.xOld ∧ s.sigma = 1 ∧
      s.t = if ∑ i, (beta + y i) < 0 then 1 else phi := by
  classical
  intro s phi
  have hlt : ∀ c : ℝ, Cx.ltZero c ↔ c < 0 := fun c => by simp [Cx.ltZero]
  have hs : s = Cx.pogmStep (fun a b => Cx.ltZero (Cx.vdot a b)) (fun _ _ => (1 : ℝ)) (fun v _ => v) beta sb
      ⟨0, 0, y, 0, fun _ => 1, 1, 1, 1⟩ := rfl
  have h5 : (1 : ℝ) + 4 * 1 ^ 2 = 5 := by norm_num
  simp only [Cx.pogmStep, sub_self, zero_div, zero_mul, h5, zero_smul, neg_zero, zero_add, add_zero, smul_zero, one_mul,
    sub_zero, hlt, Cx.vdot] at hs
  have e1 : ∑ i, star ((-fun _ : ι => (1 : ℝ)) i) * ((-(beta • fun _ : ι => (1 : ℝ)) - y) i) = ∑ i, (beta + y i) := by
    refine Finset.sum_congr rfl fun i _ => ?_
    simp
    ring
  have e2 : ¬ ∑ i, star ((fun _ : ι => (1 : ℝ)) i) * ((fun _ : ι => (1 : ℝ)) i) < 0 := by
    simp
  have e1' : (∑ x, (starRingEnd ℝ) ((-fun _ : ι => (1 : ℝ)) x) * ((-(beta • fun _ : ι => (1 : ℝ)) - y) x) < 0)
      = (∑ i, (beta + y i) < 0) := by rw [← e1]; rfl
  have e3 : ¬ ∑ x : ι, (starRingEnd ℝ) (1 : ℝ) * 1 < 0 := e2
  have hx : (-(beta • fun _ : ι => (1 : ℝ)) + (1 / phi) • -(beta • fun _ : ι => (1 : ℝ))) = fun _ => -beta - beta / phi := by
    funext i
    simp [div_eq_mul_inv]
    ring
  have hu : -(beta • fun _ : ι => (1 : ℝ)) = fun _ => -beta := by
    funext i
    simp
  rw [hs]
  split_ifs <;> first | exact absurd ‹_› e3 | refine ⟨hu, hx, rfl, rfl, ?_⟩
  all_goals first | rfl | (exfalso; simp_all only [ not_true_eq_false])

/-- An update of `POGM` for the same cost at a state where `x` is the last point before the proximity operator. -/
theorem pogm_linear_next {ι : Type} (lt : (ι → ℝ) → (ι → ℝ) → Prop) (beta sb : ℝ) (s : FB.Pogm (ι → ℝ))
    (hz : s.z = s.xOld) (hs : s.sigma = 1) (i : ι) :
    let T := 0.5 * (1 + Real.sqrt (1 + 4 * s.t ^ 2))
    (Cx.pogmStep lt (fun _ _ => (1 : ℝ)) (fun v _ => v) beta sb s).xOld i
      = s.xOld i - beta + (s.t - 1) / T * (s.xOld i - beta - s.uOld i) - s.t / T * beta := by
  classical
  intro T
  have h : (Cx.pogmStep lt (fun _ _ => (1 : ℝ)) (fun v _ => v) beta sb s).xOld
      = -(((s.t - 1) / T * beta / s.xi) • (s.xOld - s.z)) + (-(beta • fun _ => (1 : ℝ)) + s.xOld)
        + ((s.t - 1) / T) • ((-(beta • fun _ => (1 : ℝ)) + s.xOld) - s.uOld)
        + (s.sigma * s.t / T) • ((-(beta • fun _ => (1 : ℝ)) + s.xOld) - s.xOld) := by
    simp only [Cx.pogmStep]
    split_ifs <;> rfl
  rw [h, hz, hs]
  simp
  ring

/-- C142: the restart test of `POGM` couples the images of a stack too: two one-pixel problems whose cost is the entry
itself, without regularisation, started at zero with `y = -3 beta` for one of them; the pixel of the other one differs
after two updates from what it is alone, for every step size and every damping. -/
theorem C142_pogm_couples_images (beta sigmaBar : ℝ) (hb : 0 < beta) :
    (Cx.pogmAfter (fun (_ : Unit → ℝ) _ => (1 : ℝ)) (fun v _ => v) beta sigmaBar 0 0 (fun _ => 0) 0 2).xOld ()
      < (Cx.pogmAfter (eachImage fun (_ : Bool) (_ : Unit → ℝ) _ => (1 : ℝ)) (fun v _ => v) beta sigmaBar 0 0
          (fun p => if p.1 then -(3 * beta) else 0) 0 2).xOld (false, ()) := by
  have hG : (eachImage fun (_ : Bool) (_ : Unit → ℝ) (_ : Unit) => (1 : ℝ)) = fun _ _ => (1 : ℝ) := rfl
  rw [hG]
  have hstep : ∀ {ι : Type} [Fintype ι] (y : ι → ℝ),
      Cx.pogmAfter (fun (_ : ι → ℝ) _ => (1 : ℝ)) (fun v _ => v) beta sigmaBar 0 0 y 0 2
        = Cx.pogmStep (fun a b => Cx.ltZero (Cx.vdot a b)) (fun _ _ => (1 : ℝ)) (fun v _ => v) beta sigmaBar
          (Cx.pogmAfter (fun (_ : ι → ℝ) _ => (1 : ℝ)) (fun v _ => v) beta sigmaBar 0 0 y 0 1) := by
    intro ι _ y
    unfold Cx.pogmAfter
    rw [Function.iterate_succ_apply']
  rw [hstep, hstep]
  obtain ⟨a1, a2, a3, a4, a5⟩ := pogm_linear_first (ι := Unit) beta sigmaBar (fun _ => 0)
  obtain ⟨b1, b2, b3, b4, b5⟩ := pogm_linear_first (ι := Bool × Unit) beta sigmaBar
    (fun p => if p.1 then -(3 * beta) else 0)
  rw [pogm_linear_next _ _ _ _ a3 a4, pogm_linear_next _ _ _ _ b3 b4, a1, a2, a5, b1, b2, b5]
  have c1 : ¬ ∑ _i : Unit, (beta + 0) < 0 := by simp; exact hb.le
  have c2 : ∑ i : Bool × Unit, (beta + (fun p : Bool × Unit => if p.1 then -(3 * beta) else 0) i) < 0 := by
    simp [Fintype.sum_prod_type]
    linarith
  rw [if_neg c1, if_pos c2]
  have h5l : (2.2 : ℝ) < Real.sqrt 5 := Real.lt_sqrt_of_sq_lt (by norm_num)
  have h5u : Real.sqrt 5 < 2.4 := (Real.sqrt_lt' (by norm_num)).mpr (by norm_num)
  set phi : ℝ := 0.5 * (1 + Real.sqrt 5) with hphi
  have p1 : 1.6 < phi := by rw [hphi]; linarith
  have p2 : phi < 1.7 := by rw [hphi]; linarith
  have h5 : (1 : ℝ) + 4 * 1 ^ 2 = 5 := by norm_num
  rw [h5, ← hphi]
  have hTu : Real.sqrt (1 + 4 * phi ^ 2) < 3.6 := (Real.sqrt_lt' (by norm_num)).mpr (by nlinarith)
  have hTl : 0 ≤ Real.sqrt (1 + 4 * phi ^ 2) := Real.sqrt_nonneg _
  set T : ℝ := 0.5 * (1 + Real.sqrt (1 + 4 * phi ^ 2)) with hT
  have t1 : T < 2.3 := by rw [hT]; linarith
  have t0 : 0 < T := by rw [hT]; linarith
  have q0 : 0 < phi := by linarith
  have e : 1 / phi < (phi - 1) / T * (1 + 1 / phi) + phi / T := by
    have : (phi - 1) / T * (1 + 1 / phi) + phi / T = (2 * phi ^ 2 - 1) / (T * phi) := by
      field_simp
      ring
    rw [this, div_lt_div_iff₀ q0 (by positivity)]
    nlinarith
  have := mul_lt_mul_of_pos_left e hb
  have k : (phi - 1) / T * (-beta - beta / phi - beta - -beta) = -(beta * ((phi - 1) / T * (1 + 1 / phi))) := by ring
  have k2 : beta * (1 / phi) = 1 / phi * beta := by ring
  rw [k]
  simp only [sub_self, zero_div, zero_mul]
  linarith [mul_comm beta (phi / T)]

end Verif
