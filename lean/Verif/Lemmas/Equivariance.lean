import Verif.Spec.Equivariance
import Verif.Lemmas.ComplexArrays

/-!
# Lemmas: whole runs under rearrangement and rescaling
-/

set_option linter.unusedSectionVars false

namespace Verif.Cx
open Eqv

section General
variable {E F : Type} [AddCommGroup E] [Module ℝ E] [AddCommGroup F] [Module ℝ F]

/-- The image of a `ForwardBackward` state under a map of arrays and a map of the rules. -/
def mapStR {S S' : Type} (φ : E → F) (g : S → S') (s : FB.St S E) : FB.St S' F :=
  ⟨φ s.xOld, φ s.zOld, s.xNew.map φ, s.zNew.map φ, s.beta, s.lam, g s.rules⟩

/-- A map of FISTA objects that the parameter updates do not notice. -/
structure Blind (g : Fista.Obj → Fista.Obj) : Prop where
  beta : ∀ f b, Fista.updateBeta (g f) b = Fista.updateBeta f b
  lam : ∀ f, Fista.updateLambda (g f) = ((Fista.updateLambda f).1, g (Fista.updateLambda f).2)

theorem fbStep_mapR (φ : E →ₗ[ℝ] F) {g : Fista.Obj → Fista.Obj} (hg : Blind g) {ge : E → E → Prop} {ge' : F → F → Prop}
    {nE : E → ℝ} {nF : F → ℝ} {G : E → E} {G' : F → F} (hG : Carries φ φ G G') {P : E → ℝ → E}
    {P' : F → ℝ → F} (hP : CarriesProx φ P P') (s : FB.St (Fista.Obj × Unit) E)
    (hr : ∀ z xn xo, restartWith ge' nF (g s.rules.1) (φ z) (φ xn) (φ xo)
      = ((restartWith ge nE s.rules.1 z xn xo).1, g (restartWith ge nE s.rules.1 z xn xo).2)) :
    fbStep G' P' (fistaRulesWith ge' nF) (mapStR φ (fun r => (g r.1, ())) s)
      = mapStR φ (fun r => (g r.1, ())) (fbStep G P (fistaRulesWith ge nE) s) := by
  have hG' : ∀ x, G' (φ x) = φ (G x) := hG
  have hP' : ∀ x c, P' (φ x) c = φ (P x c) := hP
  simp only [fbStep, mapStR, hG', ← map_smul, ← map_sub, hP', ← map_add, fistaRulesWith, hr, FB.applyUpd, hg.beta, hg.lam]
  rcases Bool.eq_false_or_eq_true
    (restartWith ge nE s.rules.1 s.zOld (P (s.zOld - s.beta • G s.zOld) s.beta) s.xOld).1 with hb | hb <;>
    simp [hb]

theorem blind_id : Blind id := ⟨fun _ _ => rfl, fun _ => rfl⟩

/-- The object with its reference length in other units. -/
def scaleObj (k : ℝ) (f : Fista.Obj) : Fista.Obj := { f with delta0 := f.delta0.map (k * ·) }

theorem blind_scaleObj (k : ℝ) : Blind (scaleObj k) := by
  refine ⟨fun f b => rfl, fun f => ?_⟩
  unfold Fista.updateLambda scaleObj
  rcases f with ⟨m, r, a, b, d, sg⟩
  cases r <;> cases m <;> rfl

theorem restartWith_scale {k : ℝ} (hk : 0 < k) {φ : E → F} {ge : E → E → Prop} {ge' : F → F → Prop}
    (hsub : ∀ a b, φ (a - b) = φ a - φ b)
    (hge : ∀ a b, ge' (φ a) (φ b) ↔ ge a b) {nE : E → ℝ} {nF : F → ℝ} (hn : ∀ a, nF (φ a) = k * nE a) (f : Fista.Obj)
    (z xn xo : E) :
    restartWith ge' nF (scaleObj k f) (φ z) (φ xn) (φ xo)
      = ((restartWith ge nE f z xn xo).1, scaleObj k (restartWith ge nE f z xn xo).2) := by
  classical
  have hc : (ge' (φ z - φ xn) (φ xn - φ xo)) ↔ ge (z - xn) (xn - xo) := by rw [← hsub, ← hsub, hge]
  rcases f with ⟨m, r, t, t', d, sg⟩
  unfold restartWith scaleObj
  cases r with
  | none => rfl
  | adaptive a b =>
    simp only []
    by_cases c : ge (z - xn) (xn - xo)
    · simp only [if_pos c, if_pos (hc.mpr c)]
    · simp only [if_neg c, if_neg (fun h => c (hc.mp h))]
  | greedy a b c =>
    simp only [← hsub, hn]
    have hd : decide (ge' (φ (z - xn)) (φ (xn - xo))) = decide (ge (z - xn) (xn - xo)) := decide_eq_decide.mpr (hge _ _)
    cases d with
    | none =>
      simp only [Option.map_none, Option.map_some, hd]
      have e : b * (k * nE (xn - xo)) = k * (b * nE (xn - xo)) := by ring
      rw [e]
    | some d0 =>
      simp only [Option.map_some, hd]
      have : decide (k * nE (xn - xo) ≥ k * d0) = decide (nE (xn - xo) ≥ d0) :=
        decide_eq_decide.mpr (mul_le_mul_iff_right₀ hk)
      rw [this]

theorem restartWith_none {φ : E → F} {ge : E → E → Prop} {ge' : F → F → Prop} {nE : E → ℝ} {nF : F → ℝ} (f : Fista.Obj)
    (hf : f.restart = .none) (z xn xo : E) :
    restartWith ge' nF f (φ z) (φ xn) (φ xo) = restartWith ge nE f z xn xo := by
  unfold restartWith
  simp only [hf]

end General

section Arrays
variable {ι ι' 𝕜 : Type} [Fintype ι] [Fintype ι'] [RCLike 𝕜]

/-- `part` as a linear map. -/
noncomputable def partL (j : ι' → ι) : (ι → 𝕜) →ₗ[ℝ] (ι' → 𝕜) := LinearMap.funLeft ℝ 𝕜 j

/-- `scale` as a linear map. -/
noncomputable def scaleL (s : ℝ) : (ι → 𝕜) →ₗ[ℝ] (ι → 𝕜) where
  toFun := scale s
  map_add' a b := by funext i; simp [scale, mul_add]
  map_smul' r a := by funext i; simp [scale, RCLike.real_smul_eq_coe_mul]; ring

theorem vdot_part {j : ι' → ι} (hj : Function.Bijective j) (a b : ι → 𝕜) :
    vdot (part j a) (part j b) = vdot a b := by
  unfold vdot part
  exact Function.Bijective.sum_comp hj fun i => starRingEnd 𝕜 (a i) * b i

theorem norm2_part {j : ι' → ι} (hj : Function.Bijective j) (a : ι → 𝕜) : norm2 (part j a) = norm2 a := by
  unfold norm2 part
  congr 1
  exact Function.Bijective.sum_comp hj fun i => ‖a i‖ ^ 2

theorem vdot_scale (s : ℝ) (a b : ι → 𝕜) : vdot (scale s a) (scale s b) = ((s ^ 2 : ℝ) : 𝕜) * vdot a b := by
  unfold vdot scale
  rw [Finset.mul_sum]
  refine Finset.sum_congr rfl fun i _ => ?_
  rw [map_mul, RCLike.conj_ofReal]
  push_cast
  ring

theorem norm2_scale {s : ℝ} (hs : 0 < s) (a : ι → 𝕜) : norm2 (scale s a) = s * norm2 a := by
  unfold norm2 scale
  have : ∀ i, ‖(s : 𝕜) * a i‖ ^ 2 = s ^ 2 * ‖a i‖ ^ 2 := fun i => by
    rw [norm_mul, RCLike.norm_ofReal, abs_of_pos hs, mul_pow]
  simp only [this, ← Finset.mul_sum]
  rw [Real.sqrt_mul (by positivity), Real.sqrt_sq hs.le]

theorem geZero_mul {r : ℝ} (hr : 0 < r) (c : 𝕜) : geZero ((r : 𝕜) * c) ↔ geZero c := by
  unfold geZero
  simp only [RCLike.re_ofReal_mul, RCLike.im_ofReal_mul, gt_iff_lt, ge_iff_le, mul_pos_iff_of_pos_left hr,
    mul_nonneg_iff_of_pos_left hr, mul_eq_zero, hr.ne', false_or]

theorem fistaAfter_mapR (φ : (ι → 𝕜) →ₗ[ℝ] (ι' → 𝕜)) {g : Fista.Obj → Fista.Obj} (hg : Blind g)
    {G : (ι → 𝕜) → ι → 𝕜} {G' : (ι' → 𝕜) → ι' → 𝕜} (hG : Carries φ φ G G') {P : (ι → 𝕜) → ℝ → ι → 𝕜}
    {P' : (ι' → 𝕜) → ℝ → ι' → 𝕜} (hP : CarriesProx φ P P') (o : Fista.Obj)
    (hr : ∀ f : Fista.Obj, f.restart = o.restart → ∀ z xn xo : ι → 𝕜,
      restartWith (fun a b => geZero (vdot a b)) norm2 (g f) (φ z) (φ xn) (φ xo)
      = ((restartWith (fun a b => geZero (vdot a b)) norm2 f z xn xo).1,
         g (restartWith (fun a b => geZero (vdot a b)) norm2 f z xn xo).2))
    (beta lam : ℝ) (x : ι → 𝕜) (n : ℕ) :
    fistaAfter G' P' (g o) beta lam (φ x) n = mapStR φ (fun r => (g r.1, ())) (fistaAfter G P o beta lam x n) ∧
      (fistaAfter G P o beta lam x n).rules.1.restart = o.restart := by
  induction n with
  | zero => exact ⟨rfl, rfl⟩
  | succ n ih =>
    have e : ∀ {κ : Type} [Fintype κ] (G : (κ → 𝕜) → κ → 𝕜) (P : (κ → 𝕜) → ℝ → κ → 𝕜) (o : Fista.Obj) (x : κ → 𝕜),
        fistaAfter G P o beta lam x (n + 1) = fbStep G P fistaRules (fistaAfter G P o beta lam x n) := fun G P o x => by
      unfold fistaAfter; rw [Function.iterate_succ_apply']
    rw [e, e, ih.1]
    refine ⟨fbStep_mapR φ hg hG hP _ (hr _ ih.2), ?_⟩
    rw [← ih.2]
    exact restart_kept' _ _ _ _ _ _

theorem pogmAfter_mapL (φ : (ι → 𝕜) →ₗ[ℝ] (ι' → 𝕜))
    (hge : ∀ a b : ι → 𝕜, geZero (vdot (φ a) (φ b)) ↔ geZero (vdot a b))
    {G : (ι → 𝕜) → ι → 𝕜} {G' : (ι' → 𝕜) → ι' → 𝕜} (hG : Carries φ φ G G')
    {P : (ι → 𝕜) → ℝ → ι → 𝕜} {P' : (ι' → 𝕜) → ℝ → ι' → 𝕜} (hP : CarriesProx φ P P')
    (beta sb : ℝ) (u x y z : ι → 𝕜) (n : ℕ) :
    pogmAfter G' P' beta sb (φ u) (φ x) (φ y) (φ z) n = mapPogm φ (pogmAfter G P beta sb u x y z n) := by
  unfold pogmAfter
  rw [hG]
  exact iterate_map (φ := mapPogm φ) (fun s => pogmStep_map φ
    (fun a b => by rw [ltZero_iff, ltZero_iff, hge]) hG hP beta sb s) ⟨u, x, y, z, G x, 1, 1, 1⟩ n

theorem pogmAfter_mapL_at (φ : (ι → 𝕜) →ₗ[ℝ] (ι' → 𝕜))
    {G : (ι → 𝕜) → ι → 𝕜} {G' : (ι' → 𝕜) → ι' → 𝕜} (hG : Carries φ φ G G')
    {P : (ι → 𝕜) → ℝ → ι → 𝕜} {P' : (ι' → 𝕜) → ℝ → ι' → 𝕜} (hP : CarriesProx φ P P')
    (beta sb : ℝ) (u x y z : ι → 𝕜) (n : ℕ)
    (h : ∀ m < n, ∀ s t : FB.Pogm (ι → 𝕜), s = pogmAfter G P beta sb u x y z m →
      t = pogmAfter G P beta sb u x y z (m + 1) →
      (ltZero (vdot (φ (-t.gOld)) (φ (t.yOld - s.yOld))) ↔ ltZero (vdot (-t.gOld) (t.yOld - s.yOld))) ∧
      (ltZero (vdot (φ t.gOld) (φ s.gOld)) ↔ ltZero (vdot t.gOld s.gOld))) :
    pogmAfter G' P' beta sb (φ u) (φ x) (φ y) (φ z) n = mapPogm φ (pogmAfter G P beta sb u x y z n) := by
  induction n with
  | zero =>
    have hG' : ∀ x, G' (φ x) = φ (G x) := hG
    show (⟨φ u, φ x, φ y, φ z, G' (φ x), 1, 1, 1⟩ : FB.Pogm (ι' → 𝕜)) = _
    rw [hG']
    rfl
  | succ n ih =>
    have ih := ih fun m hm => h m (by omega)
    have h := h n (by omega) _ _ rfl rfl
    have e : ∀ {ι : Type} [Fintype ι] (G : (ι → 𝕜) → ι → 𝕜) (P : (ι → 𝕜) → ℝ → ι → 𝕜) (u x y z : ι → 𝕜),
        pogmAfter G P beta sb u x y z (n + 1)
        = pogmStep (fun a b => ltZero (vdot a b)) G P beta sb (pogmAfter G P beta sb u x y z n) :=
      fun G P u x y z => by unfold pogmAfter; rw [Function.iterate_succ_apply']
    rw [e] at h
    rw [e, e, ih]
    exact pogmStep_map_at φ hG hP beta sb (pogmAfter G P beta sb u x y z n) h.1 h.2

theorem genAfter_mapL (φ : (ι → 𝕜) →ₗ[ℝ] (ι' → 𝕜))
    {G : (ι → 𝕜) → ι → 𝕜} {G' : (ι' → 𝕜) → ι' → 𝕜} (hG : Carries φ φ G G')
    {P : List ((ι → 𝕜) → ℝ → ι → 𝕜)} {P' : List ((ι' → 𝕜) → ℝ → ι' → 𝕜)}
    (hP : List.Forall₂ (CarriesProx φ) P P') (w : List ℝ) (gamma lam : ℝ) (x : ι → 𝕜) (n : ℕ) :
    genAfter G' P' w gamma lam (φ x) n = mapGen φ (genAfter G P w gamma lam x n) := by
  unfold genAfter
  have e := iterate_map (φ := mapGen (S := Unit) φ) (fun s => genStep_map φ hG hP w none none s)
    ⟨x, List.replicate P.length x, gamma, lam, ()⟩ n
  have e0 : mapGen (S := Unit) φ ⟨x, List.replicate P.length x, gamma, lam, ()⟩
      = ⟨φ x, List.replicate P'.length (φ x), gamma, lam, ()⟩ := by
    simp only [mapGen, List.map_replicate, hP.length_eq]
  rw [e0] at e
  exact e

theorem condatAfter_mapL {κ κ' : Type} [Fintype κ] [Fintype κ'] (φ : (ι → 𝕜) →ₗ[ℝ] (ι' → 𝕜))
    (ψ : (κ → 𝕜) →ₗ[ℝ] (κ' → 𝕜)) (O : Condat.Ops (ι → 𝕜) (κ → 𝕜)) (O' : Condat.Ops (ι' → 𝕜) (κ' → 𝕜))
    (hG : Carries φ φ O.grad O'.grad) (hP : CarriesProx φ O.prox O'.prox)
    (hD : CarriesProx ψ O.proxDual O'.proxDual) (hop : Carries φ ψ O.op O'.op)
    (hadj : Carries ψ φ O.adj O'.adj) (U : Condat.Upd) (rho sigma tau : ℝ)
    (x : ι → 𝕜) (y : κ → 𝕜) (n : ℕ) :
    condatAfter O' U rho sigma tau (φ x) (ψ y) n = mapCondat φ ψ (condatAfter O U rho sigma tau x y n) := by
  unfold condatAfter
  exact iterate_map (φ := mapCondat φ ψ)
    (fun s => condatStep_map φ ψ O O' hG hP hD hop hadj U s) ⟨x, y, rho, sigma, tau⟩ n

end Arrays

/-! ## Gradient descent -/

section GD
open GD
variable {ι ι' 𝕜 : Type} [RCLike 𝕜]

/-- The class divides its steps by an accumulated speed. -/
def adaptive : Kind → Bool
  | .ada | .rmsprop _ | .adam _ _ => true
  | _ => false

/-- The image of a state: entries `j`, values multiplied by `k`, learning rate multiplied by `r`. -/
noncomputable def mapGDS (j : ι' → ι) (k r : ℝ) (s : GD.St ι 𝕜) : GD.St ι' 𝕜 :=
  ⟨fun i => (k : 𝕜) * s.xOld (j i), fun i => (k : 𝕜) * s.xNew (j i), fun i => (k : 𝕜) * s.dir (j i),
    fun i => r ^ 2 * s.speed (j i), r * s.eta, s.betaPow, s.gammaPow, fun m i => (k : 𝕜) * s.memory m (j i)⟩

/-- The two `eta_update` arguments agree when the learning rate is multiplied by `r`. -/
def EtaScaled (r : ℝ) : Option (ℝ → ℕ → ℝ) → Option (ℝ → ℕ → ℝ) → Prop
  | none, none => True
  | some f, some f' => ∀ e i, f' (r * e) i = r * f e i
  | _, _ => False

theorem prepare_mapS (j : ι' → ι) {k r : ℝ} (hk : 0 < k) (c : Conf ι 𝕜) (c' : Conf ι' 𝕜)
    (h1 : c'.kind = c.kind) (h2 : c'.epochSize = c.epochSize) (hr : adaptive c.kind = true → r = k)
    {G : (ι → 𝕜) → ι → 𝕜} {G' : (ι' → 𝕜) → ι' → 𝕜}
    (hG : ∀ x, G' (fun i => (k : 𝕜) * x (j i)) = fun i => (k : 𝕜) * G x (j i)) (idx : ℕ) (s : GD.St ι 𝕜) :
    prepare c' idx G' (mapGDS j k r s) = mapGDS j k r (prepare c idx G s) := by
  have e : G' (mapGDS j k r s).xOld = fun i => (k : 𝕜) * G s.xOld (j i) := hG s.xOld
  have hn : ∀ z : 𝕜, ‖(k : 𝕜) * z‖ = k * ‖z‖ := fun z => by
    rw [norm_mul, RCLike.norm_ofReal, abs_of_pos hk]
  unfold prepare
  rw [e]
  unfold updateDir updateSpeed
  rw [h1, h2]
  cases hc : c.kind with
  | generic => rfl
  | vanilla => rfl
  | saga =>
    simp only [mapGDS]
    congr 1
    · funext i; ring
    · funext m i
      split_ifs <;> rfl
  | adam a b =>
    have hr := hr (by rw [hc]; rfl)
    subst hr
    simp only [mapGDS, hn]
    congr 1 <;> (funext i; ring)
  | ada =>
    have hr := hr (by rw [hc]; rfl)
    subst hr
    simp only [mapGDS, hn]
    congr 1
    funext i; ring
  | rmsprop a =>
    have hr := hr (by rw [hc]; rfl)
    subst hr
    simp only [mapGDS, hn]
    congr 1
    funext i; ring
  | momentum b =>
    simp only [mapGDS]
    congr 1
    funext i; ring

theorem gd_update_mapS (j : ι' → ι) {k r : ℝ} (hk : 0 < k) (hr0 : 0 < r) (c : Conf ι 𝕜) (c' : Conf ι' 𝕜)
    (h1 : c'.kind = c.kind) (h2 : c'.epochSize = c.epochSize) (hr : adaptive c.kind = true → r = k)
    (h3 : c'.eps = r * c.eps)
    (h4 : EtaScaled r c.etaUpdate c'.etaUpdate)
    (h5 : ∀ x t, c'.prox (fun i => (k : 𝕜) * x (j i)) (fun i => t (j i)) = fun i => (k : 𝕜) * c.prox x t (j i))
    {G : (ι → 𝕜) → ι → 𝕜} {G' : (ι' → 𝕜) → ι' → 𝕜}
    (hG : ∀ x, G' (fun i => (k : 𝕜) * x (j i)) = fun i => (k : 𝕜) * G x (j i))
    (idx : ℕ) (s : GD.St ι 𝕜) :
    GD.update c' idx G' (mapGDS j k r s) = (GD.update c idx G s).map (mapGDS j k r) := by
  unfold GD.update
  rw [h2]
  by_cases h0 : c.epochSize = 0
  · simp only [if_pos h0]; rfl
  simp only [if_neg h0, prepare_mapS j hk c c' h1 h2 hr hG, Except.map]
  generalize prepare c idx G s = p
  have hstep : stepOf c' (mapGDS j k r p) = fun i => stepOf c p (j i) := by
    funext i
    simp only [stepOf, mapGDS, h3]
    rw [Real.sqrt_mul (by positivity), Real.sqrt_sq hr0.le, ← mul_add, mul_div_mul_left _ _ hr0.ne']
  rw [hstep]
  have hnew : (fun i => (mapGDS j k r p).xOld i - ((stepOf c p (j i) : ℝ) : 𝕜) * (mapGDS j k r p).dir i)
      = fun i => (k : 𝕜) * (fun i => p.xOld i - ((stepOf c p i : ℝ) : 𝕜) * p.dir i) (j i) := by
    funext i; simp only [mapGDS]; ring
  have h5' := h5 (fun i => p.xOld i - ((stepOf c p i : ℝ) : 𝕜) * p.dir i) (stepOf c p)
  have he : ∀ e i, (match c'.etaUpdate with | none => r * e | some f => f (r * e) i)
      = r * (match c.etaUpdate with | none => e | some f => f e i) := by
    intro e i
    revert h4
    cases c.etaUpdate <;> cases c'.etaUpdate <;> simp only [EtaScaled, forall_const, false_imp_iff]
    exact fun h => h e i
  congr 1
  by_cases hm : idx % c.epochSize = 0
  · simp only [if_pos hm, hnew]
    unfold reset
    rw [h1]
    have e1 := he p.eta idx
    cases c.kind <;> (simp only [mapGDS, h5', mul_zero]; congr 1)
  · simp only [if_neg hm, hnew]
    have e1 := he p.eta idx
    simp only [mapGDS]
    congr 1

theorem gd_run_mapS (j : ι' → ι) {k r : ℝ} (hk : 0 < k) (hr0 : 0 < r) (c : Conf ι 𝕜) (c' : Conf ι' 𝕜)
    (h1 : c'.kind = c.kind) (h2 : c'.epochSize = c.epochSize) (hr : adaptive c.kind = true → r = k)
    (h3 : c'.eps = r * c.eps)
    (h4 : EtaScaled r c.etaUpdate c'.etaUpdate)
    (h5 : ∀ x t, c'.prox (fun i => (k : 𝕜) * x (j i)) (fun i => t (j i)) = fun i => (k : 𝕜) * c.prox x t (j i)) :
    ∀ (h : History ι 𝕜) (h' : History ι' 𝕜), List.Forall₂ (fun p q => q.1 = p.1 ∧
      ∀ x, q.2 (fun i => (k : 𝕜) * x (j i)) = fun i => (k : 𝕜) * p.2 x (j i)) h h' → ∀ s : GD.St ι 𝕜,
    GD.run c' h' (mapGDS j k r s) = (GD.run c h s).map (mapGDS j k r)
  | _, _, .nil, s => rfl
  | _, _, .cons (a := p) (b := q) (l₁ := l) (l₂ := l') hp hl, s => by
    obtain ⟨i, G⟩ := p
    obtain ⟨j', G'⟩ := q
    obtain ⟨hi, hG⟩ := hp
    simp only at hi hG
    subst hi
    simp only [GD.run, gd_update_mapS j hk hr0 c c' h1 h2 hr h3 h4 h5 hG]
    cases GD.update c j' G s with
    | error e => rfl
    | ok t => exact gd_run_mapS j hk hr0 c c' h1 h2 hr h3 h4 h5 l l' hl t

end GD

end Verif.Cx
