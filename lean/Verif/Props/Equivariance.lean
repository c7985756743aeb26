import Verif.Lemmas.Equivariance
import Verif.Props.ComplexSymmetry

/-!
# C140: reordering or reshaping the data; C142: stacks of images
-/

namespace Verif
open Linear Prox Noise Eqv
open Cx (Carries CarriesProx)

set_option linter.unusedSectionVars false

section Reorder
variable {ι ι' 𝕜 : Type} [Fintype ι] [Fintype ι'] [RCLike 𝕜]

/-! ## C140: the algorithms -/

/-- C140: with the start and the operators in another pixel order or shape, `ForwardBackward` with any FISTA object
(momentum mode and restart strategy) goes through the same run in that order: the same step sizes, relaxations and
restarts. -/
theorem C140_forwardbackward (j : ι' → ι) (hj : Function.Bijective j) (G : (ι → 𝕜) → ι → 𝕜) (G' : (ι' → 𝕜) → ι' → 𝕜)
    (hG : Carries (part j) (part j) G G') (P : (ι → 𝕜) → ℝ → ι → 𝕜) (P' : (ι' → 𝕜) → ℝ → ι' → 𝕜)
    (hP : CarriesProx (part j) P P') (o : Fista.Obj) (beta lam : ℝ) (x : ι → 𝕜) (n : ℕ) :
    (Cx.fistaAfter G' P' o beta lam (part j x) n).xNew = (Cx.fistaAfter G P o beta lam x n).xNew.map (part j) ∧
    (Cx.fistaAfter G' P' o beta lam (part j x) n).zNew = (Cx.fistaAfter G P o beta lam x n).zNew.map (part j) ∧
    (Cx.fistaAfter G' P' o beta lam (part j x) n).beta = (Cx.fistaAfter G P o beta lam x n).beta ∧
    (Cx.fistaAfter G' P' o beta lam (part j x) n).lam = (Cx.fistaAfter G P o beta lam x n).lam ∧
    (Cx.fistaAfter G' P' o beta lam (part j x) n).rules = (Cx.fistaAfter G P o beta lam x n).rules := by
  have e := (Cx.fistaAfter_mapR (Cx.partL j) (Cx.blind_scaleObj 1) hG hP o (fun f _ z xn xo =>
    Cx.restartWith_scale one_pos (φ := Cx.partL j) (fun a b => map_sub _ a b)
      (ge := fun a b => Cx.geZero (Cx.vdot a b)) (ge' := fun a b => Cx.geZero (Cx.vdot a b))
      (fun a b => by
        show Cx.geZero (Cx.vdot (part j a) (part j b)) ↔ _
        rw [Cx.vdot_part hj])
      (fun a => by rw [one_mul]; exact Cx.norm2_part hj a) f z xn xo) beta lam x n).1
  have e1 : ∀ f, Cx.scaleObj 1 f = f := fun f => by
    rcases f with ⟨m, r, t, t', d, sg⟩
    cases d <;> simp [Cx.scaleObj]
  simp only [e1] at e
  have e' : Cx.fistaAfter G' P' o beta lam (part j x) n
      = Cx.mapStR (part j) (fun r => (r.1, ())) (Cx.fistaAfter G P o beta lam x n) := e
  rw [e']
  exact ⟨rfl, rfl, rfl, rfl, rfl⟩

/-- C140 for `POGM`, `GenForwardBackward` and `Condat` (whose dual arrays may be reordered too). -/
theorem C140_other_algorithms {κ κ' : Type} [Fintype κ] [Fintype κ'] (j : ι' → ι) (hj : Function.Bijective j)
    (j₂ : κ' → κ) (G : (ι → 𝕜) → ι → 𝕜) (G' : (ι' → 𝕜) → ι' → 𝕜) (hG : Carries (part j) (part j) G G')
    (P : (ι → 𝕜) → ℝ → ι → 𝕜) (P' : (ι' → 𝕜) → ℝ → ι' → 𝕜) (hP : CarriesProx (part j) P P')
    (Ps : List ((ι → 𝕜) → ℝ → ι → 𝕜)) (Ps' : List ((ι' → 𝕜) → ℝ → ι' → 𝕜))
    (hPs : List.Forall₂ (CarriesProx (part j)) Ps Ps') (D : (κ → 𝕜) → ℝ → κ → 𝕜) (D' : (κ' → 𝕜) → ℝ → κ' → 𝕜)
    (hD : CarriesProx (part j₂) D D') (L : (ι → 𝕜) → κ → 𝕜) (L' : (ι' → 𝕜) → κ' → 𝕜)
    (hL : Carries (part j) (part j₂) L L') (A : (κ → 𝕜) → ι → 𝕜) (A' : (κ' → 𝕜) → ι' → 𝕜)
    (hA : Carries (part j₂) (part j) A A') (U : Condat.Upd) (w : List ℝ) (a b c : ℝ) (x0 x y z : ι → 𝕜) (v : κ → 𝕜)
    (n : ℕ) :
    (Cx.pogmAfter G' P' a b (part j x0) (part j x) (part j y) (part j z) n).xOld
      = part j (Cx.pogmAfter G P a b x0 x y z n).xOld ∧
    (Cx.genAfter G' Ps' w a b (part j x) n).xOld = part j (Cx.genAfter G Ps w a b x n).xOld ∧
    (Cx.condatAfter ⟨G', P', D', L', A'⟩ U a b c (part j x) (part j₂ v) n).x
      = part j (Cx.condatAfter ⟨G, P, D, L, A⟩ U a b c x v n).x ∧
    (Cx.condatAfter ⟨G', P', D', L', A'⟩ U a b c (part j x) (part j₂ v) n).y
      = part j₂ (Cx.condatAfter ⟨G, P, D, L, A⟩ U a b c x v n).y := by
  have e1 : Cx.pogmAfter G' P' a b (part j x0) (part j x) (part j y) (part j z) n
      = Cx.mapPogm (part j) (Cx.pogmAfter G P a b x0 x y z n) :=
    Cx.pogmAfter_mapL (Cx.partL j) (fun a b => by
      show Cx.geZero (Cx.vdot (part j a) (part j b)) ↔ _
      rw [Cx.vdot_part hj]) hG hP a b x0 x y z n
  have e2 : Cx.genAfter G' Ps' w a b (part j x) n = Cx.mapGen (part j) (Cx.genAfter G Ps w a b x n) :=
    Cx.genAfter_mapL (Cx.partL j) hG hPs w a b x n
  have e3 : Cx.condatAfter ⟨G', P', D', L', A'⟩ U a b c (part j x) (part j₂ v) n
      = Cx.mapCondat (part j) (part j₂) (Cx.condatAfter ⟨G, P, D, L, A⟩ U a b c x v n) :=
    Cx.condatAfter_mapL (Cx.partL j) (Cx.partL j₂) ⟨G, P, D, L, A⟩ ⟨G', P', D', L', A'⟩ hG hP hD hL hA U a b c x v n
  rw [e1, e2, e3]
  exact ⟨rfl, rfl, rfl, rfl⟩

end Reorder

theorem gd_run_part {ι ι' 𝕜 : Type} [RCLike 𝕜] (j : ι' → ι) (k : GD.Kind) (x : ι → 𝕜)
    (P : (ι → 𝕜) → (ι → ℝ) → ι → 𝕜) (P' : (ι' → 𝕜) → (ι' → ℝ) → ι' → 𝕜)
    (hP : ∀ v t, P' (part j v) (part j t) = part j (P v t)) (eta eps : ℝ) (eu : Option (ℝ → ℕ → ℝ)) (epoch : ℕ)
    (st : Option ℝ) (h : GD.History ι 𝕜) (h' : GD.History ι' 𝕜)
    (hh : List.Forall₂ (fun p q => q.1 = p.1 ∧ Carries (part j) (part j) p.2 q.2) h h') :
    (do let (c, s) ← GD.init k (part j x) P' (.float eta) (.float eps) eu epoch st
        let t ← GD.run c h' s
        return t.xNew)
      = (do let (c, s) ← GD.init k x P (.float eta) (.float eps) eu epoch st
            let t ← GD.run c h s
            return part j t.xNew) := by
  have hh' : List.Forall₂ (fun (p : ℕ × ((ι → 𝕜) → ι → 𝕜)) (q : ℕ × ((ι' → 𝕜) → ι' → 𝕜)) => q.1 = p.1 ∧
      ∀ x, q.2 (fun i => ((1 : ℝ) : 𝕜) * x (j i)) = fun i => ((1 : ℝ) : 𝕜) * p.2 x (j i)) h h' := by
    refine hh.imp fun p q hpq => ⟨hpq.1, fun v => ?_⟩
    simp only [RCLike.ofReal_one, one_mul]
    exact hpq.2 v
  have e := Cx.gd_run_mapS j one_pos one_pos
    (⟨k, epoch, GD.initEps k eps, eu, P⟩ : GD.Conf ι 𝕜) (⟨k, epoch, GD.initEps k eps, eu, P'⟩ : GD.Conf ι' 𝕜)
    rfl rfl (fun _ => rfl) (one_mul _).symm
    (by cases eu <;> simp [Cx.EtaScaled])
    (fun v t => by simp only [RCLike.ofReal_one, one_mul]; exact hP v t) h h' hh'
    ⟨x, x, fun _ => 0, GD.initSpeed k, eta, 1, 1, fun _ _ => 0⟩
  have es : ∀ i, GD.initSpeed (ι := ι) k (j i) = GD.initSpeed (ι := ι') k i := by intro i; cases k <;> rfl
  have e0 : Cx.mapGDS j 1 1 (⟨x, x, fun _ => 0, GD.initSpeed k, eta, 1, 1, fun _ _ => 0⟩ : GD.St ι 𝕜)
      = ⟨part j x, part j x, fun _ => 0, GD.initSpeed k, eta, 1, 1, fun _ _ => 0⟩ := by
    simp only [Cx.mapGDS, RCLike.ofReal_one, one_mul, one_pow, es]; rfl
  rw [e0] at e
  simp only [GD.init, GD.checkParam, bind, Except.bind, e, pure, Except.pure]
  cases GD.run (⟨k, epoch, GD.initEps k eps, eu, P⟩ : GD.Conf ι 𝕜) h
    ⟨x, x, fun _ => 0, GD.initSpeed k, eta, 1, 1, fun _ _ => 0⟩ with
  | error _ => rfl
  | ok t =>
    simp only [Except.map, Cx.mapGDS, RCLike.ofReal_one, one_mul]
    rfl

/-- C140 for the gradient-descent classes, from the constructor on and over any history of updates. -/
theorem C140_gradient_descent {ι ι' 𝕜 : Type} [RCLike 𝕜] (j : ι' → ι) (k : GD.Kind) (x : ι → 𝕜)
    (P : (ι → 𝕜) → (ι → ℝ) → ι → 𝕜) (P' : (ι' → 𝕜) → (ι' → ℝ) → ι' → 𝕜)
    (hP : ∀ v t, P' (part j v) (part j t) = part j (P v t)) (eta eps : ℝ) (eu : Option (ℝ → ℕ → ℝ)) (epoch : ℕ)
    (st : Option ℝ) (h : GD.History ι 𝕜) (h' : GD.History ι' 𝕜)
    (hh : List.Forall₂ (fun p q => q.1 = p.1 ∧ Carries (part j) (part j) p.2 q.2) h h') :
    (do let (c, s) ← GD.init k (part j x) P' (.float eta) (.float eps) eu epoch st
        let t ← GD.run c h' s
        return t.xNew)
      = (do let (c, s) ← GD.init k x P (.float eta) (.float eps) eu epoch st
            let t ← GD.run c h s
            return part j t.xNew) :=
  gd_run_part j k x P P' hP eta eps eu epoch st h h' hh

/-! ## C140: the operators -/

theorem matAdjOp_part {m m' ι ι' 𝕜 : Type} [Fintype m] [Fintype m'] [Fintype ι] [Fintype ι'] [RCLike 𝕜] {j : ι' → ι}
    (hj : Function.Bijective j) {r : m' → m} (hr : Function.Bijective r) (a : m → ι → 𝕜) (y : m → 𝕜) :
    matAdjOp (fun p q => a (r p) (j q)) (part r y) = part j (matAdjOp a y) := by
  have hex : (∃ p q, RCLike.im (a (r p) (j q)) ≠ 0) ↔ ∃ p q, RCLike.im (a p q) ≠ 0 := by
    constructor
    · rintro ⟨p, q, h⟩; exact ⟨_, _, h⟩
    · rintro ⟨p, q, h⟩
      obtain ⟨p', rfl⟩ := hr.2 p
      obtain ⟨q', rfl⟩ := hj.2 q
      exact ⟨p', q', h⟩
  funext i
  classical
  simp only [matAdjOp, part]
  by_cases h : ∃ p q, RCLike.im (a p q) ≠ 0
  · rw [if_pos h, if_pos (hex.mpr h)]
    exact Function.Bijective.sum_comp hr fun p => starRingEnd 𝕜 (a p (j i)) * y p
  · rw [if_neg h, if_neg (fun h' => h (hex.mp h'))]
    exact Function.Bijective.sum_comp hr fun p => a p (j i) * y p

/-- C140: the package's operators, given their parameters in the new order: `MatrixOperator` and its adjoint (rows
and columns reordered), the gradient of `GradBasic`, `SparseThreshold` with any threshold type, `Ridge`,
`ElasticNet`, `GroupLASSO` (members and groups reordered) and `Positivity`. -/
theorem C140_operators {m m' ι ι' γ γ' κ κ' 𝕜 : Type} [Fintype m] [Fintype m'] [Fintype ι] [Fintype ι'] [Fintype γ]
    [Fintype γ'] [RCLike 𝕜] (j : ι' → ι) (hj : Function.Bijective j) (r : m' → m) (hr : Function.Bijective r)
    (u : γ' → γ) (hu : Function.Bijective u) (v : κ' → κ) :
    (∀ a : m → ι → 𝕜, Carries (part j) (part r) (matOp a) (matOp fun p q => a (r p) (j q))) ∧
    (∀ a : m → ι → 𝕜, Carries (part r) (part j) (matAdjOp a) (matAdjOp fun p q => a (r p) (j q))) ∧
    (∀ (a : m → ι → 𝕜) (y : m → 𝕜), Carries (part j) (part j) (gradBasic (matOp a) (matAdjOp a) y)
      (gradBasic (matOp fun p q => a (r p) (j q)) (matAdjOp fun p q => a (r p) (j q)) (part r y))) ∧
    (∀ (w : ι → ℝ) (s : String) (x : ι → 𝕜) (c : ℝ),
      sparseOp (part j w) s (part j x) c = (sparseOp w s x c).map (part j)) ∧
    (∀ w : ι → ℝ, CarriesProx (part (A := 𝕜) j) (ridgeOp (fun v => v) w) (ridgeOp (fun v => v) (part j w))) ∧
    (∀ (al be : ι → ℝ) (x : ι → 𝕜) (c : ℝ),
      elasticOp (part j al) (part j be) (part j x) c = (elasticOp al be x c).map (part j)) ∧
    (∀ w : κ → ℝ, CarriesProx (part (A := 𝕜) fun i : γ' × κ' => (u i.1, v i.2)) (groupOp w) (groupOp (part v w))) ∧
    (∀ x : ι → ℝ, Positivity.positivityOp (part j x) = part j (Positivity.positivityOp x)) ∧
    (∀ x : ι → 𝕜, Cx.posThresh (part j x) = part j (Cx.posThresh x)) := by
  have h1 : ∀ a : m → ι → 𝕜, Carries (part j) (part r) (matOp a) (matOp fun p q => a (r p) (j q)) := by
    intro a x
    funext p
    exact Function.Bijective.sum_comp hj fun q => a (r p) q * x q
  refine ⟨h1, fun a y => matAdjOp_part hj hr a y, ?_, ?_, ?_, ?_, ?_, ?_, ?_⟩
  · intro a y x
    unfold gradBasic
    rw [h1, ← matAdjOp_part hj hr]
    rfl
  · intro w s x c
    unfold sparseOp thresh
    split_ifs <;> rfl
  · intro w x c
    rfl
  · intro al be x c
    simp only [elasticOp, thresh]
    rfl
  · intro w x c
    have hn : ∀ k, normAxis0 (part (fun i : γ' × κ' => (u i.1, v i.2)) x) k = normAxis0 x (v k) := by
      intro k
      simp only [normAxis0, part]
      congr 1
      exact Function.Bijective.sum_comp hu fun g => ‖x (g, v k)‖ ^ 2
    funext i
    simp only [groupOp, hn]
    rfl
  · intro x; rfl
  · intro x; rfl

/-- C140: put together, sparse regression on a matrix with its columns and rows in another order returns the
solution in that order, for every FISTA object, including the restarting ones. -/
theorem C140_sparse_regression {m m' ι ι' 𝕜 : Type} [Fintype m] [Fintype m'] [Fintype ι] [Fintype ι'] [RCLike 𝕜]
    (j : ι' → ι) (hj : Function.Bijective j) (r : m' → m) (hr : Function.Bijective r) (a : m → ι → 𝕜) (y : m → 𝕜)
    (w : ι → ℝ) (s : String) (P : (ι → 𝕜) → ℝ → ι → 𝕜) (hP : ∀ x c, sparseOp w s x c = .ok (P x c))
    (P' : (ι' → 𝕜) → ℝ → ι' → 𝕜) (hP' : ∀ x c, sparseOp (part j w) s x c = .ok (P' x c)) (o : Fista.Obj)
    (beta lam : ℝ) (x : ι → 𝕜) (n : ℕ) :
    FB.xFinal (Cx.fistaAfter (gradBasic (matOp fun p q => a (r p) (j q)) (matAdjOp fun p q => a (r p) (j q)) (part r y))
        P' o beta lam (part j x) n)
      = (FB.xFinal (Cx.fistaAfter (gradBasic (matOp a) (matAdjOp a) y) P o beta lam x n)).map (part j) := by
  have ops := C140_operators (𝕜 := 𝕜) j hj r hr (id : Unit → Unit) Function.bijective_id (id : Unit → Unit)
  have hc : CarriesProx (part j) P P' := by
    intro v c
    have e := ops.2.2.2.1 w s v c
    rw [hP' (part j v) c, hP v c] at e
    exact Except.ok.inj e
  have h := (C140_forwardbackward j hj _ _ (ops.2.2.1 a y) P P' hc o beta lam x n).2.1
  unfold FB.xFinal
  rw [h]
  cases (Cx.fistaAfter (gradBasic (matOp a) (matAdjOp a) y) P o beta lam x n).zNew <;> rfl

/-- The hypotheses are met: flattening a 2 × 3 image into six pixels is a bijection of positions, and the proximity
operators exist in both shapes. -/
example (w : Fin 2 × Fin 3 → ℝ) : ∃ j : Fin 6 → Fin 2 × Fin 3, Function.Bijective j ∧
    (∃ P : (Fin 2 × Fin 3 → ℂ) → ℝ → Fin 2 × Fin 3 → ℂ, ∀ x c, sparseOp w "soft" x c = .ok (P x c)) ∧
    (∃ P' : (Fin 6 → ℂ) → ℝ → Fin 6 → ℂ, ∀ x c, sparseOp (part j w) "soft" x c = .ok (P' x c)) :=
  ⟨(finProdFinEquiv (m := 2) (n := 3)).symm, (finProdFinEquiv (m := 2) (n := 3)).symm.bijective, ⟨_, fun _ _ => rfl⟩, ⟨_, fun _ _ => rfl⟩⟩

/-! ## C142: stacks of images -/

section Stack
variable {K ι κ 𝕜 : Type} [Fintype K] [Fintype ι] [Fintype κ] [RCLike 𝕜]

/-- Image `k` of a stack. -/
abbrev image {A : Type} (k : K) (x : K × ι → A) : ι → A := part (fun i => (k, i)) x

/-- C142 (partial): when every operator acts image by image, a `ForwardBackward` run without a restart strategy on a
stack computes for each image what a run on that image alone computes.  Missing: the restart strategies, for which
`C142_restart_couples_images` refutes it. -/
theorem C142_forwardbackward_partial (G : K → (ι → 𝕜) → ι → 𝕜) (P : K → (ι → 𝕜) → ℝ → ι → 𝕜) (o : Fista.Obj)
    (ho : o.restart = .none) (beta lam : ℝ) (x : K × ι → 𝕜) (n : ℕ) (k : K) :
    (Cx.fistaAfter (eachImage G) (fun v c => eachImage (fun k u => P k u c) v) o beta lam x n).xNew.map (image k)
      = (Cx.fistaAfter (G k) (P k) o beta lam (image k x) n).xNew ∧
    (Cx.fistaAfter (eachImage G) (fun v c => eachImage (fun k u => P k u c) v) o beta lam x n).zNew.map (image k)
      = (Cx.fistaAfter (G k) (P k) o beta lam (image k x) n).zNew := by
  have e := (Cx.fistaAfter_mapR (𝕜 := 𝕜) (Cx.partL fun i => (k, i)) Cx.blind_id (G := eachImage G) (G' := G k)
    (fun _ => rfl) (P := fun v c => eachImage (fun k u => P k u c) v) (P' := P k) (fun _ _ => rfl) o
    (fun f hf z xn xo => Cx.restartWith_none (φ := Cx.partL (𝕜 := 𝕜) fun i : ι => (k, i))
      (ge := fun a b => Cx.geZero (Cx.vdot a b)) (ge' := fun a b => Cx.geZero (Cx.vdot a b)) f (hf.trans ho) z xn xo) beta lam x n).1
  have e' : Cx.fistaAfter (G k) (P k) o beta lam (image k x) n
      = Cx.mapStR (image k) (fun r => (r.1, ()))
        (Cx.fistaAfter (eachImage G) (fun v c => eachImage (fun k u => P k u c) v) o beta lam x n) := e
  rw [e']
  exact ⟨rfl, rfl⟩

/-- C142 (partial): the same for `POGM` up to the first update at which the sign of one of its two products over the
stack differs from that over the image.  Missing: the updates after such a disagreement. -/
theorem C142_pogm_partial (G : K → (ι → 𝕜) → ι → 𝕜) (P : K → (ι → 𝕜) → ℝ → ι → 𝕜) (beta sb : ℝ)
    (u x y z : K × ι → 𝕜) (n : ℕ) (k : K)
    (h : ∀ m < n, ∀ s t : FB.Pogm (K × ι → 𝕜),
      s = Cx.pogmAfter (eachImage G) (fun v c => eachImage (fun k u => P k u c) v) beta sb u x y z m →
      t = Cx.pogmAfter (eachImage G) (fun v c => eachImage (fun k u => P k u c) v) beta sb u x y z (m + 1) →
      (Cx.ltZero (Cx.vdot (image k (-t.gOld)) (image k (t.yOld - s.yOld))) ↔
        Cx.ltZero (Cx.vdot (-t.gOld) (t.yOld - s.yOld))) ∧
      (Cx.ltZero (Cx.vdot (image k t.gOld) (image k s.gOld)) ↔ Cx.ltZero (Cx.vdot t.gOld s.gOld))) :
    image k (Cx.pogmAfter (eachImage G) (fun v c => eachImage (fun k u => P k u c) v) beta sb u x y z n).xOld
      = (Cx.pogmAfter (G k) (P k) beta sb (image k u) (image k x) (image k y) (image k z) n).xOld := by
  have e := Cx.pogmAfter_mapL_at (𝕜 := 𝕜) (Cx.partL fun i : ι => (k, i)) (G := eachImage G) (G' := G k) (fun _ => rfl)
    (P := fun v c => eachImage (fun k u => P k u c) v) (P' := P k) (fun _ _ => rfl) beta sb u x y z n h
  exact (congrArg FB.Pogm.xOld e).symm

/-- C142 for `GenForwardBackward` and `Condat`: each image of a stack is processed as if it were alone. -/
theorem C142_gen_condat (G : K → (ι → 𝕜) → ι → 𝕜) (Ps : List (K → (ι → 𝕜) → ℝ → ι → 𝕜))
    (P : K → (ι → 𝕜) → ℝ → ι → 𝕜) (D : K → (κ → 𝕜) → ℝ → κ → 𝕜) (L : K → (ι → 𝕜) → κ → 𝕜)
    (A : K → (κ → 𝕜) → ι → 𝕜) (U : Condat.Upd) (w : List ℝ) (a b c : ℝ) (x : K × ι → 𝕜) (v : K × κ → 𝕜) (n : ℕ)
    (k : K) :
    image k (Cx.genAfter (eachImage G) (Ps.map fun P v c => eachImage (fun k u => P k u c) v) w a b x n).xOld
      = (Cx.genAfter (G k) (Ps.map fun P => P k) w a b (image k x) n).xOld ∧
    image k (Cx.condatAfter ⟨eachImage G, fun v c => eachImage (fun k u => P k u c) v,
        fun v c => eachImage (fun k u => D k u c) v, eachImage L, eachImage A⟩ U a b c x v n).x
      = (Cx.condatAfter ⟨G k, P k, D k, L k, A k⟩ U a b c (image k x) (image k v) n).x ∧
    image k (Cx.condatAfter ⟨eachImage G, fun v c => eachImage (fun k u => P k u c) v,
        fun v c => eachImage (fun k u => D k u c) v, eachImage L, eachImage A⟩ U a b c x v n).y
      = (Cx.condatAfter ⟨G k, P k, D k, L k, A k⟩ U a b c (image k x) (image k v) n).y := by
  have e2 := Cx.genAfter_mapL (𝕜 := 𝕜) (Cx.partL fun i : ι => (k, i)) (G := eachImage G) (G' := G k) (fun _ => rfl)
    (P := Ps.map fun P v c => eachImage (fun k u => P k u c) v) (P' := Ps.map fun P => P k)
    (by
      rw [List.forall₂_map_left_iff, List.forall₂_map_right_iff, List.forall₂_same]
      exact fun P _ _ _ => rfl) w a b x n
  have e3 := Cx.condatAfter_mapL (𝕜 := 𝕜) (Cx.partL fun i : ι => (k, i)) (Cx.partL fun i : κ => (k, i))
    ⟨eachImage G, fun v c => eachImage (fun k u => P k u c) v,
        fun v c => eachImage (fun k u => D k u c) v, eachImage L, eachImage A⟩ ⟨G k, P k, D k, L k, A k⟩
    (fun _ => rfl) (fun _ _ => rfl) (fun _ _ => rfl) (fun _ => rfl) (fun _ => rfl) U a b c x v n
  exact ⟨(congrArg FB.GenSt.xOld e2).symm, (congrArg Condat.St.x e3).symm, (congrArg Condat.St.y e3).symm⟩

end Stack

/-- C142 for the gradient-descent classes, from the constructor on and over any history of updates: the run on the
stack raises when the run on the image does, and otherwise its image is the result of that run. -/
theorem C142_gradient_descent {K ι 𝕜 : Type} [RCLike 𝕜] (c : GD.Kind) (x : K × ι → 𝕜)
    (P : K → (ι → 𝕜) → (ι → ℝ) → ι → 𝕜) (eta eps : ℝ) (eu : Option (ℝ → ℕ → ℝ)) (epoch : ℕ) (st : Option ℝ)
    (h : List (ℕ × (K → (ι → 𝕜) → ι → 𝕜))) (k : K) :
    (do let (c, s) ← GD.init c (image k x) (P k) (.float eta) (.float eps) eu epoch st
        let t ← GD.run c (h.map fun p : ℕ × (K → (ι → 𝕜) → ι → 𝕜) => (p.1, p.2 k)) s
        return t.xNew)
      = (do let (c, s) ← GD.init c x (fun v t => eachImage (fun k u => P k u (image k t)) v) (.float eta) (.float eps) eu
              epoch st
            let t ← GD.run c (h.map fun p : ℕ × (K → (ι → 𝕜) → ι → 𝕜) => (p.1, eachImage p.2)) s
            return image k t.xNew) :=
  gd_run_part (fun i => (k, i)) c x _ (P k) (fun _ _ => rfl) eta eps eu epoch st _ _ (by
    rw [List.forall₂_map_left_iff, List.forall₂_map_right_iff, List.forall₂_same]
    exact fun p _ => ⟨rfl, fun _ => rfl⟩)

/-- C142: `GradBasic`, `SparseThreshold`, `Ridge`, `ElasticNet` and `Positivity` act image by image on a stack. -/
theorem C142_operators {K ι κ 𝕜 : Type} [Fintype K] [Fintype ι] [Fintype κ] [RCLike 𝕜] (k : K) :
    (∀ (H : K → (ι → 𝕜) → κ → 𝕜) (T : K → (κ → 𝕜) → ι → 𝕜) (y : K × κ → 𝕜) (x : K × ι → 𝕜),
      image k (gradBasic (eachImage H) (eachImage T) y x) = gradBasic (H k) (T k) (image k y) (image k x)) ∧
    (∀ (w : K × ι → ℝ) (s : String) (x : K × ι → 𝕜) (c : ℝ),
      (sparseOp w s x c).map (image k) = sparseOp (image k w) s (image k x) c) ∧
    (∀ (w : K × ι → ℝ) (x : K × ι → 𝕜) (c : ℝ),
      image k (ridgeOp (fun v => v) w x c) = ridgeOp (fun v => v) (image k w) (image k x) c) ∧
    (∀ (al be : K × ι → ℝ) (x : K × ι → 𝕜) (c : ℝ),
      (elasticOp al be x c).map (image k) = elasticOp (image k al) (image k be) (image k x) c) ∧
    (∀ x : K × ι → ℝ, image k (Positivity.positivityOp x) = Positivity.positivityOp (image k x)) := by
  refine ⟨fun H T y x => rfl, fun w s x c => ?_, fun w x c => rfl, fun al be x c => ?_, fun x => rfl⟩
  · unfold sparseOp thresh
    split_ifs <;> rfl
  · simp only [elasticOp, thresh]
    rfl

end Verif
