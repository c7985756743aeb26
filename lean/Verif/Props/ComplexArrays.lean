import Verif.Lemmas.ComplexArrays
import Verif.Model.Linear
import Verif.Model.Noise
import Verif.Model.Positivity
import Verif.Props.ForwardBackward
import Verif.Props.Pogm

/-!
# C137, C138, C139: real data in complex arrays, symmetries of complex data, positivity of complex data
-/

namespace Verif
open Linear Prox Noise
open Cx (toComplex rotate conjArr Carries CarriesProx)

set_option linter.unusedSectionVars false

section RealInComplex
variable {ι : Type} [Fintype ι]

/-! ## C137: the algorithms -/

/-- C137: a `ForwardBackward` run with any FISTA object (momentum mode and restart strategy) on real data stored in
complex arrays goes through the real run: the same iterates, step sizes, relaxations and FISTA state. -/
theorem C137_forwardbackward (G : (ι → ℝ) → ι → ℝ) (G' : (ι → ℂ) → ι → ℂ) (hG : Carries toComplex toComplex G G')
    (P : (ι → ℝ) → ℝ → ι → ℝ) (P' : (ι → ℂ) → ℝ → ι → ℂ) (hP : CarriesProx toComplex P P') (o : Fista.Obj)
    (beta lam : ℝ) (x : ι → ℝ) (n : ℕ) :
    (Cx.fistaAfter G' P' o beta lam (toComplex x) n).xNew = (Cx.fistaAfter G P o beta lam x n).xNew.map toComplex ∧
    (Cx.fistaAfter G' P' o beta lam (toComplex x) n).zNew = (Cx.fistaAfter G P o beta lam x n).zNew.map toComplex ∧
    (Cx.fistaAfter G' P' o beta lam (toComplex x) n).beta = (Cx.fistaAfter G P o beta lam x n).beta ∧
    (Cx.fistaAfter G' P' o beta lam (toComplex x) n).lam = (Cx.fistaAfter G P o beta lam x n).lam ∧
    (Cx.fistaAfter G' P' o beta lam (toComplex x) n).rules = (Cx.fistaAfter G P o beta lam x n).rules := by
  have e : Cx.fistaAfter G' P' o beta lam (toComplex x) n = Cx.mapSt toComplex (Cx.fistaAfter G P o beta lam x n) :=
    Cx.fistaAfter_map Cx.toComplexL (fun a => by simp [Cx.toComplexL_apply])
      (fun a b => by rw [Cx.entrywise_toComplexL, Cx.entrywise_toComplexL, Cx.vdot_toComplex, Cx.geZero_ofReal])
      hG hP o beta lam x n
  rw [e]
  exact ⟨rfl, rfl, rfl, rfl, rfl⟩

/-- C137 for `POGM`. -/
theorem C137_pogm (G : (ι → ℝ) → ι → ℝ) (G' : (ι → ℂ) → ι → ℂ) (hG : Carries toComplex toComplex G G')
    (P : (ι → ℝ) → ℝ → ι → ℝ) (P' : (ι → ℂ) → ℝ → ι → ℂ) (hP : CarriesProx toComplex P P')
    (beta sb : ℝ) (u x y z : ι → ℝ) (n : ℕ) :
    (Cx.pogmAfter G' P' beta sb (toComplex u) (toComplex x) (toComplex y) (toComplex z) n).xOld
      = toComplex (Cx.pogmAfter G P beta sb u x y z n).xOld ∧
    (Cx.pogmAfter G' P' beta sb (toComplex u) (toComplex x) (toComplex y) (toComplex z) n).xi
      = (Cx.pogmAfter G P beta sb u x y z n).xi ∧
    (Cx.pogmAfter G' P' beta sb (toComplex u) (toComplex x) (toComplex y) (toComplex z) n).sigma
      = (Cx.pogmAfter G P beta sb u x y z n).sigma ∧
    (Cx.pogmAfter G' P' beta sb (toComplex u) (toComplex x) (toComplex y) (toComplex z) n).t
      = (Cx.pogmAfter G P beta sb u x y z n).t := by
  have e : Cx.pogmAfter G' P' beta sb (toComplex u) (toComplex x) (toComplex y) (toComplex z) n
      = Cx.mapPogm toComplex (Cx.pogmAfter G P beta sb u x y z n) :=
    Cx.pogmAfter_map Cx.toComplexL
      (fun a b => by rw [Cx.entrywise_toComplexL, Cx.entrywise_toComplexL, Cx.vdot_toComplex, Cx.geZero_ofReal])
      hG hP beta sb u x y z n
  rw [e]
  exact ⟨rfl, rfl, rfl, rfl⟩

/-- C137 for `GenForwardBackward`. -/
theorem C137_genforwardbackward (G : (ι → ℝ) → ι → ℝ) (G' : (ι → ℂ) → ι → ℂ) (hG : Carries toComplex toComplex G G')
    (P : List ((ι → ℝ) → ℝ → ι → ℝ)) (P' : List ((ι → ℂ) → ℝ → ι → ℂ))
    (hP : List.Forall₂ (CarriesProx toComplex) P P') (w : List ℝ) (gamma lam : ℝ) (x : ι → ℝ) (n : ℕ) :
    (Cx.genAfter G' P' w gamma lam (toComplex x) n).xOld = toComplex (Cx.genAfter G P w gamma lam x n).xOld ∧
    (Cx.genAfter G' P' w gamma lam (toComplex x) n).z = (Cx.genAfter G P w gamma lam x n).z.map toComplex := by
  have e : Cx.genAfter G' P' w gamma lam (toComplex x) n = Cx.mapGen toComplex (Cx.genAfter G P w gamma lam x n) :=
    Cx.genAfter_map Cx.toComplexL hG hP w gamma lam x n
  rw [e]
  exact ⟨rfl, rfl⟩

/-- C137 for `Condat`, with any parameter updates. -/
theorem C137_condat {κ : Type} [Fintype κ] (O : Condat.Ops (ι → ℝ) (κ → ℝ)) (O' : Condat.Ops (ι → ℂ) (κ → ℂ))
    (hG : Carries toComplex toComplex O.grad O'.grad) (hP : CarriesProx toComplex O.prox O'.prox)
    (hD : CarriesProx toComplex O.proxDual O'.proxDual) (hop : Carries toComplex toComplex O.op O'.op)
    (hadj : Carries toComplex toComplex O.adj O'.adj) (U : Condat.Upd) (rho sigma tau : ℝ) (x : ι → ℝ) (y : κ → ℝ)
    (n : ℕ) :
    (Cx.condatAfter O' U rho sigma tau (toComplex x) (toComplex y) n).x
      = toComplex (Cx.condatAfter O U rho sigma tau x y n).x ∧
    (Cx.condatAfter O' U rho sigma tau (toComplex x) (toComplex y) n).y
      = toComplex (Cx.condatAfter O U rho sigma tau x y n).y := by
  have e : Cx.condatAfter O' U rho sigma tau (toComplex x) (toComplex y) n
      = Cx.mapCondat toComplex toComplex (Cx.condatAfter O U rho sigma tau x y n) :=
    Cx.condatAfter_map Cx.toComplexL O O' hG hP hD hop hadj U rho sigma tau x y n
  rw [e]
  exact ⟨rfl, rfl⟩

/-- C137 for the gradient-descent classes, from the constructor on and over any history of updates: the complex
run raises when the real one does, and otherwise returns its values. -/
theorem C137_gradient_descent {ι : Type} (k : GD.Kind) (x : ι → ℝ) (P : (ι → ℝ) → (ι → ℝ) → ι → ℝ)
    (P' : (ι → ℂ) → (ι → ℝ) → ι → ℂ) (hP : CarriesProx toComplex P P') (eta eps : ℝ)
    (eu : Option (ℝ → ℕ → ℝ)) (epoch : ℕ) (st : Option ℝ) (h : GD.History ι ℝ) (h' : GD.History ι ℂ)
    (hh : List.Forall₂ (fun p q => q.1 = p.1 ∧ Carries toComplex toComplex p.2 q.2) h h') :
    (do let (c, s) ← GD.init k (toComplex x) P' (.float eta) (.float eps) eu epoch st
        let t ← GD.run c h' s
        return t.xNew)
      = (do let (c, s) ← GD.init k x P (.float eta) (.float eps) eu epoch st
            let t ← GD.run c h s
            return toComplex t.xNew) := by
  have e := Cx.gd_run_map Cx.toComplexL (fun a => by simp [Cx.toComplexL_apply])
    (⟨k, epoch, GD.initEps k eps, eu, P⟩ : GD.Conf ι ℝ) (⟨k, epoch, GD.initEps k eps, eu, P'⟩ : GD.Conf ι ℂ)
    rfl rfl rfl rfl hP h h' hh ⟨x, x, fun _ => 0, GD.initSpeed k, eta, 1, 1, fun _ _ => 0⟩
  have e0 : Cx.mapGD Cx.toComplexL (⟨x, x, fun _ => 0, GD.initSpeed k, eta, 1, 1, fun _ _ => 0⟩ : GD.St ι ℝ)
      = ⟨toComplex x, toComplex x, fun _ => 0, GD.initSpeed k, eta, 1, 1, fun _ _ => 0⟩ := by
    simp only [Cx.mapGD, map_zero]; rfl
  rw [e0] at e
  simp only [GD.init, GD.checkParam, bind, Except.bind, e, pure, Except.pure]
  cases GD.run (⟨k, epoch, GD.initEps k eps, eu, P⟩ : GD.Conf ι ℝ) h
    ⟨x, x, fun _ => 0, GD.initSpeed k, eta, 1, 1, fun _ _ => 0⟩ <;> rfl

end RealInComplex

/-! ## C137: the operators -/

theorem aroundK_ofReal (d : ℕ) (r : ℝ) : aroundK d (r : ℂ) = ((aroundK d r : ℝ) : ℂ) := by
  simp [aroundK, around_zero]

theorem thresh_toComplex {ι : Type} (x : ι → ℝ) (t : ι → ℝ) (s : String) :
    thresh (toComplex x) t s = (thresh x t s).map toComplex := by
  unfold thresh
  split_ifs
  · simp only [Except.map]
    congr 1
    funext i
    simp only [toComplex]
    rw [← aroundK_ofReal]
    simp [softRaw, toComplex]
  · simp only [Except.map]
    congr 1
    funext i
    simp only [toComplex, hardThresh, Complex.norm_real]
    split_ifs <;> simp
  · rfl

/-- C137: the package's operators carry real arrays stored as complex ones: `MatrixOperator` and its adjoint, the
gradient of `GradBasic`, `SparseThreshold`, `Ridge`, `ElasticNet`, `GroupLASSO` and `Positivity`. -/
theorem C137_operators {m ι γ κ : Type} [Fintype m] [Fintype ι] [Fintype γ] :
    (∀ a : m → ι → ℝ, Carries toComplex toComplex (matOp a) (matOp fun i j => (a i j : ℂ))) ∧
    (∀ a : m → ι → ℝ, Carries toComplex toComplex (matAdjOp a) (matAdjOp fun i j => (a i j : ℂ))) ∧
    (∀ (a : m → ι → ℝ) (y : m → ℝ), Carries toComplex toComplex (gradBasic (matOp a) (matAdjOp a) y)
      (gradBasic (matOp fun i j => (a i j : ℂ)) (matAdjOp fun i j => (a i j : ℂ)) (toComplex y))) ∧
    (∀ (w : ι → ℝ) (s : String) (x : ι → ℝ) (c : ℝ),
      sparseOp w s (toComplex x) c = (sparseOp w s x c).map toComplex) ∧
    (∀ w : ι → ℝ, CarriesProx toComplex (ridgeOp (fun v => v) w) (ridgeOp (fun v => v) w)) ∧
    (∀ (al be : ι → ℝ) (x : ι → ℝ) (c : ℝ), elasticOp al be (toComplex x) c = (elasticOp al be x c).map toComplex) ∧
    (∀ w : κ → ℝ, CarriesProx (toComplex (ι := γ × κ)) (groupOp w) (groupOp w)) ∧
    (∀ x : ι → ℝ, Cx.posThresh (toComplex x) = toComplex (Positivity.positivityOp x)) := by
  have h1 : ∀ a : m → ι → ℝ, Carries toComplex toComplex (matOp a) (matOp fun i j => (a i j : ℂ)) := by
    intro a x
    funext i
    simp [matOp, toComplex]
  have h2 : ∀ a : m → ι → ℝ, Carries toComplex toComplex (matAdjOp a) (matAdjOp fun i j => (a i j : ℂ)) := by
    intro a x
    funext i
    simp [matAdjOp, toComplex]
  refine ⟨h1, h2, ?_, fun w s x c => thresh_toComplex x _ s, ?_, ?_, ?_, ?_⟩
  · intro a y x
    unfold gradBasic
    rw [h1, ← h2]
    congr 1
    funext i
    simp [toComplex]
  · intro w x c
    funext i
    simp [ridgeOp, toComplex]
  · intro al be x c
    unfold elasticOp
    rw [thresh_toComplex]
    cases thresh x (fun i => be i * c) "soft" with
    | error e => rfl
    | ok y =>
      simp only [Except.map, bind, Except.bind]
      congr 1
      funext i
      simp [toComplex]
  · intro w x c
    funext i
    simp [groupOp, toComplex, normAxis0]
  · intro x
    funext i
    by_cases h : 0 < x i
    · simp [Cx.posThresh, Cx.gtZero, toComplex, Positivity.positivityOp, Positivity.posThresh, Positivity.finVal,
        Ext.gtZero, Ext.mulBool, h]
    · simp [Cx.posThresh, Cx.gtZero, toComplex, Positivity.positivityOp, Positivity.posThresh, Positivity.finVal,
        Ext.gtZero, Ext.mulBool, h]

/-- C137: put together, sparse regression with `MatrixOperator`, `GradBasic`, `SparseThreshold` and
`ForwardBackward`: the run on complex arrays returns the solution of the real run. -/
theorem C137_sparse_regression {m ι : Type} [Fintype m] [Fintype ι] (a : m → ι → ℝ) (y : m → ℝ) (w : ι → ℝ)
    (s : String) (P : (ι → ℝ) → ℝ → ι → ℝ) (hP : ∀ x c, sparseOp w s x c = .ok (P x c))
    (P' : (ι → ℂ) → ℝ → ι → ℂ) (hP' : ∀ x c, sparseOp w s x c = .ok (P' x c)) (o : Fista.Obj) (beta lam : ℝ)
    (x : ι → ℝ) (n : ℕ) :
    FB.xFinal (Cx.fistaAfter (gradBasic (matOp fun i j => (a i j : ℂ)) (matAdjOp fun i j => (a i j : ℂ)) (toComplex y))
        P' o beta lam (toComplex x) n)
      = (FB.xFinal (Cx.fistaAfter (gradBasic (matOp a) (matAdjOp a) y) P o beta lam x n)).map toComplex := by
  have ops := C137_operators (m := m) (ι := ι) (γ := Unit) (κ := Unit)
  have hc : CarriesProx toComplex P P' := by
    intro v c
    have e := ops.2.2.2.1 w s v c
    rw [hP' (toComplex v) c, hP v c] at e
    exact Except.ok.inj e
  have h := (C137_forwardbackward _ _ (ops.2.2.1 a y) P P' hc o beta lam x n).2.1
  unfold FB.xFinal
  rw [h]
  cases (Cx.fistaAfter (gradBasic (matOp a) (matAdjOp a) y) P o beta lam x n).zNew <;> rfl

/-- The hypotheses are met: the proximity operators exist for the two documented threshold types. -/
example (w : Fin 2 → ℝ) (s : String) (hs : s = "soft" ∨ s = "hard") :
    (∃ P : (Fin 2 → ℝ) → ℝ → Fin 2 → ℝ, ∀ x c, sparseOp w s x c = .ok (P x c)) ∧
    (∃ P : (Fin 2 → ℂ) → ℝ → Fin 2 → ℂ, ∀ x c, sparseOp w s x c = .ok (P x c)) := by
  rcases hs with rfl | rfl
  · exact ⟨⟨_, fun x c => rfl⟩, ⟨_, fun x c => rfl⟩⟩
  · exact ⟨⟨fun x c => hardThresh x fun i => w i * c, fun x c => by simp [sparseOp, thresh]⟩,
      ⟨fun x c => hardThresh x fun i => w i * c, fun x c => by simp [sparseOp, thresh]⟩⟩

/-! ## C137: agreement with the model on real inner-product spaces -/

section Agree
variable {ι : Type} [Fintype ι]
open scoped RealInnerProductSpace

theorem geZero_real (r : ℝ) : Cx.geZero r ↔ r ≥ 0 := by
  simp only [Cx.geZero, RCLike.re_to_real, RCLike.im_to_real, ge_iff_le, le_refl, and_true]
  rw [le_iff_lt_or_eq, gt_iff_lt, eq_comm]

theorem vdot_real (a b : EuclideanSpace ℝ ι) : Cx.vdot (WithLp.ofLp a) (WithLp.ofLp b) = ⟪a, b⟫ := by
  simp [Cx.vdot, PiLp.inner_apply, mul_comm]

theorem iterate_afterSteps {S E : Type} [NormedAddCommGroup E] [InnerProductSpace ℝ E] (G : E → E) (P : E → ℝ → E)
    (R : FB.Rules S E) (s : FB.St S E) (n : ℕ) : afterSteps G P R s n = (FB.step G P R)^[n] s := by
  induction n with
  | zero => rfl
  | succ n ih => rw [Function.iterate_succ_apply', ← ih]; rfl

theorem iterate_pogmAfter {E : Type} [NormedAddCommGroup E] [InnerProductSpace ℝ E] (G : E → E) (P : E → ℝ → E)
    (beta sb : ℝ) (s : FB.Pogm E) (n : ℕ) : pogmAfter G P beta sb s n = (FB.pogmStep G P beta sb)^[n] s := by
  induction n with
  | zero => rfl
  | succ n ih => rw [Function.iterate_succ_apply', ← ih]; rfl

/-- C137: on real arrays the model used here is the model of the other properties, in which arrays are vectors of a
Euclidean space: `ForwardBackward` with any FISTA object, and `POGM`. -/
theorem C137_same_as_euclidean (G : EuclideanSpace ℝ ι → EuclideanSpace ℝ ι)
    (P : EuclideanSpace ℝ ι → ℝ → EuclideanSpace ℝ ι) (o : Fista.Obj) (beta lam sb : ℝ)
    (u x y z : EuclideanSpace ℝ ι) (n : ℕ) :
    FB.xFinal (Cx.fistaAfter (fun v => WithLp.ofLp (G (WithLp.toLp 2 v)))
        (fun v c => WithLp.ofLp (P (WithLp.toLp 2 v) c)) o beta lam (WithLp.ofLp x) n)
      = (FB.xFinal (afterSteps G P FB.fistaRules ⟨x, x, none, none, beta, lam, (o, ())⟩ n)).map WithLp.ofLp ∧
    (Cx.pogmAfter (fun v => WithLp.ofLp (G (WithLp.toLp 2 v))) (fun v c => WithLp.ofLp (P (WithLp.toLp 2 v) c)) beta sb
        (WithLp.ofLp u) (WithLp.ofLp x) (WithLp.ofLp y) (WithLp.ofLp z) n).xOld
      = WithLp.ofLp (pogmAfter G P beta sb ⟨u, x, y, z, G x, 1, 1, 1⟩ n).xOld := by
  let φ : EuclideanSpace ℝ ι →ₗ[ℝ] (ι → ℝ) := (WithLp.linearEquiv 2 ℝ (ι → ℝ)).toLinearMap
  have hge : ∀ a b : EuclideanSpace ℝ ι, Cx.geZero (Cx.vdot (φ a) (φ b)) ↔ ⟪a, b⟫ ≥ 0 := fun a b => by
    rw [show Cx.vdot (φ a) (φ b) = ⟪a, b⟫ from vdot_real a b, geZero_real]
  have hn : ∀ a : EuclideanSpace ℝ ι, Cx.norm2 (φ a) = ‖a‖ := fun a => by
    rw [EuclideanSpace.norm_eq]; rfl
  have hG : Carries φ φ G fun v => WithLp.ofLp (G (WithLp.toLp 2 v)) := fun v => rfl
  have hP : CarriesProx φ P fun v c => WithLp.ofLp (P (WithLp.toLp 2 v) c) := fun v c => rfl
  constructor
  · have e : Cx.fistaAfter (fun v => WithLp.ofLp (G (WithLp.toLp 2 v))) (fun v c => WithLp.ofLp (P (WithLp.toLp 2 v) c))
        o beta lam (WithLp.ofLp x) n
        = Cx.mapSt φ ((FB.step G P FB.fistaRules)^[n] ⟨x, x, none, none, beta, lam, (o, ())⟩) :=
      Cx.iterate_map (φ := Cx.mapSt φ) (f := FB.step G P FB.fistaRules)
        (fun s => Cx.fbStep_map (U := Unit) φ (ge := fun a b => ⟪a, b⟫ ≥ 0) hn hG hP s (.inr (hge _ _)))
        ⟨x, x, none, none, beta, lam, (o, ())⟩ n
    rw [e, iterate_afterSteps]
    unfold FB.xFinal Cx.mapSt
    cases ((FB.step G P FB.fistaRules)^[n] ⟨x, x, none, none, beta, lam, (o, ())⟩).zNew <;> rfl
  · have hlt : ∀ a b : EuclideanSpace ℝ ι, Cx.ltZero (Cx.vdot (φ a) (φ b)) ↔ ⟪a, b⟫ < 0 := fun a b => by
      rw [Cx.ltZero_iff, hge, ge_iff_le, not_le]
    have e : Cx.pogmAfter (fun v => WithLp.ofLp (G (WithLp.toLp 2 v))) (fun v c => WithLp.ofLp (P (WithLp.toLp 2 v) c))
        beta sb (WithLp.ofLp u) (WithLp.ofLp x) (WithLp.ofLp y) (WithLp.ofLp z) n
        = Cx.mapPogm φ ((FB.pogmStep G P beta sb)^[n] ⟨u, x, y, z, G x, 1, 1, 1⟩) :=
      Cx.iterate_map (φ := Cx.mapPogm φ) (f := FB.pogmStep G P beta sb)
        (fun s => Cx.pogmStep_map φ (lt := fun a b => ⟪a, b⟫ < 0) hlt hG hP beta sb s) ⟨u, x, y, z, G x, 1, 1, 1⟩ n
    rw [e, iterate_pogmAfter]
    rfl

theorem genZ_eq {E : Type} [NormedAddCommGroup E] [InnerProductSpace ℝ E] (x g : E) (gamma lam : ℝ) :
    ∀ (P : List (E → ℝ → E)) (z : List E) (w : List ℝ), Cx.genZ x g gamma lam P z w = FB.genZ x g gamma lam P z w
  | [], _, _ => by simp [Cx.genZ, FB.genZ]
  | _ :: _, [], _ => by simp [Cx.genZ, FB.genZ]
  | _ :: _, _ :: _, [] => by simp [Cx.genZ, FB.genZ]
  | p :: ps, z :: zs, w :: ws => by simp only [Cx.genZ, FB.genZ, genZ_eq x g gamma lam ps zs ws]

/-- C137: the same for `GenForwardBackward` and `Condat`. -/
theorem C137_same_as_euclidean_gen_condat {κ : Type} [Fintype κ] (G : EuclideanSpace ℝ ι → EuclideanSpace ℝ ι)
    (P : List (EuclideanSpace ℝ ι → ℝ → EuclideanSpace ℝ ι)) (w : List ℝ)
    (O : Condat.Ops (EuclideanSpace ℝ ι) (EuclideanSpace ℝ κ)) (U : Condat.Upd) (a b c : ℝ)
    (x : EuclideanSpace ℝ ι) (y : EuclideanSpace ℝ κ) (n : ℕ) :
    (Cx.genAfter (fun v => WithLp.ofLp (G (WithLp.toLp 2 v)))
        (P.map fun p v c => WithLp.ofLp (p (WithLp.toLp 2 v) c)) w a b (WithLp.ofLp x) n).xOld
      = WithLp.ofLp ((FB.genStep G P w none none)^[n] (FB.genInit x P.length a b ())).xOld ∧
    (Cx.condatAfter ⟨fun v => WithLp.ofLp (O.grad (WithLp.toLp 2 v)), fun v c => WithLp.ofLp (O.prox (WithLp.toLp 2 v) c),
        fun v c => WithLp.ofLp (O.proxDual (WithLp.toLp 2 v) c), fun v => WithLp.ofLp (O.op (WithLp.toLp 2 v)),
        fun v => WithLp.ofLp (O.adj (WithLp.toLp 2 v))⟩ U a b c (WithLp.ofLp x) (WithLp.ofLp y) n).x
      = WithLp.ofLp ((Condat.step O U)^[n] ⟨x, y, a, b, c⟩).x ∧
    (Cx.condatAfter ⟨fun v => WithLp.ofLp (O.grad (WithLp.toLp 2 v)), fun v c => WithLp.ofLp (O.prox (WithLp.toLp 2 v) c),
        fun v c => WithLp.ofLp (O.proxDual (WithLp.toLp 2 v) c), fun v => WithLp.ofLp (O.op (WithLp.toLp 2 v)),
        fun v => WithLp.ofLp (O.adj (WithLp.toLp 2 v))⟩ U a b c (WithLp.ofLp x) (WithLp.ofLp y) n).y
      = WithLp.ofLp ((Condat.step O U)^[n] ⟨x, y, a, b, c⟩).y := by
  let φ : EuclideanSpace ℝ ι →ₗ[ℝ] (ι → ℝ) := (WithLp.linearEquiv 2 ℝ (ι → ℝ)).toLinearMap
  let ψ : EuclideanSpace ℝ κ →ₗ[ℝ] (κ → ℝ) := (WithLp.linearEquiv 2 ℝ (κ → ℝ)).toLinearMap
  have hstep : (Cx.genStep G P w none none : FB.GenSt Unit (EuclideanSpace ℝ ι) → _) = FB.genStep G P w none none := by
    funext s
    simp only [Cx.genStep, FB.genStep, genZ_eq]
  have hP : List.Forall₂ (CarriesProx φ) P (P.map fun p v c => WithLp.ofLp (p (WithLp.toLp 2 v) c)) := by
    induction P with
    | nil => exact .nil
    | cons p ps ih =>
      refine .cons (fun v c => rfl) (ih ?_)
      funext s
      simp only [Cx.genStep, FB.genStep, genZ_eq]
  have e1 : Cx.genAfter (fun v => WithLp.ofLp (G (WithLp.toLp 2 v)))
        (P.map fun p v c => WithLp.ofLp (p (WithLp.toLp 2 v) c)) w a b (WithLp.ofLp x) n
      = Cx.mapGen φ ((FB.genStep G P w none none)^[n] (FB.genInit x P.length a b ())) := by
    have h := Cx.iterate_map (φ := Cx.mapGen (S := Unit) φ) (fun s => Cx.genStep_map φ (G := G)
      (G' := fun v => WithLp.ofLp (G (WithLp.toLp 2 v))) (fun v => rfl) hP w none none s) (FB.genInit x P.length a b ()) n
    rw [hstep] at h
    rw [← h]
    unfold Cx.genAfter FB.genInit Cx.mapGen
    simp only [List.map_replicate, List.length_map]
    rfl
  have e2 : Cx.condatAfter ⟨fun v => WithLp.ofLp (O.grad (WithLp.toLp 2 v)),
        fun v c => WithLp.ofLp (O.prox (WithLp.toLp 2 v) c),
        fun v c => WithLp.ofLp (O.proxDual (WithLp.toLp 2 v) c), fun v => WithLp.ofLp (O.op (WithLp.toLp 2 v)),
        fun v => WithLp.ofLp (O.adj (WithLp.toLp 2 v))⟩ U a b c (WithLp.ofLp x) (WithLp.ofLp y) n
      = Cx.mapCondat φ ψ ((Condat.step O U)^[n] ⟨x, y, a, b, c⟩) :=
    Cx.iterate_map (φ := Cx.mapCondat φ ψ) (f := Condat.step O U)
      (fun s => Cx.condatStep_map φ ψ O ⟨fun v => WithLp.ofLp (O.grad (WithLp.toLp 2 v)),
        fun v c => WithLp.ofLp (O.prox (WithLp.toLp 2 v) c),
        fun v c => WithLp.ofLp (O.proxDual (WithLp.toLp 2 v) c), fun v => WithLp.ofLp (O.op (WithLp.toLp 2 v)),
        fun v => WithLp.ofLp (O.adj (WithLp.toLp 2 v))⟩ (fun v => rfl) (fun v c => rfl) (fun v c => rfl)
        (fun v => rfl) (fun v => rfl) U s) ⟨x, y, a, b, c⟩ n
  rw [e1, e2]
  exact ⟨rfl, rfl, rfl⟩

end Agree

end Verif
