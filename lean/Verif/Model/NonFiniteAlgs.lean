import Verif.Model.NonFinite
import Verif.Model.PrimalDual
import Verif.Model.GradDescent

/-!
# `GenForwardBackward`, `POGM`, `Condat` and gradient descent on data with infinities and NaN

The updates of `Verif.Model.ForwardBackward`, `PrimalDual` and `GradDescent` on real arrays whose entries may be
infinite or NaN; see `Verif.Model.NonFinite` for the arithmetic.  Algorithm parameters are finite.
-/

namespace Verif.NF
open Ext

section
variable {ι κ : Type} [Fintype ι] [Fintype κ]

/-- `a - b` on arrays. -/
noncomputable def asub (a b : ι → Ext ℝ) (i : ι) : Ext ℝ := sub (a i) (b i)

/-- `c * a` for a finite number. -/
noncomputable def ascale (c : ℝ) (a : ι → Ext ℝ) (i : ι) : Ext ℝ := mul (fin c) (a i)

/-- `-a`. -/
noncomputable def aneg (a : ι → Ext ℝ) (i : ι) : Ext ℝ := neg (a i)

/-- `a / c` for a finite number. -/
noncomputable def adiv (a : ι → Ext ℝ) (c : ℝ) (i : ι) : Ext ℝ := div (a i) (fin c)

/-- `vdot(a, b) < 0`; false for NaN. -/
noncomputable def vdotNeg (a b : ι → Ext ℝ) : Bool :=
  match ∑ i, mul (a i) (b i) with
  | nan => false
  | v => !ge v (fin 0)

/-- The loop of `GenForwardBackward._update` (forward_backward.py:721-728), with non-zero weights. -/
noncomputable def genZ (xOld g : ι → Ext ℝ) (gamma lam : ℝ) :
    List ((ι → Ext ℝ) → ℝ → ι → Ext ℝ) → List (ι → Ext ℝ) → List ℝ → List (ι → Ext ℝ)
  | p :: ps, z :: zs, w :: ws =>
    (z + ascale lam (asub (p (asub (asub (ascale 2 xOld) z) (ascale gamma g)) (gamma / w)) xOld)) ::
      genZ xOld g gamma lam ps zs ws
  | _, _, _ => []

/-- `GenForwardBackward._update` (forward_backward.py:708-740). -/
noncomputable def genStep {S : Type} (grad : (ι → Ext ℝ) → ι → Ext ℝ) (prox : List ((ι → Ext ℝ) → ℝ → ι → Ext ℝ))
    (w : List ℝ) (gu lu : Option (S → ℝ → ℝ × S)) (s : FB.GenSt S (ι → Ext ℝ)) : FB.GenSt S (ι → Ext ℝ) :=
  let z := genZ s.xOld (grad s.xOld) s.gamma s.lam prox s.z w
  let x := (List.zipWith (fun z w => ascale w z) z w).sum
  let (gamma, r) := FB.applyUpd gu s.rules s.gamma
  let (lam, r) := FB.applyUpd lu r s.lam
  { xOld := x, z := z, gamma := gamma, lam := lam, rules := r }

/-- `POGM._update` (forward_backward.py:926-987). -/
noncomputable def pogmStep (grad : (ι → Ext ℝ) → ι → Ext ℝ) (prox : (ι → Ext ℝ) → ℝ → ι → Ext ℝ) (beta sigmaBar : ℝ)
    (s : FB.Pogm (ι → Ext ℝ)) : FB.Pogm (ι → Ext ℝ) :=
  let g := grad s.xOld
  let uNew := ascale (-beta) g + s.xOld
  let tNew := 0.5 * (1 + Real.sqrt (1 + 4 * s.t ^ 2))
  let tRatio := (s.t - 1) / tNew
  let sRatio := s.sigma * s.t / tNew
  let bRatio := tRatio * beta / s.xi
  let z := ascale (-bRatio) (asub s.xOld s.z) + uNew + ascale tRatio (asub uNew s.uOld) +
    ascale sRatio (asub uNew s.xOld)
  let xi := beta * (1 + tRatio + sRatio)
  let xNew := prox z xi
  let gNew := adiv (asub z xNew) xi + g
  let yNew := ascale (-beta) gNew + s.xOld
  if vdotNeg (aneg gNew) (asub yNew s.yOld) then ⟨uNew, xNew, yNew, z, gNew, xi, 1, 1⟩
  else if vdotNeg gNew s.gOld then ⟨uNew, xNew, yNew, z, gNew, xi, s.sigma * sigmaBar, tNew⟩
  else ⟨uNew, xNew, yNew, z, gNew, xi, s.sigma, tNew⟩

/-- `x_prox` and `y_prox` of `Condat._update` (primal_dual.py:186-203). -/
noncomputable def condatHalf (O : Condat.Ops (ι → Ext ℝ) (κ → Ext ℝ)) (s : Condat.St (ι → Ext ℝ) (κ → Ext ℝ)) :
    (ι → Ext ℝ) × (κ → Ext ℝ) :=
  let xp := O.prox (asub (asub s.x (ascale s.tau (O.grad s.x))) (ascale s.tau (O.adj s.y))) 1
  let yt := s.y + ascale s.sigma (O.op (asub (ascale 2 xp) s.x))
  let yp := asub yt (ascale s.sigma (O.proxDual (adiv yt s.sigma) (1 / s.sigma)))
  (xp, yp)

/-- `Condat._update` (primal_dual.py:174-214). -/
noncomputable def condatStep (O : Condat.Ops (ι → Ext ℝ) (κ → Ext ℝ)) (U : Condat.Upd)
    (s : Condat.St (ι → Ext ℝ) (κ → Ext ℝ)) : Condat.St (ι → Ext ℝ) (κ → Ext ℝ) :=
  let h := condatHalf O s
  { x := ascale s.rho h.1 + ascale (1 - s.rho) s.x
    y := ascale s.rho h.2 + ascale (1 - s.rho) s.y
    rho := Condat.app U.rho s.rho
    sigma := Condat.app U.sigma s.sigma
    tau := Condat.app U.tau s.tau }

end

/-! ## Gradient descent -/

section
variable {ι : Type}

/-- The attributes that stay fixed (as `GD.Conf`). -/
structure GDConf (ι : Type) where
  kind : GD.Kind
  epochSize : ℕ
  eps : ℝ
  etaUpdate : Option (ℝ → ℕ → ℝ)
  prox : (ι → Ext ℝ) → (ι → Ext ℝ) → ι → Ext ℝ

/-- The mutable attributes (as `GD.St`). -/
structure GDSt (ι : Type) where
  xOld : ι → Ext ℝ
  xNew : ι → Ext ℝ
  dir : ι → Ext ℝ
  speed : ι → Ext ℝ
  eta : ℝ
  betaPow : ℝ
  gammaPow : ℝ
  memory : ℕ → ι → Ext ℝ

/-- `_update_grad_dir` of each class (gradient_descent.py:163-172, 355-364, 414-420, 453-464). -/
noncomputable def gdDir (c : GDConf ι) (idx : ℕ) (g : ι → Ext ℝ) (s : GDSt ι) : GDSt ι :=
  match c.kind with
  | .momentum beta => { s with dir := fun i => mul (fin beta) (s.dir i) + g i }
  | .adam _ beta =>
    let bp := s.betaPow * beta
    { s with
      betaPow := bp
      dir := fun i => mul (fin (1 / (1 - bp))) (mul (fin beta) (s.dir i) + mul (fin (1 - beta)) (g i)) }
  | .saga =>
    let cycle := idx % c.epochSize
    { s with
      dir := fun i => sub (s.dir i) (s.memory cycle i) + g i
      memory := fun j => if j = cycle then g else s.memory j }
  | _ => { s with dir := g }

/-- `abs(grad) ** 2`. -/
noncomputable def sqAbs (v : Ext ℝ) : Ext ℝ := mul (Ext.abs v) (Ext.abs v)

/-- `_update_grad_speed` of each class (gradient_descent.py:174-183, 267-276, 313-324, 422-427). -/
noncomputable def gdSpeed (c : GDConf ι) (g : ι → Ext ℝ) (s : GDSt ι) : GDSt ι :=
  match c.kind with
  | .ada => { s with speed := fun i => s.speed i + sqAbs (g i) }
  | .rmsprop gamma =>
    { s with speed := fun i => mul (fin gamma) (s.speed i) + mul (fin (1 - gamma)) (sqAbs (g i)) }
  | .adam gamma _ =>
    let gp := s.gammaPow * gamma
    { s with
      gammaPow := gp
      speed := fun i => mul (fin (1 / (1 - gp))) (mul (fin gamma) (s.speed i) + mul (fin (1 - gamma)) (sqAbs (g i))) }
  | _ => s

/-- `step` of `_update` (gradient_descent.py:149): NumPy divides by zero without raising. -/
noncomputable def gdStepOf (c : GDConf ι) (s : GDSt ι) (i : ι) : Ext ℝ :=
  div (fin s.eta) (sqrt (s.speed i) + fin c.eps)

/-- `reset` (gradient_descent.py:227-229, 366-368). -/
noncomputable def gdReset (c : GDConf ι) (s : GDSt ι) : GDSt ι :=
  match c.kind with
  | .momentum _ => { s with dir := fun _ => fin 0 }
  | _ => s

/-- `GenericGradOpt._update` (gradient_descent.py:140-156) with `_update_reg` (gradient_descent.py:185-194), for a
positive `epoch_size`. -/
noncomputable def gdUpdate (c : GDConf ι) (idx : ℕ) (grad : (ι → Ext ℝ) → ι → Ext ℝ) (s : GDSt ι) : GDSt ι :=
  let g := grad s.xOld
  let s := gdSpeed c g (gdDir c idx g s)
  let step := gdStepOf c s
  let s := { s with xNew := fun i => sub (s.xOld i) (mul (step i) (s.dir i)) }
  let s := if idx % c.epochSize = 0 then
      let s := gdReset c s
      { s with xNew := c.prox s.xNew step }
    else s
  { s with
    xOld := s.xNew
    eta := match c.etaUpdate with
      | none => s.eta
      | some f => f s.eta idx }

/-- A history of updates: the value of `self.idx` and the gradient function of each. -/
noncomputable def gdRun (c : GDConf ι) : List (ℕ × ((ι → Ext ℝ) → ι → Ext ℝ)) → GDSt ι → GDSt ι
  | [], s => s
  | p :: h, s => gdRun c h (gdUpdate c p.1 p.2 s)

end
end Verif.NF
