import Verif.Model.ForwardBackward
import Verif.Model.PrimalDual
import Mathlib.Analysis.RCLike.Basic

/-!
# The algorithms on real or complex arrays

`Verif.Model.ForwardBackward` works in a real inner-product space.  Here data are arrays `ι → 𝕜` with real or
complex entries (flattened; a shape is a choice of `ι`), the Python floats of the algorithms multiply them as real
numbers, and the restart criteria compare the value of `vdot`, which is complex for complex data, with 0 as NumPy
does.  The step functions are written once, for any test `ge a b` standing for `vdot(a, b) >= 0` and any norm.
Arithmetic is exact.
-/

namespace Verif.Cx

section Numpy
variable {ι 𝕜 : Type} [Fintype ι] [RCLike 𝕜]

/-- `np.vdot(a, b)`: the first argument is conjugated. -/
noncomputable def vdot (a b : ι → 𝕜) : 𝕜 := ∑ i, starRingEnd 𝕜 (a i) * b i

/-- NumPy's `c >= 0` for a real or complex number: complex numbers are ordered lexicographically. -/
def geZero (c : 𝕜) : Prop := RCLike.re c > 0 ∨ RCLike.re c = 0 ∧ RCLike.im c ≥ 0

/-- NumPy's `c < 0`. -/
def ltZero (c : 𝕜) : Prop := RCLike.re c < 0 ∨ RCLike.re c = 0 ∧ RCLike.im c < 0

/-- NumPy's `c > 0`. -/
def gtZero (c : 𝕜) : Prop := RCLike.re c > 0 ∨ RCLike.re c = 0 ∧ RCLike.im c > 0

open Classical in
/-- `pos_thresh` (positivity.py:13-29) on a real or complex array: `input_data * (input_data > 0)`. -/
noncomputable def posThresh (x : ι → 𝕜) (i : ι) : 𝕜 := x i * (if gtZero (x i) then 1 else 0)

/-- `np.linalg.norm` of an array, flattened. -/
noncomputable def norm2 (a : ι → 𝕜) : ℝ := Real.sqrt (∑ i, ‖a i‖ ^ 2)

end Numpy

section Steps
variable {E : Type} [AddCommGroup E] [Module ℝ E]

open Classical in
/-- `FISTA.is_restart` (forward_backward.py:176-224); `ge a b` is `vdot(a, b) >= 0`. -/
noncomputable def restartWith (ge : E → E → Prop) (norm : E → ℝ) (f : Fista.Obj) (zOld xNew xOld : E) :
    Bool × Fista.Obj :=
  match f.restart with
  | .none => (false, f)
  | .adaptive resetT xi =>
    if ge (zOld - xNew) (xNew - xOld) then
      let mode := match f.mode with
        | .regular p q r => .regular p q (r * xi)
        | m => m
      (true, { f with mode := mode, tNow := if resetT then 1 else f.tNow })
    else (false, f)
  | .greedy _ s _ =>
    let crit := decide (ge (zOld - xNew) (xNew - xOld))
    let delta := norm (xNew - xOld)
    match f.delta0 with
    | none => (crit, { f with delta0 := some (s * delta) })
    | some d0 => (crit, { f with safeguard := decide (delta ≥ d0) })

/-- The rules set up for `lambda_update="fista"` (forward_backward.py:401-405). -/
noncomputable def fistaRulesWith {U : Type} (ge : E → E → Prop) (norm : E → ℝ) : FB.Rules (Fista.Obj × U) E where
  betaUpdate := some fun s β => (Fista.updateBeta s.1 β, s)
  lambdaUpdate := some fun s _ => ((Fista.updateLambda s.1).1, (Fista.updateLambda s.1).2, s.2)
  isRestart s z xn xo := ((restartWith ge norm s.1 z xn xo).1, (restartWith ge norm s.1 z xn xo).2, s.2)

/-- `ForwardBackward._update` (forward_backward.py:430-459). -/
def fbStep {S : Type} (grad : E → E) (prox : E → ℝ → E) (R : FB.Rules S E) (s : FB.St S E) : FB.St S E :=
  let y := s.zOld - s.beta • grad s.zOld
  let xNew := prox y s.beta
  let z := s.xOld + s.lam • (xNew - s.xOld)
  let (restart, r) := R.isRestart s.rules s.zOld xNew s.xOld
  let zNew := if restart then xNew else z
  let (beta, r) := FB.applyUpd R.betaUpdate r s.beta
  let (lam, r) := FB.applyUpd R.lambdaUpdate r s.lam
  { xOld := xNew, zOld := zNew, xNew := some xNew, zNew := some zNew, beta := beta, lam := lam, rules := r }

/-- The loop of `GenForwardBackward._update` (forward_backward.py:721-728). -/
noncomputable def genZ (xOld g : E) (gamma lam : ℝ) : List (E → ℝ → E) → List E → List ℝ → List E
  | p :: ps, z :: zs, w :: ws =>
    (z + lam • (p ((2 : ℝ) • xOld - z - gamma • g) (gamma / w) - xOld)) :: genZ xOld g gamma lam ps zs ws
  | _, _, _ => []

/-- `GenForwardBackward._update` (forward_backward.py:708-740). -/
noncomputable def genStep {S : Type} (grad : E → E) (prox : List (E → ℝ → E)) (w : List ℝ)
    (gu lu : Option (S → ℝ → ℝ × S)) (s : FB.GenSt S E) : FB.GenSt S E :=
  let z := genZ s.xOld (grad s.xOld) s.gamma s.lam prox s.z w
  let x := (List.zipWith (fun z w => (w : ℝ) • z) z w).sum
  let (gamma, r) := FB.applyUpd gu s.rules s.gamma
  let (lam, r) := FB.applyUpd lu r s.lam
  { xOld := x, z := z, gamma := gamma, lam := lam, rules := r }

open Classical in
/-- `POGM._update` (forward_backward.py:926-987); `lt a b` is `vdot(a, b) < 0`. -/
noncomputable def pogmStep (lt : E → E → Prop) (grad : E → E) (prox : E → ℝ → E) (beta sigmaBar : ℝ)
    (s : FB.Pogm E) : FB.Pogm E :=
  let g := grad s.xOld
  let uNew := -(beta • g) + s.xOld
  let tNew := 0.5 * (1 + Real.sqrt (1 + 4 * s.t ^ 2))
  let tRatio := (s.t - 1) / tNew
  let sRatio := s.sigma * s.t / tNew
  let bRatio := tRatio * beta / s.xi
  let z := -(bRatio • (s.xOld - s.z)) + uNew + tRatio • (uNew - s.uOld) + sRatio • (uNew - s.xOld)
  let xi := beta * (1 + tRatio + sRatio)
  let xNew := prox z xi
  let gNew := (1 / xi) • (z - xNew) + g
  let yNew := -(beta • gNew) + s.xOld
  if lt (-gNew) (yNew - s.yOld) then ⟨uNew, xNew, yNew, z, gNew, xi, 1, 1⟩
  else if lt gNew s.gOld then ⟨uNew, xNew, yNew, z, gNew, xi, s.sigma * sigmaBar, tNew⟩
  else ⟨uNew, xNew, yNew, z, gNew, xi, s.sigma, tNew⟩

variable {H : Type} [AddCommGroup H] [Module ℝ H]

/-- `x_prox` and `y_prox` of `Condat._update` (primal_dual.py:186-203). -/
noncomputable def condatHalf (O : Condat.Ops E H) (s : Condat.St E H) : E × H :=
  let xp := O.prox (s.x - s.tau • O.grad s.x - s.tau • O.adj s.y) 1
  let yt := s.y + s.sigma • O.op ((2 : ℝ) • xp - s.x)
  let yp := yt - s.sigma • O.proxDual ((1 / s.sigma) • yt) (1 / s.sigma)
  (xp, yp)

/-- `Condat._update` (primal_dual.py:174-214). -/
noncomputable def condatStep (O : Condat.Ops E H) (U : Condat.Upd) (s : Condat.St E H) : Condat.St E H :=
  let h := condatHalf O s
  { x := s.rho • h.1 + (1 - s.rho) • s.x
    y := s.rho • h.2 + (1 - s.rho) • s.y
    rho := Condat.app U.rho s.rho
    sigma := Condat.app U.sigma s.sigma
    tau := Condat.app U.tau s.tau }

end Steps

section Arrays
variable {ι 𝕜 : Type} [Fintype ι] [RCLike 𝕜]

/-- The FISTA rules on arrays (forward_backward.py:401-405). -/
noncomputable def fistaRules {U : Type} : FB.Rules (Fista.Obj × U) (ι → 𝕜) :=
  fistaRulesWith (fun a b => geZero (vdot a b)) norm2

/-- A `ForwardBackward` run on arrays with `lambda_update="fista"`, started at `x`: the state after `n` updates
(forward_backward.py:366-367, 395-396, 430-459). -/
noncomputable def fistaAfter (grad : (ι → 𝕜) → ι → 𝕜) (prox : (ι → 𝕜) → ℝ → ι → 𝕜) (f : Fista.Obj)
    (beta lam : ℝ) (x : ι → 𝕜) (n : ℕ) : FB.St (Fista.Obj × Unit) (ι → 𝕜) :=
  (fbStep grad prox fistaRules)^[n] ⟨x, x, none, none, beta, lam, (f, ())⟩

/-- A `POGM` run on arrays: the state after `n` updates (forward_backward.py:887-890, 914-920, 926-987). -/
noncomputable def pogmAfter (grad : (ι → 𝕜) → ι → 𝕜) (prox : (ι → 𝕜) → ℝ → ι → 𝕜) (beta sigmaBar : ℝ)
    (u x y z : ι → 𝕜) (n : ℕ) : FB.Pogm (ι → 𝕜) :=
  (pogmStep (fun a b => ltZero (vdot a b)) grad prox beta sigmaBar)^[n] ⟨u, x, y, z, grad x, 1, 1, 1⟩

/-- A `GenForwardBackward` run on arrays with constant parameters: the state after `n` updates. -/
noncomputable def genAfter (grad : (ι → 𝕜) → ι → 𝕜) (prox : List ((ι → 𝕜) → ℝ → ι → 𝕜)) (w : List ℝ)
    (gamma lam : ℝ) (x : ι → 𝕜) (n : ℕ) : FB.GenSt Unit (ι → 𝕜) :=
  (genStep grad prox w none none)^[n] ⟨x, List.replicate prox.length x, gamma, lam, ()⟩

variable {κ : Type} [Fintype κ]

/-- A `Condat` run on arrays: the state after `n` updates. -/
noncomputable def condatAfter (O : Condat.Ops (ι → 𝕜) (κ → 𝕜)) (U : Condat.Upd) (rho sigma tau : ℝ)
    (x : ι → 𝕜) (y : κ → 𝕜) (n : ℕ) : Condat.St (ι → 𝕜) (κ → 𝕜) :=
  (condatStep O U)^[n] ⟨x, y, rho, sigma, tau⟩

end Arrays

end Verif.Cx
