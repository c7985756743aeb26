import Verif.Model.ForwardBackward
import Verif.Model.PrimalDual
import Verif.Model.Admm
import Verif.Model.GradDescent

/-!
# The `_update` methods with operators that may raise

Same code as in `Verif.Model.ForwardBackward`, `PrimalDual`, `Admm` and `GradDescent`, but every call of a
user-supplied operator may raise.  The exception propagates out of `_update`, `_iterations` and `iterate`
(no handler anywhere), and the object keeps every attribute that was assigned before the exception.
A `try…` function returns the object as it is left and the exception, if any.  Update callables for the
parameters and the cost object are not among the failing calls here.
-/

namespace Verif.Crash
open FB

section FB
variable {E : Type} [NormedAddCommGroup E] [InnerProductSpace ℝ E] {S : Type}

/-- `ForwardBackward._update` (forward_backward.py:430-465).  Before the exception of `get_grad` or
`prox.op` no attribute of the algorithm object is assigned. -/
def tryFB (grad : E → Py E) (prox : E × ℝ → Py E) (R : Rules S E) (s : St S E) : St S E × Option PyErr :=
  match grad s.zOld with
  | .error e => (s, some e)
  | .ok g =>
    match prox (s.zOld - s.beta • g, s.beta) with
    | .error e => (s, some e)
    | .ok xNew =>
      let z := s.xOld + s.lam • (xNew - s.xOld)
      let (restart, r) := R.isRestart s.rules s.zOld xNew s.xOld
      let zNew := if restart then xNew else z
      let (beta, r) := applyUpd R.betaUpdate r s.beta
      let (lam, r) := applyUpd R.lambdaUpdate r s.lam
      ({ xOld := xNew, zOld := zNew, xNew := some xNew, zNew := some zNew, beta := beta, lam := lam,
         rules := r }, none)

/-- The loop over the proximity operators (forward_backward.py:721-728): `self._z[i] += …` is executed for
each operator in turn, so an exception leaves the entries before it modified. -/
noncomputable def tryGenZ (xOld g : E) (gamma lam : ℝ) :
    List (E × ℝ → Py E) → List E → List ℝ → List E × Option PyErr
  | p :: ps, z :: zs, w :: ws =>
    match p ((2 : ℝ) • xOld - z - gamma • g, gamma / w) with
    | .error e => (z :: zs, some e)
    | .ok v =>
      let r := tryGenZ xOld g gamma lam ps zs ws
      ((z + lam • (v - xOld)) :: r.1, r.2)
  | _, _, _ => ([], none)

/-- `GenForwardBackward._update` (forward_backward.py:708-741). -/
noncomputable def tryGen (grad : E → Py E) (prox : List (E × ℝ → Py E)) (w : List ℝ)
    (gu lu : Option (S → ℝ → ℝ × S)) (s : GenSt S E) : GenSt S E × Option PyErr :=
  match grad s.xOld with
  | .error e => (s, some e)
  | .ok g =>
    match tryGenZ s.xOld g s.gamma s.lam prox s.z w with
    | (z, some e) => ({ s with z := z }, some e)
    | (z, none) =>
      let x := (List.zipWith (fun z w => (w : ℝ) • z) z w).sum
      let (gamma, r) := applyUpd gu s.rules s.gamma
      let (lam, r) := applyUpd lu r s.lam
      ({ xOld := x, z := z, gamma := gamma, lam := lam, rules := r }, none)

open Classical RealInnerProductSpace in
/-- `POGM._update` (forward_backward.py:926-987): `_z` and `_xi` are assigned before `prox.op` is called
(lines 948-954), the `_old` attributes after it. -/
noncomputable def tryPogm (grad : E → Py E) (prox : E × ℝ → Py E) (beta sigmaBar : ℝ) (s : Pogm E) :
    Pogm E × Option PyErr :=
  match grad s.xOld with
  | .error e => (s, some e)
  | .ok g =>
    let uNew := -(beta • g) + s.xOld
    let tNew := 0.5 * (1 + Real.sqrt (1 + 4 * s.t ^ 2))
    let tRatio := (s.t - 1) / tNew
    let sRatio := s.sigma * s.t / tNew
    let bRatio := tRatio * beta / s.xi
    let z := -(bRatio • (s.xOld - s.z)) + uNew + tRatio • (uNew - s.uOld) + sRatio • (uNew - s.xOld)
    let xi := beta * (1 + tRatio + sRatio)
    match prox (z, xi) with
    | .error e => ({ s with z := z, xi := xi }, some e)
    | .ok xNew =>
      let gNew := (1 / xi) • (z - xNew) + g
      let yNew := -(beta • gNew) + s.xOld
      (if ⟪-gNew, yNew - s.yOld⟫ < 0 then ⟨uNew, xNew, yNew, z, gNew, xi, 1, 1⟩
        else if ⟪gNew, s.gOld⟫ < 0 then ⟨uNew, xNew, yNew, z, gNew, xi, s.sigma * sigmaBar, tNew⟩
        else ⟨uNew, xNew, yNew, z, gNew, xi, s.sigma, tNew⟩, none)

end FB

section Condat
variable {E H : Type} [NormedAddCommGroup E] [InnerProductSpace ℝ E] [NormedAddCommGroup H]
  [InnerProductSpace ℝ H]

/-- The operators of a `Condat` object, each of which may raise. -/
structure CondatOps (E H : Type) where
  grad : E → Py E
  prox : E × ℝ → Py E
  proxDual : H × ℝ → Py H
  op : E → Py H
  adj : H → Py E

/-- `Condat._update` (primal_dual.py:174-220): the attributes are assigned after the last operator call. -/
noncomputable def tryCondat (O : CondatOps E H) (U : Condat.Upd) (s : Condat.St E H) :
    Condat.St E H × Option PyErr :=
  match O.grad s.x with
  | .error e => (s, some e)
  | .ok g =>
    match O.adj s.y with
    | .error e => (s, some e)
    | .ok a =>
      match O.prox (s.x - s.tau • g - s.tau • a, 1) with
      | .error e => (s, some e)
      | .ok xp =>
        match O.op ((2 : ℝ) • xp - s.x) with
        | .error e => (s, some e)
        | .ok l =>
          match O.proxDual ((1 / s.sigma) • (s.y + s.sigma • l), 1 / s.sigma) with
          | .error e => (s, some e)
          | .ok d =>
            let yp := s.y + s.sigma • l - s.sigma • d
            ({ x := s.rho • xp + (1 - s.rho) • s.x
               y := s.rho • yp + (1 - s.rho) • s.y
               rho := Condat.app U.rho s.rho
               sigma := Condat.app U.sigma s.sigma
               tau := Condat.app U.tau s.tau }, none)

end Condat

section Admm
variable {H V : Type} [NormedAddCommGroup H] [InnerProductSpace ℝ H]

/-- The operators of an `ADMM` object, each of which may raise. -/
structure AdmmOps (H V : Type) where
  optH : H × H → Py H
  optG : V × H → Py V
  A : H → Py H
  B : V → Py H
  b : H

/-- All iteration variables of an `ADMM` object (admm.py:146-151). -/
structure AdmmSt (H V : Type) where
  old : Admm.St H V
  uNew : H
  vNew : V
  muNew : H

/-- `ADMM._update` (admm.py:153-169): `_u_new` and `_v_new` are assigned as soon as the optimizers return,
the `_old` variables at the end. -/
def tryAdmm (P : AdmmOps H V) (s : AdmmSt H V) : AdmmSt H V × Option PyErr :=
  match P.B s.old.v with
  | .error e => (s, some e)
  | .ok bv =>
    match P.optH (s.old.u, bv + s.old.u - P.b) with
    | .error e => (s, some e)
    | .ok u =>
      match P.A u with
      | .error e => ({ s with uNew := u }, some e)
      | .ok tmp =>
        match P.optG (s.old.v, tmp + s.old.u - P.b) with
        | .error e => ({ s with uNew := u }, some e)
        | .ok v =>
          match P.B v with
          | .error e => ({ s with uNew := u, vNew := v }, some e)
          | .ok bv' =>
            let mu := s.old.mu + (tmp + bv' - P.b)
            (⟨⟨u, v, mu⟩, u, v, mu⟩, none)

end Admm

section GD
variable {ι 𝕜 : Type} [RCLike 𝕜]

/-- `GenericGradOpt._update` (gradient_descent.py:140-156) with a gradient and a proximity operator that may
raise: direction, speed and (in `reset`) the momentum are already updated when `prox.op` is called. -/
noncomputable def tryGD (c : GD.Conf ι 𝕜) (grad : (ι → 𝕜) → Py (ι → 𝕜))
    (prox : (ι → 𝕜) × (ι → ℝ) → Py (ι → 𝕜)) (idx : ℕ) (s : GD.St ι 𝕜) : GD.St ι 𝕜 × Option PyErr :=
  match grad s.xOld with
  | .error e => (s, some e)
  | .ok g =>
    let s := GD.updateSpeed c g (GD.updateDir c idx g s)
    let step := GD.stepOf c s
    let s := { s with xNew := fun i => s.xOld i - (step i : 𝕜) * s.dir i }
    if c.epochSize = 0 then (s, some .zeroDivisionError)
    else
      let fin (s : GD.St ι 𝕜) : GD.St ι 𝕜 :=
        { s with
          xOld := s.xNew
          eta := match c.etaUpdate with
            | none => s.eta
            | some f => f s.eta idx }
      if idx % c.epochSize = 0 then
        let s := GD.reset c s
        match prox (s.xNew, step) with
        | .error e => (s, some e)
        | .ok x => (fin { s with xNew := x }, none)
      else (fin s, none)

end GD

/-- A history of attempted updates, each with its own (possibly failing) operators: the object at the end and
the outcome of each attempt. -/
def attempts {σ A : Type} (try_ : A → σ → σ × Option PyErr) : List A → σ → σ × List (Option PyErr)
  | [], s => (s, [])
  | a :: h, s =>
    let r := try_ a s
    let t := attempts try_ h r.1
    (t.1, r.2 :: t.2)

/-- The number of attempts that did not raise. -/
def succeeded (l : List (Option PyErr)) : ℕ := l.countP (·.isNone)

end Verif.Crash
