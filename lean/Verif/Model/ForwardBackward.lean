import Verif.Model.Fista
import Verif.Model.Loop

/-!
# Model of `ForwardBackward`, `GenForwardBackward` and `POGM`
(`src/modopt/opt/algorithms/forward_backward.py:288-1048`)

Data live in a real inner-product space `E`; the gradient operator is a function `E → E`, a proximity
operator a function of the data and the extra factor.  Copies of arrays are values.  Metrics, progress
bar and backends are handled in `Verif.Model.Loop` or not modelled.
-/

namespace Verif.FB

/-- A constructor argument that has to be a Python `float`. -/
inductive ParamArg
  | float (v : ℝ)
  | other

/-- `SetUp._check_param` (algorithms/base.py:179-196). -/
def checkParam : ParamArg → Py ℝ
  | .float v => .ok v
  | .other => .error .typeError

/-- A parameter-update argument: `None`, a callable with its own state of type `U`, a string, or
something else. -/
inductive UpdArg (U : Type)
  | none
  | callable (f : U → ℝ → ℝ × U)
  | str (s : String)
  | other

/-- `SetUp._check_param_update` (algorithms/base.py:198-221). -/
def checkParamUpdate {U : Type} : UpdArg U → Py (Option (U → ℝ → ℝ × U))
  | .none => .ok Option.none
  | .callable f => .ok (some f)
  | .str _ => .error .typeError
  | .other => .error .typeError

/-- The `metrics` argument. -/
inductive MetricsArg
  | none
  | dict (nonempty : Bool)
  | other

/-- `SetUp.metrics` setter (algorithms/base.py:111-120): is there any metric? -/
def setMetrics : MetricsArg → Py Bool
  | .none => .ok false
  | .dict b => .ok b
  | .other => .error .typeError

open Classical in
/-- `self.step_size or param`: `None` and `0` are false. -/
noncomputable def orParam (stepSize : Option ℝ) (param : ℝ) : ℝ :=
  match stepSize with
  | some v => if v = 0 then param else v
  | none => param

section
variable {E : Type} [NormedAddCommGroup E] [InnerProductSpace ℝ E]

/-- The update rules of an algorithm object: `_beta_update`, `_lambda_update`, `_is_restart`, acting on
the state `S` of whatever implements them. -/
structure Rules (S E : Type) where
  betaUpdate : Option (S → ℝ → ℝ × S)
  lambdaUpdate : Option (S → ℝ → ℝ × S)
  isRestart : S → E → E → E → Bool × S

/-- The mutable attributes of a `ForwardBackward` object.  `_x_new` and `_z_new` do not exist before the
first update. -/
structure St (S E : Type) where
  xOld : E
  zOld : E
  xNew : Option E
  zNew : Option E
  beta : ℝ
  lam : ℝ
  rules : S

/-- The rules set up for `lambda_update="fista"` (forward_backward.py:401-405): the user's `beta_update` is
replaced by FISTA's. -/
noncomputable def fistaRules {U : Type} : Rules (Fista.Obj × U) E where
  betaUpdate := some fun s β => (Fista.updateBeta s.1 β, s)
  lambdaUpdate := some fun s _ => ((Fista.updateLambda s.1).1, (Fista.updateLambda s.1).2, s.2)
  isRestart s z xn xo := ((Fista.isRestart s.1 z xn xo).1, (Fista.isRestart s.1 z xn xo).2, s.2)

/-- The rules set up for user-supplied updates (forward_backward.py:399-400, 406-409). -/
def userRules {U : Type} (bu lu : Option (U → ℝ → ℝ × U)) : Rules U E where
  betaUpdate := bu
  lambdaUpdate := lu
  isRestart s _ _ _ := (false, s)

/-- An optional parameter update (forward_backward.py:422-428). -/
def applyUpd {S : Type} (u : Option (S → ℝ → ℝ × S)) (s : S) (v : ℝ) : ℝ × S :=
  match u with
  | none => (v, s)
  | some f => f s v

/-- `ForwardBackward._update` (forward_backward.py:430-465) without the convergence test, which is in
`Verif.Model.Loop`. -/
def step {S : Type} (grad : E → E) (prox : E → ℝ → E) (R : Rules S E) (s : St S E) : St S E :=
  let y := s.zOld - s.beta • grad s.zOld
  let xNew := prox y s.beta
  let z := s.xOld + s.lam • (xNew - s.xOld)
  let (restart, r) := R.isRestart s.rules s.zOld xNew s.xOld
  let zNew := if restart then xNew else z
  let (beta, r) := applyUpd R.betaUpdate r s.beta
  let (lam, r) := applyUpd R.lambdaUpdate r s.lam
  { xOld := xNew, zOld := zNew, xNew := some xNew, zNew := some zNew, beta := beta, lam := lam, rules := r }

/-- The constructor arguments of `ForwardBackward` that matter before the first iteration. -/
structure Args (U E : Type) where
  x : Option E
  metrics : MetricsArg
  hasLinear : Bool
  betaParam : ParamArg
  lambdaParam : ParamArg
  stepSize : Option ℝ
  betaUpdate : UpdArg U
  lambdaUpdate : UpdArg U
  user : U
  /-- the FISTA keyword arguments -/
  strategy : Option String
  minBeta : Option ℝ
  sGreedy : Option ℝ
  xi : Option ℝ
  aCd : Option ℝ
  p : ℝ
  q : ℝ
  r : ℝ

/-- A constructed object with its initial state: one driven by a `FISTA` object (rules `fistaRules`), or
one with the user's updates (rules `userRules bu lu`). -/
inductive Built (U E : Type)
  | fista (st : St (Fista.Obj × U) E)
  | user (bu lu : Option (U → ℝ → ℝ × U)) (st : St U E)

/-- `ForwardBackward.__init__` (forward_backward.py:341-413) up to the automatic run; `x = none` stands for
input that is not an array.  Operator checks only warn and are left out. -/
noncomputable def init {U : Type} (a : Args U E) : Py (Built U E) := do
  let anyMetrics ← setMetrics a.metrics
  match a.x with
  | none => .error .typeError
  | some x =>
    if anyMetrics = true ∧ a.hasLinear = false then .error .valueError
    else do
      let beta ← checkParam a.betaParam
      let lam ← checkParam a.lambdaParam
      let beta := orParam a.stepSize beta
      let bu ← checkParamUpdate a.betaUpdate
      match a.lambdaUpdate with
      | .str "fista" => do
        let f ← Fista.init a.strategy a.minBeta a.sGreedy a.xi a.aCd a.p a.q a.r
        .ok (.fista ⟨x, x, none, none, beta, lam, (f, a.user)⟩)
      | lu => do
        let lu ← checkParamUpdate lu
        .ok (.user bu lu ⟨x, x, none, none, beta, lam, a.user⟩)

/-- The algorithm object for the driver: every update performs `step` and then the convergence test with
the cost object `getCost`, reading `_x_new`. -/
def parts {S M C : Type} (grad : E → E) (prox : E → ℝ → E) (R : Rules S E)
    (notify : ℕ → St S E → M → Py M) (flag : M → Bool) (getCost : St S E → C → Py (Bool × C))
    (hasCost : Bool) : Loop.Parts (St S E) M C where
  step _ s := .ok (step grad prox R s)
  notify := notify
  flag := flag
  getCost := getCost
  hasCost := hasCost

/-- `self.x_final = self._z_new` at the end of `iterate` (forward_backward.py:485). -/
def xFinal {S : Type} (s : St S E) : Py E :=
  match s.zNew with
  | some z => .ok z
  | none => .error .attributeError

end

/-! ## `GenForwardBackward` -/

section
variable {E : Type} [NormedAddCommGroup E] [InnerProductSpace ℝ E]

/-- The mutable attributes of a `GenForwardBackward` object with `n` proximity operators. -/
structure GenSt (S E : Type) where
  xOld : E
  z : List E
  gamma : ℝ
  lam : ℝ
  rules : S

/-- The loop over the proximity operators (forward_backward.py:721-728). -/
noncomputable def genZ (xOld g : E) (gamma lam : ℝ) : List (E → ℝ → E) → List E → List ℝ → List E
  | p :: ps, z :: zs, w :: ws =>
    (z + lam • (p ((2 : ℝ) • xOld - z - gamma • g) (gamma / w) - xOld)) :: genZ xOld g gamma lam ps zs ws
  | _, _, _ => []

/-- `GenForwardBackward._update` (forward_backward.py:708-740) without the convergence test, with `_update_param`
(forward_backward.py:693-706). -/
noncomputable def genStep {S : Type} (grad : E → E) (prox : List (E → ℝ → E)) (w : List ℝ)
    (gu lu : Option (S → ℝ → ℝ × S)) (s : GenSt S E) : GenSt S E :=
  let z := genZ s.xOld (grad s.xOld) s.gamma s.lam prox s.z w
  let x := (List.zipWith (fun z w => (w : ℝ) • z) z w).sum
  let (gamma, r) := applyUpd gu s.rules s.gamma
  let (lam, r) := applyUpd lu r s.lam
  { xOld := x, z := z, gamma := gamma, lam := lam, rules := r }

/-- The initial state (forward_backward.py:598, 626-627, 640): all auxiliary variables equal `x`. -/
def genInit {S : Type} (x : E) (n : ℕ) (gamma lam : ℝ) (r : S) : GenSt S E :=
  ⟨x, List.replicate n x, gamma, lam, r⟩

end

/-- The weights argument of `GenForwardBackward`. -/
inductive WeightsArg (K : Type)
  | none
  | seq (l : List K) (floating : Bool)
  | other

/-- `_set_weights` (forward_backward.py:646-691) over a number type with its own division and summation
(`fsum` models `np.sum`), so that rounding can be taken into account. -/
def setWeights {K : Type} [DecidableEq K] [One K] (inv : ℕ → K) (fsum : List K → K) (n : ℕ)
    (w : WeightsArg K) : Py (List K) := do
  let (l, fl) ← (match w with
    | .none => if n = 0 then .error .zeroDivisionError else .ok (List.replicate n (inv n), true)
    | .other => .error .typeError
    | .seq l fl => .ok (l, fl) : Py (List K × Bool))
  if fl = false then .error .valueError
  else if l.length ≠ n then .error .valueError
  else if fsum l ≠ 1 then .error .valueError
  else .ok l

/-! ## `POGM` -/

section
variable {E : Type} [NormedAddCommGroup E] [InnerProductSpace ℝ E]

/-- The mutable attributes of a `POGM` object. -/
structure Pogm (E : Type) where
  uOld : E
  xOld : E
  yOld : E
  z : E
  gOld : E
  xi : ℝ
  sigma : ℝ
  t : ℝ

/-- `POGM.__init__` (forward_backward.py:858-924): validation of the parameters and the initial state. -/
noncomputable def pogmInit (grad : E → E) (u x y z : Option E) (betaParam sigmaBar : ParamArg)
    (stepSize : Option ℝ) : Py (ℝ × ℝ × Pogm E) :=
  match u, x, y, z with
  | some u, some x, some y, some z => do
    let beta ← checkParam betaParam
    let sb ← checkParam sigmaBar
    if sb < 0 ∨ sb > 1 then .error .valueError
    else .ok (orParam stepSize beta, sb, ⟨u, x, y, z, grad x, 1, 1, 1⟩)
  | _, _, _, _ => .error .typeError

open Classical RealInnerProductSpace in
/-- `POGM._update` (forward_backward.py:926-987) without the convergence test. -/
noncomputable def pogmStep (grad : E → E) (prox : E → ℝ → E) (beta sigmaBar : ℝ) (s : Pogm E) : Pogm E :=
  let g := grad s.xOld
  let uNew := -(beta • g) + s.xOld
  let tNew := 0.5 * (1 + Real.sqrt (1 + 4 * s.t ^ 2))
  let tRatio := (s.t - 1) / tNew
  let sRatio := s.sigma * s.t / tNew
  let bRatio := tRatio * beta / s.xi
  let z := -(bRatio • (s.xOld - s.z)) + uNew + tRatio • (uNew - s.uOld) + sRatio • (uNew - s.xOld)
  let xi := beta * (1 + tRatio + sRatio)
  let xNew := prox z xi
  let gNew := (1 / xi) • (z - xNew) + g
  let yNew := -(beta • gNew) + s.xOld
  if ⟪-gNew, yNew - s.yOld⟫ < 0 then ⟨uNew, xNew, yNew, z, gNew, xi, 1, 1⟩
  else if ⟪gNew, s.gOld⟫ < 0 then ⟨uNew, xNew, yNew, z, gNew, xi, s.sigma * sigmaBar, tNew⟩
  else ⟨uNew, xNew, yNew, z, gNew, xi, s.sigma, tNew⟩

end

end Verif.FB
