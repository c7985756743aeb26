import Verif.Model.Broadcast
import Verif.Model.GradDescent
import Verif.Model.Admm

/-!
# Shapes: gradient descent and ADMM with NumPy's broadcasting

The same reading of arrays as in `Verif.Model.Broadcast`.  A number in an array expression is an array without axes.
-/

namespace Verif.Nd
variable {𝕜 : Type} [RCLike 𝕜]

/-! ## The gradient descent classes -/

/-- The attributes of a gradient descent object; `speed` is an array without axes when `_speed_grad` is the number one
(gradient_descent.py:246, 354). -/
structure GdSt (𝕜 : Type) where
  x : Arr 𝕜
  dir : Arr 𝕜
  speed : Arr ℝ
  memory : ℕ → Arr 𝕜
  betaPow : ℝ
  gammaPow : ℝ

/-- The constructors (gradient_descent.py:95-99, 243-247, 348-355, 404-405, 446-451). -/
def gdInit (k : GD.Kind) (x : Arr 𝕜) : GdSt 𝕜 where
  x := x
  dir := ⟨x.shape, fun _ => 0⟩
  speed := match k with
    | .vanilla => ⟨[], fun _ => 1⟩
    | .momentum _ => ⟨[], fun _ => 1⟩
    | _ => ⟨x.shape, fun _ => 0⟩
  memory _ := ⟨x.shape, fun _ => 0⟩
  betaPow := 1
  gammaPow := 1

/-- `abs(grad) ** 2`. -/
def absSq (g : Arr 𝕜) : Arr ℝ := ⟨g.shape, fun i => ‖g.val i‖ ^ 2⟩

/-- `_update_grad_dir` of each class (gradient_descent.py:163-172, 357-364, 408-413, 453-464); storing a row of the table
follows the rule of `copyto`. -/
noncomputable def gdDir (k : GD.Kind) (cycle : ℕ) (g : Arr 𝕜) (s : GdSt 𝕜) : Py (GdSt 𝕜) :=
  match k with
  | .momentum beta => do
    let d ← add (scale beta s.dir) g
    .ok { s with dir := d }
  | .adam _ beta => do
    let d ← add (scale beta s.dir) (scale (1 - beta) g)
    .ok { s with betaPow := s.betaPow * beta, dir := scale (1 / (1 - s.betaPow * beta)) d }
  | .saga => do
    let d ← sub s.dir (s.memory cycle)
    let d ← add d g
    let m ← copyto (s.memory cycle) g
    .ok { s with dir := d, memory := fun j => if j = cycle then m else s.memory j }
  | _ => .ok { s with dir := g }

/-- `_update_grad_speed` of each class (gradient_descent.py:174-183, 267-276, 313-324, 422-427): `AdaGenericGradOpt` adds in
place. -/
noncomputable def gdSpeed (k : GD.Kind) (g : Arr 𝕜) (s : GdSt 𝕜) : Py (GdSt 𝕜) :=
  match k with
  | .ada => do
    let v ← iadd s.speed (absSq g)
    .ok { s with speed := v }
  | .rmsprop gamma => do
    let v ← add (scale gamma s.speed) (scale (1 - gamma) (absSq g))
    .ok { s with speed := v }
  | .adam gamma _ => do
    let v ← add (scale gamma s.speed) (scale (1 - gamma) (absSq g))
    .ok { s with gammaPow := s.gammaPow * gamma, speed := scale (1 / (1 - s.gammaPow * gamma)) v }
  | _ => .ok s

/-- `step` (gradient_descent.py:149). -/
noncomputable def gdStepSize (eta eps : ℝ) (s : GdSt 𝕜) : Arr ℝ :=
  ⟨s.speed.shape, fun i => eta / (Real.sqrt (s.speed.val i) + eps)⟩

/-- `reset` (gradient_descent.py:227-229, 366-368): the direction gets the shape of `_x_new`. -/
def gdReset (k : GD.Kind) (xNew : Arr 𝕜) (s : GdSt 𝕜) : GdSt 𝕜 :=
  match k with
  | .momentum _ => { s with dir := ⟨xNew.shape, fun _ => 0⟩ }
  | _ => s

/-- The end of an epoch (gradient_descent.py:151-153) with `_update_reg` (gradient_descent.py:185-194). -/
noncomputable def gdEpoch (k : GD.Kind) (prox : Arr 𝕜 → Arr ℝ → Py (Arr 𝕜)) (epochEnd : Bool) (step : Arr ℝ) (xNew : Arr 𝕜)
    (s : GdSt 𝕜) : Py (GdSt 𝕜) :=
  if epochEnd then do
    let p ← prox xNew step
    .ok { gdReset k xNew s with x := p }
  else .ok { s with x := xNew }

/-- `GenericGradOpt._update` (gradient_descent.py:140-156); `eta` and `epochEnd` belong to the update, and `_x_new` is the
new `_x_old`. -/
noncomputable def gdShapeStep (k : GD.Kind) (grad : Arr 𝕜 → Py (Arr 𝕜)) (prox : Arr 𝕜 → Arr ℝ → Py (Arr 𝕜)) (eps eta : ℝ)
    (cycle : ℕ) (epochEnd : Bool) (s : GdSt 𝕜) : Py (GdSt 𝕜) := do
  let g ← grad s.x
  let s ← gdDir k cycle g s
  let s ← gdSpeed k g s
  let step := gdStepSize eta eps s
  let d ← binop (fun (a : ℝ) (b : 𝕜) => (a : 𝕜) * b) step s.dir
  let xNew ← sub s.x d
  gdEpoch k prox epochEnd step xNew s

/-- `n` updates after the constructor. -/
noncomputable def gdShapeRun (k : GD.Kind) (grad : Arr 𝕜 → Py (Arr 𝕜)) (prox : Arr 𝕜 → Arr ℝ → Py (Arr 𝕜)) (eps : ℝ)
    (eta : ℕ → ℝ) (cycle : ℕ → ℕ) (epochEnd : ℕ → Bool) (x : Arr 𝕜) : ℕ → Py (GdSt 𝕜)
  | 0 => .ok (gdInit k x)
  | n + 1 => do
    let s ← gdShapeRun k grad prox eps eta cycle epochEnd x n
    gdShapeStep k grad prox eps (eta n) (cycle n) (epochEnd n) s

/-! ## `ADMM` -/

/-- The operators of `ADMM` (admm.py:133-139). -/
structure AdmmOps (𝕜 : Type) where
  A : Arr 𝕜 → Py (Arr 𝕜)
  B : Arr 𝕜 → Py (Arr 𝕜)
  b : Arr 𝕜
  optH : Arr 𝕜 → Arr 𝕜 → Py (Arr 𝕜)
  optG : Arr 𝕜 → Arr 𝕜 → Py (Arr 𝕜)

/-- The arrays of an `ADMM` object. -/
structure AdmmSt (𝕜 : Type) where
  u : Arr 𝕜
  v : Arr 𝕜
  mu : Arr 𝕜

/-- The two minimisations and the multiplier (admm.py:154-164 with `_v_old` and `_mu_old`, 305-315 with `_v_hat` and
`_mu_hat`). -/
def admmHalf (O : AdmmOps 𝕜) (u v mu : Arr 𝕜) : Py (AdmmSt 𝕜) := do
  let w ← O.B v
  let w ← add w u
  let w ← sub w O.b
  let uNew ← O.optH u w
  let tmp ← O.A uNew
  let w ← add tmp u
  let w ← sub w O.b
  let vNew ← O.optG v w
  let w ← O.B vNew
  let w ← add tmp w
  let w ← sub w O.b
  let muNew ← add mu w
  .ok ⟨uNew, vNew, muNew⟩

/-- `n` updates of `ADMM` (admm.py:153-169); the old arrays are replaced by copies of the new ones. -/
def admmShapeRun (O : AdmmOps 𝕜) (s : AdmmSt 𝕜) : ℕ → Py (AdmmSt 𝕜)
  | 0 => .ok s
  | n + 1 => do
    let s ← admmShapeRun O s n
    admmHalf O s.u s.v s.mu

/-- The attributes of a `FastADMM` object; `none` means that `_v_hat`, `_mu_hat` are the arrays `_v_old`, `_mu_old`
themselves, and that `_c_old` is infinite. -/
structure FastSt (𝕜 : Type) where
  u : Arr 𝕜
  v : Arr 𝕜
  mu : Arr 𝕜
  vHat : Option (Arr 𝕜)
  muHat : Option (Arr 𝕜)
  uNew : Arr 𝕜
  vNew : Arr 𝕜
  cOld : Option ℝ
  alphaOld : ℝ

/-- `FastADMM.__init__` (admm.py:269-301): `b` is passed as the initial `v`. -/
def fastInit (O : AdmmOps 𝕜) (u _v mu : Arr 𝕜) (alpha : ℝ) : FastSt 𝕜 :=
  ⟨u, O.b, mu, some O.b, some mu, u, O.b, none, alpha⟩

/-- `new + (new - old) * beta` (admm.py:325-326). -/
noncomputable def extrapolate (new old : Arr 𝕜) (beta : ℝ) : Py (Arr 𝕜) := do
  let d ← sub new old
  add new (scale beta d)

/-- The extrapolation (admm.py:322-326) and the restart (admm.py:327-332). -/
noncomputable def fastHats (below : Bool) (s : FastSt 𝕜) (h : AdmmSt 𝕜) : Py (Option (Arr 𝕜) × Option (Arr 𝕜)) :=
  if below then do
    let alphaNew := 1 + Real.sqrt (1 + 4 * s.alphaOld ^ 2)
    let vh ← extrapolate h.v s.v ((alphaNew - 1) / s.alphaOld)
    let mh ← extrapolate h.mu s.mu ((alphaNew - 1) / s.alphaOld)
    .ok (some vh, some mh)
  else .ok (none, none)

/-- `FastADMM._update` (admm.py:303-336) for `eta` other than zero, without the convergence test; `norm` is
`xp.linalg.norm`. -/
noncomputable def fastShapeStep (O : AdmmOps 𝕜) (norm : Arr 𝕜 → ℝ) (eta tau : ℝ) (s : FastSt 𝕜) : Py (FastSt 𝕜) := do
  let vHat := s.vHat.getD s.v
  let muHat := s.muHat.getD s.mu
  let h ← admmHalf O s.u vHat muHat
  let d ← sub h.mu muHat
  let e ← sub h.v vHat
  let e ← O.B e
  let c := norm d + tau * norm e
  let hats ← fastHats (Admm.below c eta s.cOld) s h
  let u ← copyto s.u h.u
  let v ← copyto s.v h.v
  let mu ← copyto s.mu h.mu
  .ok ⟨u, v, mu, hats.1, hats.2, h.u, h.v, s.cOld, s.alphaOld⟩

/-- `n` updates of `FastADMM`. -/
noncomputable def fastShapeRun (O : AdmmOps 𝕜) (norm : Arr 𝕜 → ℝ) (eta tau : ℝ) (s : FastSt 𝕜) : ℕ → Py (FastSt 𝕜)
  | 0 => .ok s
  | n + 1 => do
    let s ← fastShapeRun O norm eta tau s n
    fastShapeStep O norm eta tau s

end Verif.Nd
