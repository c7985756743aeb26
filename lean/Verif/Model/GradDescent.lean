import Verif.Model.ForwardBackward
import Mathlib.Analysis.RCLike.Basic

/-!
# Model of `src/modopt/opt/algorithms/gradient_descent.py`

Arrays are functions on an index type `ι` with real or complex entries, in exact arithmetic.  The gradient
operator may change between updates (the user replaces `obs_data`), so each update gets its own gradient
function.  `speed` is an array for every class: the scalar `1.0` of the classes without scaling broadcasts.
When `√speed + ε = 0` NumPy divides by zero and yields `inf` or `nan`; this model does not follow those, so
theorems about iterates assume `ε > 0` or a class with speed 1.
-/

namespace Verif.GD

variable {ι 𝕜 : Type} [RCLike 𝕜]

/-- The subclass. -/
inductive Kind
  | generic
  | vanilla
  | ada
  | rmsprop (gamma : ℝ)
  | momentum (beta : ℝ)
  | adam (gamma beta : ℝ)
  | saga

/-- A numeric constructor argument. -/
inductive NumArg
  | float (v : ℝ)
  | int (v : ℤ)
  | other

/-- `SetUp._check_param` (algorithms/base.py:179-196). -/
def checkParam : NumArg → Py ℝ
  | .float v => .ok v
  | _ => .error .typeError

open Classical in
/-- `RMSpropGradOpt.__init__` (gradient_descent.py:306-311): the range is tested before the type; comparing
something that is not a number raises `TypeError`. -/
noncomputable def rmspropArgs (gamma : NumArg) : Py Kind :=
  let check : Py Unit := match gamma with
    | .float v => if v < 0 ∨ v > 1 then .error .valueError else .ok ()
    | .int v => if v < 0 ∨ v > 1 then .error .valueError else .ok ()
    | .other => .error .typeError
  match check with
  | .error e => .error e
  | .ok _ => match checkParam gamma with
    | .error e => .error e
    | .ok g => .ok (.rmsprop g)

/-- `MomentumGradOpt.__init__` (gradient_descent.py:347-350). -/
def momentumArgs (beta : NumArg) : Py Kind :=
  match checkParam beta with
  | .error e => .error e
  | .ok b => .ok (.momentum b)

open Classical in
/-- `ADAMGradOpt.__init__` (gradient_descent.py:401-412). -/
noncomputable def adamArgs (gamma beta : NumArg) : Py Kind :=
  match checkParam gamma with
  | .error e => .error e
  | .ok g => match checkParam beta with
    | .error e => .error e
    | .ok b =>
      if g < 0 ∨ g ≥ 1 then .error .valueError
      else if b < 0 ∨ b ≥ 1 then .error .valueError
      else .ok (.adam g b)

/-- The attributes that stay fixed. -/
structure Conf (ι 𝕜 : Type) where
  kind : Kind
  epochSize : ℕ
  eps : ℝ
  etaUpdate : Option (ℝ → ℕ → ℝ)
  prox : (ι → 𝕜) → (ι → ℝ) → (ι → 𝕜)

/-- The mutable attributes.  `memory j` is row `j` of `_grad_memory`. -/
structure St (ι 𝕜 : Type) where
  xOld : ι → 𝕜
  xNew : ι → 𝕜
  dir : ι → 𝕜
  speed : ι → ℝ
  eta : ℝ
  betaPow : ℝ
  gammaPow : ℝ
  memory : ℕ → ι → 𝕜

/-- Value of `_speed_grad` after construction (gradient_descent.py:98, 246, 352). -/
def initSpeed : Kind → ι → ℝ
  | .vanilla | .momentum _ => fun _ => 1
  | _ => fun _ => 0

/-- Value of `_eps` after construction (gradient_descent.py:113, 247, 353). -/
def initEps (k : Kind) (eps : ℝ) : ℝ :=
  match k with
  | .vanilla | .momentum _ => 0
  | _ => eps

/-- `GenericGradOpt.__init__` and the subclasses (gradient_descent.py:71-119, 243-247, 306-311, 347-353,
401-412, gradient_descent.py:446-451).  `stepSize` is accepted by `SetUp` through `**kwargs` and stored, but never read by these
classes. -/
def init (k : Kind) (x : ι → 𝕜) (prox : (ι → 𝕜) → (ι → ℝ) → (ι → 𝕜)) (eta eps : NumArg)
    (etaUpdate : Option (ℝ → ℕ → ℝ)) (epochSize : ℕ) (_stepSize : Option ℝ) : Py (Conf ι 𝕜 × St ι 𝕜) :=
  match checkParam eta with
  | .error e => .error e
  | .ok h => match checkParam eps with
    | .error e => .error e
    | .ok ep => .ok
      (⟨k, epochSize, initEps k ep, etaUpdate, prox⟩,
       ⟨x, x, fun _ => 0, initSpeed k, h, 1, 1, fun _ _ => 0⟩)

/-- `_update_grad_dir` of each class (gradient_descent.py:163-172, 355-364, 414-420, 453-464). -/
noncomputable def updateDir (c : Conf ι 𝕜) (idx : ℕ) (g : ι → 𝕜) (s : St ι 𝕜) : St ι 𝕜 :=
  match c.kind with
  | .momentum beta => { s with dir := fun i => (beta : 𝕜) * s.dir i + g i }
  | .adam _ beta =>
    let bp := s.betaPow * beta
    { s with
      betaPow := bp
      dir := fun i => ((1 / (1 - bp) : ℝ) : 𝕜) * ((beta : 𝕜) * s.dir i + ((1 - beta : ℝ) : 𝕜) * g i) }
  | .saga =>
    let cycle := idx % c.epochSize
    { s with
      dir := fun i => s.dir i - s.memory cycle i + g i
      memory := fun j => if j = cycle then g else s.memory j }
  | _ => { s with dir := g }

/-- `_update_grad_speed` of each class (gradient_descent.py:174-183, 267-276, 313-324, 422-427). -/
noncomputable def updateSpeed (c : Conf ι 𝕜) (g : ι → 𝕜) (s : St ι 𝕜) : St ι 𝕜 :=
  match c.kind with
  | .ada => { s with speed := fun i => s.speed i + ‖g i‖ ^ 2 }
  | .rmsprop gamma => { s with speed := fun i => gamma * s.speed i + (1 - gamma) * ‖g i‖ ^ 2 }
  | .adam gamma _ =>
    let gp := s.gammaPow * gamma
    { s with
      gammaPow := gp
      speed := fun i => (1 / (1 - gp)) * (gamma * s.speed i + (1 - gamma) * ‖g i‖ ^ 2) }
  | _ => s

/-- `reset` (gradient_descent.py:227-229, 366-368). -/
def reset (c : Conf ι 𝕜) (s : St ι 𝕜) : St ι 𝕜 :=
  match c.kind with
  | .momentum _ => { s with dir := fun _ => 0 }
  | _ => s

/-- `step` of `_update` (gradient_descent.py:149). -/
noncomputable def stepOf (c : Conf ι 𝕜) (s : St ι 𝕜) (i : ι) : ℝ := s.eta / (Real.sqrt (s.speed i) + c.eps)

/-- The direction and speed updates (gradient_descent.py:146-148). -/
noncomputable def prepare (c : Conf ι 𝕜) (idx : ℕ) (grad : (ι → 𝕜) → ι → 𝕜) (s : St ι 𝕜) : St ι 𝕜 :=
  updateSpeed c (grad s.xOld) (updateDir c idx (grad s.xOld) s)

/-- `GenericGradOpt._update` (gradient_descent.py:140-156) with `_update_reg` (gradient_descent.py:185-194), without the
convergence test. -/
noncomputable def update (c : Conf ι 𝕜) (idx : ℕ) (grad : (ι → 𝕜) → ι → 𝕜) (s : St ι 𝕜) : Py (St ι 𝕜) :=
  if c.epochSize = 0 then .error .zeroDivisionError
  else
    let s := prepare c idx grad s
    let step := stepOf c s
    let s := { s with xNew := fun i => s.xOld i - (step i : 𝕜) * s.dir i }
    let s := if idx % c.epochSize = 0 then
        let s := reset c s
        { s with xNew := c.prox s.xNew step }
      else s
    .ok { s with
      xOld := s.xNew
      eta := match c.etaUpdate with
        | none => s.eta
        | some f => f s.eta idx }

/-- A history: for every update, the value of `self.idx` and the gradient function in force.  One call of
`iterate(n)` that does not converge early contributes the indices `0, …, n-1`
(algorithms/base.py:264-266). -/
abbrev History (ι 𝕜 : Type) := List (ℕ × ((ι → 𝕜) → ι → 𝕜))

/-- Run a history. -/
noncomputable def run (c : Conf ι 𝕜) : History ι 𝕜 → St ι 𝕜 → Py (St ι 𝕜)
  | [], s => .ok s
  | (idx, g) :: h, s =>
    match update c idx g s with
    | .error e => .error e
    | .ok t => run c h t

end Verif.GD
