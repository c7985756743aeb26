import Verif.Model.ForwardBackward

/-!
# Model of `src/modopt/opt/algorithms/primal_dual.py`

Exact real arithmetic on inner-product spaces; the iteration driver and the reweighting loop are in
`Verif.Model.Loop`.
-/

namespace Verif.Condat
open FB (ParamArg checkParam orParam)

variable {E H : Type} [NormedAddCommGroup E] [InnerProductSpace ℝ E] [NormedAddCommGroup H]
  [InnerProductSpace ℝ H]

/-- The mutable attributes of a `Condat` object. -/
structure St (E H : Type) where
  x : E
  y : H
  rho : ℝ
  sigma : ℝ
  tau : ℝ

/-- The operators: gradient, primal proximity operator (called without `extra_factor`, hence with its
default 1.0), dual proximity operator, linear operator and its adjoint. -/
structure Ops (E H : Type) where
  grad : E → E
  prox : E → ℝ → E
  proxDual : H → ℝ → H
  op : E → H
  adj : H → E

/-- The update callables (primal_dual.py:155-172). -/
structure Upd where
  rho : Option (ℝ → ℝ)
  sigma : Option (ℝ → ℝ)
  tau : Option (ℝ → ℝ)

/-- An optional update. -/
def app (u : Option (ℝ → ℝ)) (v : ℝ) : ℝ :=
  match u with
  | none => v
  | some f => f v

/-- `x_prox` and `y_prox` (primal_dual.py:186-203). -/
noncomputable def half (O : Ops E H) (s : St E H) : E × H :=
  let xp := O.prox (s.x - s.tau • O.grad s.x - s.tau • O.adj s.y) 1
  let yt := s.y + s.sigma • O.op ((2 : ℝ) • xp - s.x)
  let yp := yt - s.sigma • O.proxDual ((1 / s.sigma) • yt) (1 / s.sigma)
  (xp, yp)

/-- `_update` (primal_dual.py:174-220) without the convergence test. -/
noncomputable def step (O : Ops E H) (U : Upd) (s : St E H) : St E H :=
  let h := half O s
  { x := s.rho • h.1 + (1 - s.rho) • s.x
    y := s.rho • h.2 + (1 - s.rho) • s.y
    rho := app U.rho s.rho
    sigma := app U.sigma s.sigma
    tau := app U.tau s.tau }

/-- `__init__` (primal_dual.py:75-153): the parameters and the initial state; `none` stands for data that
are not arrays. -/
noncomputable def init (x : Option E) (y : Option H) (rho sigma tau : ParamArg) (stepSize : Option ℝ) :
    Py (St E H) :=
  match x, y with
  | some x, some y => do
    let r ← checkParam rho
    let s ← checkParam sigma
    let t ← checkParam tau
    .ok ⟨x, y, r, s, orParam stepSize t⟩
  | _, _ => .error .typeError

end Verif.Condat
