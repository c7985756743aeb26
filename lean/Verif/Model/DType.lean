import Verif.Model.ForwardBackward
import Verif.Model.PrimalDual
import Verif.Model.Admm
import Verif.Model.GradDescent
import Verif.Model.Matrix
import Mathlib.Algebra.Order.Round
import Mathlib.Analysis.Complex.Basic

/-!
# The algorithms on arrays with a data type

The value models have one kind of number.  Here every array carries the kind of its `dtype`: integer, real or
complex.  An operation gives the larger kind, a `float` parameter makes the result at least real, `np.copyto` and the
in-place operators raise `TypeError` (`UFuncTypeError` is a subclass) when the kind of the source is larger than that of
the destination (NumPy's rule `casting='same_kind'`), and assigning to a row (`a[i] = v`) converts silently.
Simplifications: boolean, unsigned and object arrays and the widths inside one kind are not distinguished, so that
rounding from double to single precision and integer overflow are not modelled.
-/

namespace Verif.DType
open FB (applyUpd)

/-- The kind of a `dtype`. -/
inductive Kind
  | int
  | float
  | complex
  deriving DecidableEq

/-- Position in NumPy's order of kinds. -/
def Kind.rank : Kind → ℕ
  | .int => 0
  | .float => 1
  | .complex => 2

/-- The kind of a result with two operands (`np.result_type`). -/
def Kind.join (a b : Kind) : Kind := if a.rank ≤ b.rank then b else a

/-- An array: its kind and its entries. -/
structure TArr (E : Type) where
  kind : Kind
  val : E

section
variable {E : Type} [NormedAddCommGroup E] [InnerProductSpace ℝ E]

/-- `a + b`. -/
def add (a b : TArr E) : TArr E := ⟨a.kind.join b.kind, a.val + b.val⟩

/-- `a - b`. -/
def sub (a b : TArr E) : TArr E := ⟨a.kind.join b.kind, a.val - b.val⟩

/-- `r * a` with a `float`. -/
noncomputable def scale (r : ℝ) (a : TArr E) : TArr E := ⟨Kind.float.join a.kind, r • a.val⟩

/-- `2 * a` with the `int` 2. -/
noncomputable def twice (a : TArr E) : TArr E := ⟨a.kind, (2 : ℝ) • a.val⟩

/-- `np.copyto(dst, src)`. -/
def copyto (dst src : TArr E) : Py (TArr E) :=
  if src.kind.rank ≤ dst.kind.rank then .ok ⟨dst.kind, src.val⟩ else .error .typeError

/-- `dst += src`. -/
def iadd (dst src : TArr E) : Py (TArr E) :=
  if src.kind.rank ≤ dst.kind.rank then .ok ⟨dst.kind, dst.val + src.val⟩ else .error .typeError

/-- `dst /= r` with a `float`. -/
noncomputable def idiv (dst : TArr E) (r : ℝ) : Py (TArr E) :=
  if Kind.float.rank ≤ dst.kind.rank then .ok ⟨dst.kind, (1 / r) • dst.val⟩ else .error .typeError

/-! ## `ForwardBackward` -/

/-- The arrays of a `ForwardBackward` object. -/
structure FbSt (S E : Type) where
  xOld : TArr E
  zOld : TArr E
  beta : ℝ
  lam : ℝ
  rules : S

/-- `ForwardBackward._update` (forward_backward.py:430-459): the old variables are replaced by copies, which take the
kind of the new ones. -/
noncomputable def fbStep {S : Type} (grad : TArr E → TArr E) (prox : TArr E → ℝ → TArr E) (R : FB.Rules S E)
    (s : FbSt S E) : Py (FbSt S E) :=
  let y := sub s.zOld (scale s.beta (grad s.zOld))
  let x := prox y s.beta
  let z := add s.xOld (scale s.lam (sub x s.xOld))
  let (restart, r) := R.isRestart s.rules s.zOld.val x.val s.xOld.val
  let z := if restart then x else z
  let (beta, r) := applyUpd R.betaUpdate r s.beta
  let (lam, r) := applyUpd R.lambdaUpdate r s.lam
  .ok ⟨x, z, beta, lam, r⟩

/-! ## `GenForwardBackward` -/

/-- The arrays of a `GenForwardBackward` object; `_z` is one array, with one kind. -/
structure GenSt (S E : Type) where
  xOld : TArr E
  zKind : Kind
  z : List E
  gamma : ℝ
  lam : ℝ
  rules : S

/-- `_x_old` and `_z` after construction (forward_backward.py:598, 640). -/
def genInit {S : Type} (x : TArr E) (n : ℕ) (gamma lam : ℝ) (r : S) : GenSt S E :=
  ⟨x, x.kind, List.replicate n x.val, gamma, lam, r⟩

/-- The loop over the proximity operators (forward_backward.py:721-728). -/
noncomputable def genLoop (x g : TArr E) (k : Kind) (gamma lam : ℝ) :
    List (TArr E → ℝ → TArr E) → List E → List ℝ → Py (List E)
  | p :: ps, z :: zs, w :: ws =>
    let t := sub (sub (twice x) ⟨k, z⟩) (scale gamma g)
    match iadd ⟨k, z⟩ (scale lam (sub (p t (gamma / w)) x)) with
    | .error e => .error e
    | .ok z' => match genLoop x g k gamma lam ps zs ws with
      | .error e => .error e
      | .ok zs' => .ok (z'.val :: zs')
  | _, _, _ => .ok []

/-- `GenForwardBackward._update` (forward_backward.py:708-741); the weights are real arrays
(forward_backward.py:674-678). -/
noncomputable def genStep {S : Type} (grad : TArr E → TArr E) (prox : List (TArr E → ℝ → TArr E)) (w : List ℝ)
    (gu lu : Option (S → ℝ → ℝ × S)) (s : GenSt S E) : Py (GenSt S E) :=
  match genLoop s.xOld (grad s.xOld) s.zKind s.gamma s.lam prox s.z w with
  | .error e => .error e
  | .ok z =>
    match copyto s.xOld ⟨Kind.float.join s.zKind, (List.zipWith (fun z w => (w : ℝ) • z) z w).sum⟩ with
    | .error e => .error e
    | .ok x =>
      let (gamma, r) := applyUpd gu s.rules s.gamma
      let (lam, r) := applyUpd lu r s.lam
      .ok ⟨x, s.zKind, z, gamma, lam, r⟩

/-! ## `POGM` -/

/-- The arrays of a `POGM` object. -/
structure PogmSt (E : Type) where
  uOld : TArr E
  xOld : TArr E
  yOld : TArr E
  z : TArr E
  gOld : TArr E
  xi : ℝ
  sigma : ℝ
  t : ℝ

open Classical RealInnerProductSpace in
/-- `POGM._update` (forward_backward.py:926-987). -/
noncomputable def pogmStep (grad : TArr E → TArr E) (prox : TArr E → ℝ → TArr E) (beta sigmaBar : ℝ) (s : PogmSt E) :
    Py (PogmSt E) := do
  let g := grad s.xOld
  let u ← iadd (scale (-beta) g) s.xOld
  let tNew := 0.5 * (1 + Real.sqrt (1 + 4 * s.t ^ 2))
  let tRatio := (s.t - 1) / tNew
  let sRatio := s.sigma * s.t / tNew
  let bRatio := tRatio * beta / s.xi
  let z ← iadd (scale (-bRatio) (sub s.xOld s.z)) u
  let z ← iadd z (scale tRatio (sub u s.uOld))
  let z ← iadd z (scale sRatio (sub u s.xOld))
  let xi := beta * (1 + tRatio + sRatio)
  let x := prox z xi
  let gn ← idiv (sub z x) xi
  let gn ← iadd gn g
  let y ← iadd (scale (-beta) gn) s.xOld
  let p : ℝ × ℝ :=
    if ⟪-gn.val, y.val - s.yOld.val⟫ < 0 then (1, 1)
    else if ⟪gn.val, s.gOld.val⟫ < 0 then (s.sigma * sigmaBar, tNew)
    else (s.sigma, tNew)
  let u' ← copyto s.uOld u
  let x' ← copyto s.xOld x
  let g' ← copyto s.gOld gn
  let y' ← copyto s.yOld y
  .ok ⟨u', x', y', z, g', xi, p.1, p.2⟩

/-! ## `Condat` -/

/-- The arrays of a `Condat` object. -/
structure CondatSt (E : Type) where
  x : TArr E
  y : TArr E
  rho : ℝ
  sigma : ℝ
  tau : ℝ

/-- The operators. -/
structure CondatOps (E : Type) where
  grad : TArr E → TArr E
  prox : TArr E → ℝ → TArr E
  proxDual : TArr E → ℝ → TArr E
  op : TArr E → TArr E
  adj : TArr E → TArr E

/-- `Condat._update` (primal_dual.py:174-214). -/
noncomputable def condatStep (O : CondatOps E) (U : Condat.Upd) (s : CondatSt E) : Py (CondatSt E) :=
  let xp := O.prox (sub (sub s.x (scale s.tau (O.grad s.x))) (scale s.tau (O.adj s.y))) 1
  let yt := add s.y (scale s.sigma (O.op (sub (twice xp) s.x)))
  let yp := sub yt (scale s.sigma (O.proxDual (scale (1 / s.sigma) yt) (1 / s.sigma)))
  let xn := add (scale s.rho xp) (scale (1 - s.rho) s.x)
  let yn := add (scale s.rho yp) (scale (1 - s.rho) s.y)
  match copyto s.x xn with
  | .error e => .error e
  | .ok x => match copyto s.y yn with
    | .error e => .error e
    | .ok y => .ok ⟨x, y, Condat.app U.rho s.rho, Condat.app U.sigma s.sigma, Condat.app U.tau s.tau⟩

/-! ## `FastADMM` -/

/-- The problem of a `FastADMM` object. -/
structure AdmmOps (E : Type) where
  optH : TArr E → TArr E → TArr E
  optG : TArr E → TArr E → TArr E
  A : TArr E → TArr E
  B : TArr E → TArr E
  b : TArr E

/-- The arrays of a `FastADMM` object; `none` is an extrapolated variable that is the current one. -/
structure FastSt (E : Type) where
  u : TArr E
  v : TArr E
  mu : TArr E
  vHat : Option (TArr E)
  muHat : Option (TArr E)
  cOld : Option ℝ
  cNew : Option ℝ
  alphaOld : ℝ
  alphaNew : ℝ
  eta : ℝ
  tau : ℝ

/-- `FastADMM.__init__` (admm.py:269-301). -/
def fastInit (O : AdmmOps E) (u _v mu : TArr E) (alpha eta _tau : ℝ) : FastSt E :=
  ⟨u, O.b, mu, some O.b, some mu, none, some 0, alpha, alpha, eta, 1⟩

/-- `FastADMM._update` (admm.py:303-336) without the convergence test. -/
noncomputable def fastStep (O : AdmmOps E) (s : FastSt E) : Py (FastSt E) :=
  let vHat := s.vHat.getD s.v
  let muHat := s.muHat.getD s.mu
  let u := O.optH s.u (sub (add (O.B vHat) s.u) O.b)
  let tmp := O.A u
  let v := O.optG vHat (sub (add tmp s.u) O.b)
  let mu := add muHat (sub (add tmp (O.B v)) O.b)
  let c := ‖mu.val - muHat.val‖ + s.tau * ‖(O.B (sub v vHat)).val‖
  let store (vh mh : Option (TArr E)) (cNew : Option ℝ) (alphaNew : ℝ) : Py (FastSt E) :=
    match copyto s.u u with
    | .error e => .error e
    | .ok u => match copyto s.v v with
      | .error e => .error e
      | .ok v => match copyto s.mu mu with
        | .error e => .error e
        | .ok mu => .ok ⟨u, v, mu, vh, mh, s.cOld, cNew, s.alphaOld, alphaNew, s.eta, s.tau⟩
  if Admm.below c s.eta s.cOld then
    let alphaNew := 1 + Real.sqrt (1 + 4 * s.alphaOld ^ 2)
    let beta := (alphaNew - 1) / s.alphaOld
    store (some (add v (scale beta (sub v s.v)))) (some (add mu (scale beta (sub mu s.mu)))) (some c) alphaNew
  else if s.eta = 0 then .error .zeroDivisionError
  else store none none (s.cOld.map (· / s.eta)) 1

end

/-! ## `SAGAOptGradOpt` -/

/-- Storing one entry in an array of the given kind without checks: the imaginary part is dropped, a real number is
cut towards zero. -/
noncomputable def castTo : Kind → ℂ → ℂ
  | .complex, z => z
  | .float, z => z.re
  | .int, z => if 0 ≤ z.re then ⌊z.re⌋ else ⌈z.re⌉

/-- `SAGAOptGradOpt._update` (gradient_descent.py:140-156, 453-464): as in the value model, except that
`self._grad_memory[cycle] = grad` stores into an array that has the `dtype` of the initial array
(gradient_descent.py:448-451). -/
noncomputable def sagaUpdate {ι : Type} (k : Kind) (c : GD.Conf ι ℂ) (idx : ℕ) (grad : (ι → ℂ) → ι → ℂ)
    (s : GD.St ι ℂ) : Py (GD.St ι ℂ) :=
  match GD.update c idx grad s with
  | .error e => .error e
  | .ok t => .ok { t with
      memory := fun j => if j = idx % c.epochSize then fun i => castTo k (grad s.xOld i) else s.memory j }

/-- Run a history. -/
noncomputable def sagaRun {ι : Type} (k : Kind) (c : GD.Conf ι ℂ) : GD.History ι ℂ → GD.St ι ℂ → Py (GD.St ι ℂ)
  | [], s => .ok s
  | (idx, g) :: h, s =>
    match sagaUpdate k c idx g s with
    | .error e => .error e
    | .ok t => sagaRun k c h t

/-! ## `PowerMethod` -/

section
variable {E : Type} [NormedAddCommGroup E] [NormedSpace ℝ E]

open Classical in
/-- The loop of `get_spec_rad` (matrix.py:357-377) on arrays of kind `k`, for an operator whose results have kind
`opKind`: `x_new /= x_new_norm` needs a real or complex array, `copyto(x_old, x_new)` a destination of large enough
kind. -/
noncomputable def powLoop (op : E → E) (k opKind : Kind) (tol : ℝ) : ℕ → Mat.PowSt E → Py (Mat.PowSt E)
  | 0, s => .ok s
  | n + 1, s =>
    if opKind.rank < Kind.float.rank then .error .typeError
    else
      let next (t : Mat.PowSt E) : Py (Mat.PowSt E) :=
        if opKind.rank ≤ k.rank then powLoop op k opKind tol n t else .error .typeError
      match s.xOld with
      | none => next ⟨none, none, none⟩
      | some x =>
        let y := op x
        let r := ‖y‖
        let y' : Option E := if r = 0 then none else some (r⁻¹ • y)
        match s.oldNorm with
        | none => next ⟨y', some r, some r⟩
        | some o => if |r - o| < tol then .ok ⟨some x, some o, some r⟩ else next ⟨y', some r, some r⟩

/-- `get_spec_rad` (matrix.py:332-380) for `data_type` of kind `k`: `x_old /= x_old_norm` comes first. -/
noncomputable def specRad (op : E → E) (k opKind : Kind) (x0 : E) (tol : ℝ) (maxIter : ℕ) (extra : ℝ) :
    Py (Option (ℝ × ℝ)) :=
  if k.rank < Kind.float.rank then .error .typeError
  else if maxIter = 0 then .error .unboundLocalError
  else
    let x := if ‖x0‖ = 0 then none else some (‖x0‖⁻¹ • x0)
    match powLoop op k opKind tol maxIter ⟨x, some ‖x0‖, none⟩ with
    | .error e => .error e
    | .ok s => .ok (s.newNorm.map fun r => (r * extra, 1 / (r * extra)))

end

end Verif.DType
