import Verif.Core.Py
import Verif.Model.Noise
import Mathlib.Analysis.RCLike.Basic
import Mathlib.Analysis.Real.Sqrt

/-!
# Shapes: the algorithms with NumPy's broadcasting

An array is a shape and the values at its indices.  Operands of an arithmetic expression need not have the same shape:
NumPy repeats axes of length one and adds missing axes in front, or raises `ValueError`.  In-place operations and `copyto`
cannot change the shape of their target.  Operators are functions that may raise and may return arrays of any shape.

The parameter updates are sequences of numbers indexed by the update.  Arrays have at least one axis: expressions of
arrays without axes are NumPy scalars, for which `+=` binds a new object.
-/

namespace Verif.Nd

/-- The lengths of the axes, *last axis first* (NumPy aligns shapes at the last axis). -/
abbrev Shape := List ℕ

/-- The shape of an arithmetic expression of two arrays (NumPy's broadcasting rule). -/
def join : Shape → Shape → Option Shape
  | [], t => some t
  | s, [] => some s
  | a :: s, b :: t =>
    match join s t with
    | none => none
    | some u => if a = b then some (a :: u) else if a = 1 then some (b :: u) else if b = 1 then some (a :: u) else none

/-- An array: an index gives a position for every axis, last axis first (only positions below the lengths matter). -/
structure Arr (𝕜 : Type) where
  shape : Shape
  val : (ℕ → ℕ) → 𝕜

/-- The index of the entry that broadcasting reads: position 0 on axes of length one and on missing axes. -/
def clip (s : Shape) (i : ℕ → ℕ) : ℕ → ℕ := fun k => if s.getD k 1 = 1 then 0 else i k

variable {𝕜 : Type} [RCLike 𝕜]

/-- An arithmetic expression of two arrays. -/
def binop {α β γ : Type} (f : α → β → γ) (a : Arr α) (b : Arr β) : Py (Arr γ) :=
  match join a.shape b.shape with
  | some u => .ok ⟨u, fun i => f (a.val (clip a.shape i)) (b.val (clip b.shape i))⟩
  | none => .error .valueError

/-- `a + b`. -/
def add (a b : Arr 𝕜) : Py (Arr 𝕜) := binop (· + ·) a b

/-- `a - b`. -/
def sub (a b : Arr 𝕜) : Py (Arr 𝕜) := binop (· - ·) a b

/-- `c * a` for a number `c`. -/
noncomputable def scale (c : ℝ) (a : Arr 𝕜) : Arr 𝕜 := ⟨a.shape, fun i => (c : 𝕜) * a.val i⟩

/-- `dst += src`: the result must fit into `dst`. -/
def iadd (dst src : Arr 𝕜) : Py (Arr 𝕜) :=
  if join dst.shape src.shape = some dst.shape then
    .ok ⟨dst.shape, fun i => dst.val (clip dst.shape i) + src.val (clip src.shape i)⟩
  else .error .valueError

/-- Leading axes of length one are removed until there are no more axes than `n`. -/
def strip (n : ℕ) (s : Shape) : Shape := if (s.drop n).all (· == 1) then s.take n else s

/-- `xp.copyto(dst, src)`: `src` is broadcast to the shape of `dst`; surplus leading axes of length one are ignored. -/
def copyto (dst src : Arr 𝕜) : Py (Arr 𝕜) :=
  if join (strip dst.shape.length src.shape) dst.shape = some dst.shape then
    .ok ⟨dst.shape, fun i => src.val (clip src.shape i)⟩
  else .error .valueError

/-! ## Operators -/

/-- `SparseThreshold.op` (proximity.py:186-206) with `thresh` (noise.py:169-182): entrywise expressions of the data and
the threshold `weights * extra_factor`, whose shape is the one of the weights. -/
noncomputable def sparseOp (w : Arr ℝ) (soft : Bool) (x : Arr 𝕜) (c : ℝ) : Py (Arr 𝕜) :=
  binop (fun x t => if soft then Noise.aroundK 15 ((Noise.softFactor (t * c) ‖x‖ : 𝕜) * x)
    else x * (if ‖x‖ ≥ t * c then 1 else 0)) x w

/-- `GradBasic._get_grad_method` (gradient.py:241-259): `trans_op(op(x) - obs_data)`. -/
def gradBasic (op adj : Arr 𝕜 → Py (Arr 𝕜)) (y : Arr 𝕜) (x : Arr 𝕜) : Py (Arr 𝕜) := do
  let v ← op x
  let r ← sub v y
  adj r

/-! ## `ForwardBackward` -/

/-- The arrays of a `ForwardBackward` object. -/
structure FBSt (𝕜 : Type) where
  xOld : Arr 𝕜
  zOld : Arr 𝕜

/-- `ForwardBackward._update` (forward_backward.py:430-459); `restart` is `_is_restart`.  `_x_new` and `_z_new` are the
new `_x_old` and `_z_old`. -/
noncomputable def fbStep (grad : Arr 𝕜 → Py (Arr 𝕜)) (prox : Arr 𝕜 → ℝ → Py (Arr 𝕜))
    (restart : Arr 𝕜 → Arr 𝕜 → Arr 𝕜 → Py Bool) (beta lam : ℝ) (s : FBSt 𝕜) : Py (FBSt 𝕜) := do
  let g ← grad s.zOld
  let y ← sub s.zOld (scale beta g)
  let xNew ← prox y beta
  let d ← sub xNew s.xOld
  let zNew ← add s.xOld (scale lam d)
  let r ← restart s.zOld xNew s.xOld
  .ok (if r then ⟨xNew, xNew⟩ else ⟨xNew, zNew⟩)

/-- `n` updates from `_x_old = _z_old = x` (forward_backward.py:366-367). -/
noncomputable def fbShapeRun (grad : Arr 𝕜 → Py (Arr 𝕜)) (prox : Arr 𝕜 → ℝ → Py (Arr 𝕜))
    (restart : Arr 𝕜 → Arr 𝕜 → Arr 𝕜 → Py Bool) (beta lam : ℕ → ℝ) (x : Arr 𝕜) : ℕ → Py (FBSt 𝕜)
  | 0 => .ok ⟨x, x⟩
  | n + 1 => do
    let s ← fbShapeRun grad prox restart beta lam x n
    fbStep grad prox restart (beta n) (lam n) s

/-! ## `GenForwardBackward` -/

/-- The arrays of a `GenForwardBackward` object. -/
structure GenSt (𝕜 : Type) where
  xOld : Arr 𝕜
  z : List (Arr 𝕜)

/-- The loop over the proximity operators (forward_backward.py:720-727). -/
noncomputable def genLoop (x g : Arr 𝕜) (gamma lam : ℝ) :
    List (Arr 𝕜 → ℝ → Py (Arr 𝕜)) → List (Arr 𝕜) → List ℝ → Py (List (Arr 𝕜))
  | p :: ps, z :: zs, w :: ws => do
    let t ← sub (scale 2 x) z
    let t ← sub t (scale gamma g)
    let v ← p t (gamma / w)
    let d ← sub v x
    let z' ← iadd z (scale lam d)
    let zs' ← genLoop x g gamma lam ps zs ws
    .ok (z' :: zs')
  | _, _, _ => .ok []

/-- `GenForwardBackward._update` (forward_backward.py:708-737).  The auxiliary variables are the rows of one array, so
their shapes agree with the one of `_x_old` (forward_backward.py:640) and their sum over the rows has the same shape. -/
noncomputable def genStep (grad : Arr 𝕜 → Py (Arr 𝕜)) (prox : List (Arr 𝕜 → ℝ → Py (Arr 𝕜))) (w : List ℝ)
    (gamma lam : ℝ) (s : GenSt 𝕜) : Py (GenSt 𝕜) := do
  let g ← grad s.xOld
  let z ← genLoop s.xOld g gamma lam prox s.z w
  let xNew : Arr 𝕜 := ⟨s.xOld.shape, fun i => (List.zipWith (fun (z : Arr 𝕜) (w : ℝ) => (w : 𝕜) * z.val i) z w).sum⟩
  let x ← copyto s.xOld xNew
  .ok ⟨x, z⟩

/-- `n` updates from the constructor's state (forward_backward.py:598, 640). -/
noncomputable def genShapeRun (grad : Arr 𝕜 → Py (Arr 𝕜)) (prox : List (Arr 𝕜 → ℝ → Py (Arr 𝕜))) (w : List ℝ)
    (gamma lam : ℕ → ℝ) (x : Arr 𝕜) : ℕ → Py (GenSt 𝕜)
  | 0 => .ok ⟨x, List.replicate prox.length x⟩
  | n + 1 => do
    let s ← genShapeRun grad prox w gamma lam x n
    genStep grad prox w (gamma n) (lam n) s

/-! ## `POGM` -/

/-- The attributes of a `POGM` object; `xNew` is `_x_new`. -/
structure PogmSt (𝕜 : Type) where
  uOld : Arr 𝕜
  xOld : Arr 𝕜
  yOld : Arr 𝕜
  z : Arr 𝕜
  gOld : Arr 𝕜
  xNew : Arr 𝕜
  xi : ℝ
  sigma : ℝ
  t : ℝ

/-- The second test of `POGM._update` (forward_backward.py:979-980), evaluated only without a restart. -/
def pogmDamp (vdot : Arr 𝕜 → Arr 𝕜 → Py Bool) (restart : Bool) (gNew gOld : Arr 𝕜) : Py Bool :=
  if restart then .ok false else vdot gNew gOld

/-- `POGM._update` (forward_backward.py:926-987); `vdot` is `xp.vdot(·, ·) < 0`, which raises when the numbers of entries
differ. -/
noncomputable def pogmStep (grad : Arr 𝕜 → Py (Arr 𝕜)) (prox : Arr 𝕜 → ℝ → Py (Arr 𝕜))
    (vdot : Arr 𝕜 → Arr 𝕜 → Py Bool) (beta sigmaBar : ℝ) (s : PogmSt 𝕜) : Py (PogmSt 𝕜) := do
  let g ← grad s.xOld
  let uNew ← iadd (scale (-beta) g) s.xOld
  let tNew := 0.5 * (1 + Real.sqrt (1 + 4 * s.t ^ 2))
  let tRatio := (s.t - 1) / tNew
  let sRatio := s.sigma * s.t / tNew
  let bRatio := tRatio * beta / s.xi
  let d ← sub s.xOld s.z
  let z ← iadd (scale (-bRatio) d) uNew
  let d ← sub uNew s.uOld
  let z ← iadd z (scale tRatio d)
  let d ← sub uNew s.xOld
  let z ← iadd z (scale sRatio d)
  let xi := beta * (1 + tRatio + sRatio)
  let xNew ← prox z xi
  let gNew ← sub z xNew
  let gNew ← iadd (scale (1 / xi) gNew) g
  let yNew ← iadd (scale (-beta) gNew) s.xOld
  let d ← sub yNew s.yOld
  let restart ← vdot (scale (-1) gNew) d
  let damp ← pogmDamp vdot restart gNew s.gOld
  let uOld ← copyto s.uOld uNew
  let xOld ← copyto s.xOld xNew
  let gOld ← copyto s.gOld gNew
  let yOld ← copyto s.yOld yNew
  .ok ⟨uOld, xOld, yOld, z, gOld, xNew, xi, if restart then 1 else if damp then s.sigma * sigmaBar else s.sigma,
    if restart then 1 else tNew⟩

/-- `n` updates. -/
noncomputable def pogmShapeRun (grad : Arr 𝕜 → Py (Arr 𝕜)) (prox : Arr 𝕜 → ℝ → Py (Arr 𝕜))
    (vdot : Arr 𝕜 → Arr 𝕜 → Py Bool) (beta sigmaBar : ℝ) (s : PogmSt 𝕜) : ℕ → Py (PogmSt 𝕜)
  | 0 => .ok s
  | n + 1 => do
    let s ← pogmShapeRun grad prox vdot beta sigmaBar s n
    pogmStep grad prox vdot beta sigmaBar s

/-! ## `Condat` -/

/-- The arrays of a `Condat` object; `xNew` is `_x_new`. -/
structure CondatSt (𝕜 𝕜' : Type) where
  xOld : Arr 𝕜
  yOld : Arr 𝕜'
  xNew : Arr 𝕜

/-- `Condat._update` (primal_dual.py:174-211). -/
noncomputable def condatStep {𝕜' : Type} [RCLike 𝕜'] (grad : Arr 𝕜 → Py (Arr 𝕜)) (prox : Arr 𝕜 → ℝ → Py (Arr 𝕜))
    (proxDual : Arr 𝕜' → ℝ → Py (Arr 𝕜')) (op : Arr 𝕜 → Py (Arr 𝕜')) (adj : Arr 𝕜' → Py (Arr 𝕜)) (rho sigma tau : ℝ)
    (s : CondatSt 𝕜 𝕜') : Py (CondatSt 𝕜 𝕜') := do
  let g ← grad s.xOld
  let t ← sub s.xOld (scale tau g)
  let a ← adj s.yOld
  let t ← sub t (scale tau a)
  let xProx ← prox t 1
  let d ← sub (scale 2 xProx) s.xOld
  let v ← op d
  let yTemp ← add s.yOld (scale sigma v)
  let p ← proxDual (scale (1 / sigma) yTemp) (1 / sigma)
  let yProx ← sub yTemp (scale sigma p)
  let xNew ← add (scale rho xProx) (scale (1 - rho) s.xOld)
  let yNew ← add (scale rho yProx) (scale (1 - rho) s.yOld)
  let xOld ← copyto s.xOld xNew
  let yOld ← copyto s.yOld yNew
  .ok ⟨xOld, yOld, xNew⟩

/-- `n` updates. -/
noncomputable def condatShapeRun {𝕜' : Type} [RCLike 𝕜'] (grad : Arr 𝕜 → Py (Arr 𝕜)) (prox : Arr 𝕜 → ℝ → Py (Arr 𝕜))
    (proxDual : Arr 𝕜' → ℝ → Py (Arr 𝕜')) (op : Arr 𝕜 → Py (Arr 𝕜')) (adj : Arr 𝕜' → Py (Arr 𝕜)) (rho sigma tau : ℕ → ℝ)
    (s : CondatSt 𝕜 𝕜') : ℕ → Py (CondatSt 𝕜 𝕜')
  | 0 => .ok s
  | n + 1 => do
    let s ← condatShapeRun grad prox proxDual op adj rho sigma tau s n
    condatStep grad prox proxDual op adj (rho n) (sigma n) (tau n) s

/-! ## Gradient descent -/

/-- `GenericGradOpt._update` (gradient_descent.py:140-154) of `VanillaGenericGradOpt` (step `eta`), with the
regularisation step when the epoch ends. -/
noncomputable def vanillaStep (grad : Arr 𝕜 → Py (Arr 𝕜)) (prox : Arr 𝕜 → ℝ → Py (Arr 𝕜)) (eta : ℝ) (epochEnd : Bool)
    (x : Arr 𝕜) : Py (Arr 𝕜) := do
  let g ← grad x
  let xNew ← sub x (scale eta g)
  if epochEnd then prox xNew eta else .ok xNew

/-- `n` updates. -/
noncomputable def vanillaShapeRun (grad : Arr 𝕜 → Py (Arr 𝕜)) (prox : Arr 𝕜 → ℝ → Py (Arr 𝕜)) (eta : ℕ → ℝ)
    (epochEnd : ℕ → Bool) (x : Arr 𝕜) : ℕ → Py (Arr 𝕜)
  | 0 => .ok x
  | n + 1 => do
    let x ← vanillaShapeRun grad prox eta epochEnd x n
    vanillaStep grad prox (eta n) (epochEnd n) x

end Verif.Nd
