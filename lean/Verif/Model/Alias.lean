import Verif.Model.PrimalDual
import Verif.Model.GradDescent
import Verif.Model.Admm

/-!
# Array objects: aliasing and in-place updates in `src/modopt/opt/algorithms`

The other models of the algorithms treat arrays as values.  Here arrays are objects on a heap: attributes hold
references, assignment shares, `copy` allocates, `copyto`, `+=` and item assignment write in place.  Operators are
programs on the heap, which may return a new array, the very array they were given, or an array they keep.

Every right-hand side is one allocation: intermediate results of an expression are not visible to anybody.  All
arrays of a program have values in one space `E` (for algorithms with a primal and a dual variable, a space that
contains both).  Numbers, parameter updates and restart rules are as in the value models.
-/

namespace Verif.Alias
open FB (Rules applyUpd)

/-- A reference to an array object. -/
scoped notation "Ref" => ℕ

/-- The array objects allocated so far, with their contents. -/
abbrev Heap (E : Type) := List E

variable {E : Type}

/-- The contents of an array (references used below are always allocated). -/
def rd [Zero E] (h : Heap E) (r : Ref) : E := h.getD r 0

/-- A new array. -/
def alloc (h : Heap E) (v : E) : Ref × Heap E := (h.length, h ++ [v])

/-- In-place assignment (`copyto`, `+=`, `a[i] = …`). -/
def write (h : Heap E) (r : Ref) (v : E) : Heap E := h.set r v

/-- An operator with one array argument. -/
abbrev HOp (E : Type) := Ref → Heap E → Ref × Heap E

/-- A proximity operator: an array and the extra factor. -/
abbrev HProx (E A : Type) := Ref → A → Heap E → Ref × Heap E

/-- An optimiser of `ADMM`: `init` and `obs`. -/
abbrev HOpt (E : Type) := Ref → Ref → Heap E → Ref × Heap E

section
variable [NormedAddCommGroup E] [InnerProductSpace ℝ E]

/-! ## `ForwardBackward` -/

/-- The attributes of a `ForwardBackward` object; `_x_new` and `_z_new` do not exist at first. -/
structure FbSt (S : Type) where
  xOld : Ref
  zOld : Ref
  xNew : Option Ref
  zNew : Option Ref
  beta : ℝ
  lam : ℝ
  rules : S

/-- The two copies of the initial array (forward_backward.py:365-367, algorithms/base.py:135-156). -/
def fbInit {S : Type} (x : Ref) (beta lam : ℝ) (r : S) (h : Heap E) : FbSt S × Heap E :=
  let (xo, h) := alloc h (rd h x)
  let (zo, h) := alloc h (rd h x)
  (⟨xo, zo, none, none, beta, lam, r⟩, h)

/-- `ForwardBackward._update` (forward_backward.py:430-459). -/
noncomputable def fbStep {S : Type} (G : HOp E) (P : HProx E ℝ) (R : Rules S E) (q : FbSt S × Heap E) :
    FbSt S × Heap E :=
  let s := q.1
  let h := q.2
  let (g, h) := G s.zOld h
  let (y, h) := alloc h (rd h s.zOld - s.beta • rd h g)
  let (xn, h) := P y s.beta h
  let (z, h) := alloc h (rd h s.xOld + s.lam • (rd h xn - rd h s.xOld))
  let (restart, r) := R.isRestart s.rules (rd h s.zOld) (rd h xn) (rd h s.xOld)
  let zn := if restart then xn else z
  let (xo, h) := alloc h (rd h xn)
  let (zo, h) := alloc h (rd h zn)
  let (beta, r) := applyUpd R.betaUpdate r s.beta
  let (lam, r) := applyUpd R.lambdaUpdate r s.lam
  (⟨xo, zo, some xn, some zn, beta, lam, r⟩, h)

/-! ## `GenForwardBackward` -/

/-- The attributes of a `GenForwardBackward` object.  `z` lists the rows of the array `_z`; nobody else holds a
reference to it. -/
structure GenSt (S : Type) where
  xOld : Ref
  z : List Ref
  xNew : Option Ref
  gamma : ℝ
  lam : ℝ
  rules : S

/-- `self.xp.array([self._x_old for …])` (forward_backward.py:640): a new array with copies as rows. -/
def allocRows (v : E) : ℕ → Heap E → List Ref × Heap E
  | 0, h => ([], h)
  | n + 1, h =>
    let (r, h) := alloc h v
    let (rs, h) := allocRows v n h
    (r :: rs, h)

/-- The copy of the initial array and the rows of `_z` (forward_backward.py:597-598, 640). -/
def genInit {S : Type} (x : Ref) (n : ℕ) (gamma lam : ℝ) (r : S) (h : Heap E) : GenSt S × Heap E :=
  let (xo, h) := alloc h (rd h x)
  let (zs, h) := allocRows (rd h xo) n h
  (⟨xo, zs, none, gamma, lam, r⟩, h)

/-- The loop over the proximity operators (forward_backward.py:721-728), writing the rows of `_z` in place. -/
noncomputable def genLoop (xOld g : Ref) (gamma lam : ℝ) : List (HProx E ℝ) → List Ref → List ℝ → Heap E → Heap E
  | P :: Ps, z :: zs, w :: ws, h =>
    let (t, h) := alloc h ((2 : ℝ) • rd h xOld - rd h z - gamma • rd h g)
    let (p, h) := P t (gamma / w) h
    let h := write h z (rd h z + lam • (rd h p - rd h xOld))
    genLoop xOld g gamma lam Ps zs ws h
  | _, _, _, h => h

/-- `GenForwardBackward._update` (forward_backward.py:708-741) with `_update_param`. -/
noncomputable def genStep {S : Type} (G : HOp E) (Ps : List (HProx E ℝ)) (w : List ℝ)
    (gu lu : Option (S → ℝ → ℝ × S)) (q : GenSt S × Heap E) : GenSt S × Heap E :=
  let s := q.1
  let h := q.2
  let (g, h) := G s.xOld h
  let h := genLoop s.xOld g s.gamma s.lam Ps s.z w h
  let (xn, h) := alloc h (List.zipWith (fun z w => (w : ℝ) • rd h z) s.z w).sum
  let h := write h s.xOld (rd h xn)
  let (gamma, r) := applyUpd gu s.rules s.gamma
  let (lam, r) := applyUpd lu r s.lam
  (⟨s.xOld, s.z, some xn, gamma, lam, r⟩, h)

/-! ## `POGM` -/

/-- The attributes of a `POGM` object.  The array `_g_old` is the one the gradient operator returned during
construction. -/
structure PogmSt where
  uOld : Ref
  xOld : Ref
  yOld : Ref
  z : Ref
  gOld : Ref
  xNew : Option Ref
  xi : ℝ
  sigma : ℝ
  t : ℝ

/-- `POGM.__init__` (forward_backward.py:887-890, 913-919). -/
def pogmInit (G : HOp E) (u x y z : Ref) (h : Heap E) : PogmSt × Heap E :=
  let (uo, h) := alloc h (rd h u)
  let (xo, h) := alloc h (rd h x)
  let (yo, h) := alloc h (rd h y)
  let (z, h) := alloc h (rd h z)
  let (g, h) := G xo h
  (⟨uo, xo, yo, z, g, none, 1, 1, 1⟩, h)

open Classical RealInnerProductSpace in
/-- `POGM._update` (forward_backward.py:926-987). -/
noncomputable def pogmStep (G : HOp E) (P : HProx E ℝ) (beta sigmaBar : ℝ) (q : PogmSt × Heap E) :
    PogmSt × Heap E :=
  let s := q.1
  let h := q.2
  let (g, h) := G s.xOld h
  let (u, h) := alloc h (-(beta • rd h g) + rd h s.xOld)
  let tNew := 0.5 * (1 + Real.sqrt (1 + 4 * s.t ^ 2))
  let tRatio := (s.t - 1) / tNew
  let sRatio := s.sigma * s.t / tNew
  let bRatio := tRatio * beta / s.xi
  let (z, h) := alloc h (-(bRatio • (rd h s.xOld - rd h s.z)) + rd h u + tRatio • (rd h u - rd h s.uOld) +
    sRatio • (rd h u - rd h s.xOld))
  let xi := beta * (1 + tRatio + sRatio)
  let (x, h) := P z xi h
  let (gn, h) := alloc h ((1 / xi) • (rd h z - rd h x) + rd h g)
  let (y, h) := alloc h (-(beta • rd h gn) + rd h s.xOld)
  let p : ℝ × ℝ :=
    if ⟪-rd h gn, rd h y - rd h s.yOld⟫ < 0 then (1, 1)
    else if ⟪rd h gn, rd h s.gOld⟫ < 0 then (s.sigma * sigmaBar, tNew)
    else (s.sigma, tNew)
  let h := write h s.uOld (rd h u)
  let h := write h s.xOld (rd h x)
  let h := write h s.gOld (rd h gn)
  let h := write h s.yOld (rd h y)
  (⟨s.uOld, s.xOld, s.yOld, z, s.gOld, some x, xi, p.1, p.2⟩, h)

/-! ## `Condat` -/

/-- The attributes of a `Condat` object. -/
structure CondatSt where
  xOld : Ref
  yOld : Ref
  xNew : Option Ref
  yNew : Option Ref
  rho : ℝ
  sigma : ℝ
  tau : ℝ

/-- The copies of the initial arrays (primal_dual.py:109-110). -/
def condatInit (x y : Ref) (rho sigma tau : ℝ) (h : Heap E) : CondatSt × Heap E :=
  let (xo, h) := alloc h (rd h x)
  let (yo, h) := alloc h (rd h y)
  (⟨xo, yo, none, none, rho, sigma, tau⟩, h)

/-- The operators of a `Condat` object. -/
structure CondatOps (E : Type) where
  grad : HOp E
  prox : HProx E ℝ
  proxDual : HProx E ℝ
  op : HOp E
  adj : HOp E

/-- `Condat._update` (primal_dual.py:174-214). -/
noncomputable def condatStep (O : CondatOps E) (U : Condat.Upd) (q : CondatSt × Heap E) : CondatSt × Heap E :=
  let s := q.1
  let h := q.2
  let (g, h) := O.grad s.xOld h
  let (a, h) := O.adj s.yOld h
  let (t, h) := alloc h (rd h s.xOld - s.tau • rd h g - s.tau • rd h a)
  let (xp, h) := O.prox t 1 h
  let (w, h) := alloc h ((2 : ℝ) • rd h xp - rd h s.xOld)
  let (l, h) := O.op w h
  let (yt, h) := alloc h (rd h s.yOld + s.sigma • rd h l)
  let (v, h) := alloc h ((1 / s.sigma) • rd h yt)
  let (d, h) := O.proxDual v (1 / s.sigma) h
  let (yp, h) := alloc h (rd h yt - s.sigma • rd h d)
  let (xn, h) := alloc h (s.rho • rd h xp + (1 - s.rho) • rd h s.xOld)
  let (yn, h) := alloc h (s.rho • rd h yp + (1 - s.rho) • rd h s.yOld)
  let h := write h s.xOld (rd h xn)
  let h := write h s.yOld (rd h yn)
  (⟨s.xOld, s.yOld, some xn, some yn, Condat.app U.rho s.rho, Condat.app U.sigma s.sigma,
    Condat.app U.tau s.tau⟩, h)

/-! ## `ADMM` and `FastADMM` -/

/-- The problem of an `ADMM` object: the optimisers and operators, and the array `b`, which is not copied
(admm.py:131-138). -/
structure AdmmOps (E : Type) where
  optH : HOpt E
  optG : HOpt E
  A : HOp E
  B : HOp E
  b : Ref

/-- The attributes of an `ADMM` object. -/
structure AdmmSt where
  uOld : Ref
  uNew : Ref
  vOld : Ref
  vNew : Ref
  muOld : Ref
  muNew : Ref

/-- The copies of the initial arrays (admm.py:145-151). -/
def admmInit (u v mu : Ref) (h : Heap E) : AdmmSt × Heap E :=
  let (uo, h) := alloc h (rd h u)
  let (un, h) := alloc h (rd h u)
  let (vo, h) := alloc h (rd h v)
  let (vn, h) := alloc h (rd h v)
  let (mn, h) := alloc h (rd h mu)
  let (mo, h) := alloc h (rd h mu)
  (⟨uo, un, vo, vn, mo, mn⟩, h)

/-- `ADMM._update` (admm.py:153-169). -/
noncomputable def admmStep (O : AdmmOps E) (q : AdmmSt × Heap E) : AdmmSt × Heap E :=
  let s := q.1
  let h := q.2
  let (bv, h) := O.B s.vOld h
  let (ob, h) := alloc h (rd h bv + rd h s.uOld - rd h O.b)
  let (u, h) := O.optH s.uOld ob h
  let (tmp, h) := O.A u h
  let (ob, h) := alloc h (rd h tmp + rd h s.uOld - rd h O.b)
  let (v, h) := O.optG s.vOld ob h
  let (bv, h) := O.B v h
  let (mu, h) := alloc h (rd h s.muOld + (rd h tmp + rd h bv - rd h O.b))
  let (uo, h) := alloc h (rd h u)
  let (vo, h) := alloc h (rd h v)
  let (mo, h) := alloc h (rd h mu)
  (⟨uo, u, vo, v, mo, mu⟩, h)

/-- The attributes of a `FastADMM` object. -/
structure FastSt where
  uOld : Ref
  uNew : Ref
  vOld : Ref
  vNew : Ref
  muOld : Ref
  muNew : Ref
  vHat : Ref
  muHat : Ref
  cOld : Option ℝ
  cNew : Option ℝ
  alphaOld : ℝ
  alphaNew : ℝ
  eta : ℝ
  tau : ℝ

/-- `FastADMM.__init__` (admm.py:269-301): the parent constructor gets `v=b` and keeps its default `tau`. -/
def fastInit (O : AdmmOps E) (u _v mu : Ref) (alpha eta _tau : ℝ) (h : Heap E) : FastSt × Heap E :=
  let (s, h) := admmInit u O.b mu h
  let (vh, h) := alloc h (rd h s.vNew)
  let (mh, h) := alloc h (rd h s.muNew)
  (⟨s.uOld, s.uNew, s.vOld, s.vNew, s.muOld, s.muNew, vh, mh, none, some 0, alpha, alpha, eta, 1⟩, h)

/-- `FastADMM._update` (admm.py:303-336) without the convergence test.  In the rejecting branch the extrapolated
variables become the objects `_v_old` and `_mu_old`, which are overwritten three lines later. -/
noncomputable def fastStep (O : AdmmOps E) (q : FastSt × Heap E) : Py (FastSt × Heap E) :=
  let s := q.1
  let h := q.2
  let (bv, h) := O.B s.vHat h
  let (ob, h) := alloc h (rd h bv + rd h s.uOld - rd h O.b)
  let (u, h) := O.optH s.uOld ob h
  let (tmp, h) := O.A u h
  let (ob, h) := alloc h (rd h tmp + rd h s.uOld - rd h O.b)
  let (v, h) := O.optG s.vHat ob h
  let (bv, h) := O.B v h
  let (mu, h) := alloc h (rd h s.muHat + (rd h tmp + rd h bv - rd h O.b))
  let (dv, h) := alloc h (rd h v - rd h s.vHat)
  let (bd, h) := O.B dv h
  let c := ‖rd h mu - rd h s.muHat‖ + s.tau * ‖rd h bd‖
  let finish (vh mh : Ref) (cNew : Option ℝ) (alphaNew : ℝ) (h : Heap E) : FastSt × Heap E :=
    let h := write h s.uOld (rd h u)
    let h := write h s.vOld (rd h v)
    let h := write h s.muOld (rd h mu)
    (⟨s.uOld, u, s.vOld, v, s.muOld, mu, vh, mh, s.cOld, cNew, s.alphaOld, alphaNew, s.eta, s.tau⟩, h)
  if Admm.below c s.eta s.cOld then
    let alphaNew := 1 + Real.sqrt (1 + 4 * s.alphaOld ^ 2)
    let beta := (alphaNew - 1) / s.alphaOld
    let (vh, h) := alloc h (rd h v + beta • (rd h v - rd h s.vOld))
    let (mh, h) := alloc h (rd h mu + beta • (rd h mu - rd h s.muOld))
    .ok (finish vh mh (some c) alphaNew h)
  else if s.eta = 0 then .error .zeroDivisionError
  else .ok (finish s.vOld s.muOld (s.cOld.map (· / s.eta)) 1 h)

end

/-! ## The gradient descent family -/

section
variable {ι 𝕜 : Type} [RCLike 𝕜]

/-- The attributes of a gradient descent object.  `_speed_grad` and `_grad_memory` are values: the first is replaced
or updated without being read through another name, the second is never handed out. -/
structure GdSt (ι 𝕜 : Type) where
  xOld : Ref
  xNew : Ref
  dir : Ref
  speed : ι → ℝ
  eta : ℝ
  betaPow : ℝ
  gammaPow : ℝ
  memory : ℕ → ι → 𝕜

/-- The values of the attributes. -/
def gdValue (q : GdSt ι 𝕜 × Heap (ι → 𝕜)) : GD.St ι 𝕜 :=
  ⟨rd q.2 q.1.xOld, rd q.2 q.1.xNew, rd q.2 q.1.dir, q.1.speed, q.1.eta, q.1.betaPow, q.1.gammaPow, q.1.memory⟩

/-- The new arrays of the constructor (gradient_descent.py:96-99). -/
def gdInit (k : GD.Kind) (x : Ref) (eta : ℝ) (h : Heap (ι → 𝕜)) : GdSt ι 𝕜 × Heap (ι → 𝕜) :=
  let (xo, h) := alloc h (rd h x)
  let (xn, h) := alloc h (rd h x)
  let (d, h) := alloc h (fun _ => 0)
  (⟨xo, xn, d, GD.initSpeed k, eta, 1, 1, fun _ _ => 0⟩, h)

/-- The array `_dir_grad` after `_update_grad_dir`: the gradient array itself for the classes that do not override
the method (gradient_descent.py:163-172), a new array for the others (gradient_descent.py:355-364, 414-420, 453-464). -/
noncomputable def gdDir (k : GD.Kind) (g : Ref) (v : ι → 𝕜) (h : Heap (ι → 𝕜)) : Ref × Heap (ι → 𝕜) :=
  match k with
  | .momentum _ | .adam _ _ | .saga => alloc h v
  | _ => (g, h)

/-- `reset` (gradient_descent.py:227-229, 366-368): `MomentumGradOpt` allocates zeros. -/
noncomputable def gdReset (k : GD.Kind) (d : Ref) (h : Heap (ι → 𝕜)) : Ref × Heap (ι → 𝕜) :=
  match k with
  | .momentum _ => alloc h (fun _ => 0)
  | _ => (d, h)

/-- `GenericGradOpt._update` (gradient_descent.py:140-156): the new direction, speed and memory are computed by
the class's methods as in the value model; `P` is the proximity operator of the configuration. -/
noncomputable def gdStep (c : GD.Conf ι 𝕜) (P : HProx (ι → 𝕜) (ι → ℝ)) (idx : ℕ) (G : HOp (ι → 𝕜))
    (q : GdSt ι 𝕜 × Heap (ι → 𝕜)) : Py (GdSt ι 𝕜 × Heap (ι → 𝕜)) :=
  if c.epochSize = 0 then .error .zeroDivisionError
  else
    let s := q.1
    let h := q.2
    let (g, h) := G s.xOld h
    let m := GD.updateDir c idx (rd h g) (gdValue (s, h))
    let (d, h) := gdDir c.kind g m.dir h
    let m := GD.updateSpeed c (rd h g) m
    let step := GD.stepOf c m
    let (xn, h) := alloc h (fun i => rd h s.xOld i - (step i : 𝕜) * rd h d i)
    let (d, xn, h) : Ref × Ref × Heap (ι → 𝕜) :=
      if idx % c.epochSize = 0 then
        let (d, h) := gdReset c.kind d h
        let (xn, h) := P xn step h
        (d, xn, h)
      else (d, xn, h)
    let (xo, h) := alloc h (rd h xn)
    let eta := match c.etaUpdate with
      | none => m.eta
      | some f => f m.eta idx
    .ok (⟨xo, xn, d, m.speed, eta, m.betaPow, m.gammaPow, m.memory⟩, h)

end

end Verif.Alias
