import Verif.Model.Session
import Verif.Model.Crash
import Mathlib.Algebra.Order.Floor.Ring
import Mathlib.Algebra.Order.Archimedean.Real.Basic

/-!
# The five algorithm families as session objects

Each adapter supplies the `_update` method with operators that may raise (`Verif.Model.Crash`), the dictionary
of `get_notify_observers_kwargs`, the arguments of the cost function and the convergence rule.  `New` holds the
attributes `_x_new`, … that do not exist before the first completed update; a failed update leaves them as they
were (simplification: POGM assigns `_u_new` and `_t_new` before a failing proximity operator; they are only read
after a completed update).
-/

namespace Verif.Session
open FB Crash

/-- What a metric can receive: an image-space array, a coefficient-space array, the list of auxiliary
variables, a real array, a number, an index. -/
inductive Val (P C R : Type)
  | primal (x : P)
  | coef (c : C)
  | coefs (l : List C)
  | reals (r : R)
  | num (v : ℝ)
  | index (n : ℕ)

section FB
variable {P E S : Type} [NormedAddCommGroup E] [InnerProductSpace ℝ E]

/-- `ForwardBackward`: `_update` (forward_backward.py:430-465), `get_notify_observers_kwargs`
(forward_backward.py:487-503); the cost function receives `_x_new` (463-465). -/
def fbAlg (grad : E → Py E) (prox : E × ℝ → Py E) (R : Rules S E) (adj : E → Py P) (cost : E → Py ℝ)
    (period : Option ℕ) (clock : ℕ → ℝ) : Alg (St S E) ℝ (Val P E Unit) where
  update _ s := tryFB grad prox R s
  kwargs s :=
    match s.xNew, s.zNew with
    | some x, some z => do
      let a ← adj x
      return [("x_new", .primal a), ("z_new", .coef z)]
    | _, _ => .error .attributeError
  idxVal := .index
  calcCost s := match s.xNew with
    | some x => cost x
    | none => .error .attributeError
  rule := .flagsOrCost
  period := period
  clock := clock

/-- `GenForwardBackward`: `_update` (forward_backward.py:708-744), `get_notify_observers_kwargs`
(forward_backward.py:766-782), with `_x_new` beside the state. -/
noncomputable def genAlg (grad : E → Py E) (prox : List (E × ℝ → Py E)) (w : List ℝ)
    (gu lu : Option (S → ℝ → ℝ × S)) (adj : E → Py P) (cost : E → Py ℝ) (period : Option ℕ) (clock : ℕ → ℝ) :
    Alg (GenSt S E × Option E) ℝ (Val P E Unit) where
  update _ s :=
    match tryGen grad prox w gu lu s.1 with
    | (t, some e) => ((t, s.2), some e)
    | (t, none) => ((t, some t.xOld), none)
  kwargs s :=
    match s.2 with
    | some x => do
      let a ← adj x
      return [("x_new", .primal a), ("z_new", .coefs s.1.z)]
    | none => .error .attributeError
  idxVal := .index
  calcCost s := match s.2 with
    | some x => cost x
    | none => .error .attributeError
  rule := .costOnly
  period := period
  clock := clock

/-- `POGM`: `_update` (forward_backward.py:926-993), `get_notify_observers_kwargs`
(forward_backward.py:1015-1036).  After a completed update `_u_new`, `_x_new`, `_y_new`, `_t_new` equal the
`_old` attributes; the flag records that they exist. -/
noncomputable def pogmAlg (grad : E → Py E) (prox : E × ℝ → Py E) (beta sigmaBar : ℝ) (adj : E → Py P)
    (cost : E → Py ℝ) (period : Option ℕ) (clock : ℕ → ℝ) : Alg (Pogm E × Bool) ℝ (Val P E Unit) where
  update _ s :=
    match tryPogm grad prox beta sigmaBar s.1 with
    | (t, some e) => ((t, s.2), some e)
    | (t, none) => ((t, true), none)
  kwargs s :=
    if s.2 then do
      let a ← adj s.1.xOld
      return [("u_new", .coef s.1.uOld), ("x_new", .primal a), ("y_new", .coef s.1.yOld), ("z_new", .coef s.1.z),
        ("xi", .num s.1.xi), ("sigma", .num s.1.sigma), ("t", .num s.1.t)]
    else .error .attributeError
  idxVal := .index
  calcCost s := if s.2 then cost s.1.xOld else .error .attributeError
  rule := .flagsOrCost
  period := period
  clock := clock

/-- `self.x_final = self._x_new` of `GenForwardBackward` (forward_backward.py:764). -/
def genFinal (s : GenSt S E × Option E) : Py E :=
  match s.2 with
  | some x => .ok x
  | none => .error .attributeError

/-- `self.x_final = self._x_new` of `POGM` (forward_backward.py:1013). -/
def pogmFinal (s : Pogm E × Bool) : Py E := if s.2 then .ok s.1.xOld else .error .attributeError

end FB

section Condat
variable {E H : Type} [NormedAddCommGroup E] [InnerProductSpace ℝ E] [NormedAddCommGroup H]
  [InnerProductSpace ℝ H]

/-- `Condat` without reweighting: `_update` (primal_dual.py:174-220), `get_notify_observers_kwargs`
(primal_dual.py:252-264); the cost function receives `_x_new` and `_y_new` (219). -/
noncomputable def condatAlg (O : CondatOps E H) (U : Condat.Upd) (cost : E → H → Py ℝ) (period : Option ℕ)
    (clock : ℕ → ℝ) : Alg (Condat.St E H × Bool) ℝ (Val E H Unit) where
  update _ s :=
    match tryCondat O U s.1 with
    | (t, some e) => ((t, s.2), some e)
    | (t, none) => ((t, true), none)
  kwargs s :=
    if s.2 then .ok [("x_new", .primal s.1.x), ("y_new", .coef s.1.y)] else .error .attributeError
  idxVal := .index
  calcCost s := if s.2 then cost s.1.x s.1.y else .error .attributeError
  rule := .flagsOrCost
  period := period
  clock := clock

/-- `self.x_final = self._x_new; self.y_final = self._y_new` (primal_dual.py:249-250). -/
def condatFinal (s : Condat.St E H × Bool) : Py (E × H) :=
  if s.2 then .ok (s.1.x, s.1.y) else .error .attributeError

end Condat

section Admm
variable {H V : Type} [NormedAddCommGroup H] [InnerProductSpace ℝ H]

/-- `ADMM`: `_update` (admm.py:153-174), `get_notify_observers_kwargs` (admm.py:196-211). -/
def admmAlg (O : AdmmOps H V) (cost : H → V → Py ℝ) (period : Option ℕ) (clock : ℕ → ℝ) :
    Alg (AdmmSt H V) ℝ (Val H V Unit) where
  update _ s := tryAdmm O s
  kwargs s := .ok [("x_new", .primal s.uNew), ("v_new", .coef s.vNew)]
  idxVal := .index
  calcCost s := cost s.uNew s.vNew
  rule := .flagsThenCost
  period := period
  clock := clock

/-- The state set up by `ADMM.__init__` (admm.py:146-151). -/
def admmInit (u : H) (v : V) (mu : H) : AdmmSt H V := ⟨⟨u, v, mu⟩, u, v, mu⟩

/-- The assignments of `u_final` (also `x_final`) and `v_final` (admm.py:192-194). -/
def admmFinal (s : AdmmSt H V) : Py (H × V) := .ok (s.uNew, s.vNew)

end Admm

section GD
variable {ι 𝕜 : Type} [RCLike 𝕜]

/-- The gradient-descent classes: `_update` (gradient_descent.py:140-161), `get_notify_observers_kwargs`
(gradient_descent.py:196-213). -/
noncomputable def gdAlg (c : GD.Conf ι 𝕜) (grad : (ι → 𝕜) → Py (ι → 𝕜))
    (prox : (ι → 𝕜) × (ι → ℝ) → Py (ι → 𝕜)) (cost : (ι → 𝕜) → Py ℝ) (period : Option ℕ) (clock : ℕ → ℝ) :
    Alg (GD.St ι 𝕜) ℝ (Val (ι → 𝕜) (ι → 𝕜) (ι → ℝ)) where
  update idx s := tryGD c grad prox idx s
  kwargs s := .ok [("x_new", .primal s.xNew), ("dir_grad", .coef s.dir), ("speed_grad", .reals s.speed)]
  idxVal := .index
  calcCost s := cost s.xNew
  rule := .flagsOrCost
  period := period
  clock := clock

/-- `self.x_final = self._x_new` (gradient_descent.py:138). -/
def gdFinal (s : GD.St ι 𝕜) : Py (ι → 𝕜) := .ok s.xNew

end GD

variable {X K V F : Type} [Field K] [LinearOrder K] [IsStrictOrderedRing K] [FloorRing K]

/-- `iterate(max_iter)` with the assignment of the final attributes at its end
(forward_backward.py:467-485, 746-764, 995-1013; primal_dual.py:222-250 without reweighting; admm.py:176-194;
gradient_descent.py:121-138): the object, and the final value or the exception. -/
def iterateFinal (A : Alg X K V) (fin : X → Py F) (m : ℕ) (o : Obj X K V) : Obj X K V × Py F :=
  let q := iterate A m o
  match q.exc with
  | some e => (q.obj, .error e)
  | none => (q.obj, fin q.obj.x)

end Verif.Session
