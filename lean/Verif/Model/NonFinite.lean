import Verif.Core.Ext
import Verif.Core.Num
import Verif.Model.ForwardBackward
import Verif.Model.Noise
import Verif.Model.Proximity
import Verif.Model.Cost
import Verif.Model.Positivity
import Verif.Model.Loop

/-!
# Operators, `ForwardBackward` and the cost test on data with infinities and NaN

Entries are `Ext ℝ`: real numbers, `+∞`, `-∞`, NaN.  Finite arithmetic is exact (no rounding, no overflow) and zeros
have no sign.  Weights, matrices and algorithm parameters are finite.  Sums are written as sums over an index type: in
this arithmetic addition is commutative and associative, so the order NumPy adds in does not matter.  Real data only.
-/

namespace Verif

namespace Ext

theorem add_comm' (a b : Ext ℝ) : add a b = add b a := by
  cases a <;> cases b <;> simp [add, _root_.add_comm]

theorem add_assoc' (a b c : Ext ℝ) : add (add a b) c = add a (add b c) := by
  cases a <;> cases b <;> cases c <;> simp [add, _root_.add_assoc]

/-- Addition of array entries, `a + b`. -/
noncomputable instance : Add (Ext ℝ) := ⟨add⟩

/-- Zero. -/
noncomputable instance : Zero (Ext ℝ) := ⟨fin 0⟩

noncomputable instance : AddCommMonoid (Ext ℝ) where
  add_assoc := add_assoc'
  add_comm := add_comm'
  zero_add a := by
    change add (fin 0) a = a
    cases a <;> simp [add]
  add_zero a := by
    change add a (fin 0) = a
    cases a <;> simp [add]
  nsmul := nsmulRec

/-- `a * b` (IEEE: `0 * ∞` is NaN). -/
noncomputable def mul : Ext ℝ → Ext ℝ → Ext ℝ
  | fin a, fin b => fin (a * b)
  | nan, _ => nan
  | _, nan => nan
  | fin a, posInf => infOf a
  | fin a, negInf => neg (infOf a)
  | posInf, fin b => infOf b
  | negInf, fin b => neg (infOf b)
  | posInf, posInf => posInf
  | posInf, negInf => negInf
  | negInf, posInf => negInf
  | negInf, negInf => posInf

/-- `np.abs`. -/
noncomputable def abs : Ext ℝ → Ext ℝ
  | fin a => fin |a|
  | posInf => posInf
  | negInf => posInf
  | nan => nan

/-- `np.maximum`, which propagates NaN. -/
noncomputable def maximum : Ext ℝ → Ext ℝ → Ext ℝ
  | nan, _ => nan
  | _, nan => nan
  | fin a, fin b => fin (max a b)
  | posInf, _ => posInf
  | _, posInf => posInf
  | negInf, b => b
  | a, negInf => a

open Classical in
/-- `a >= b` (IEEE: false when one side is NaN). -/
noncomputable def ge : Ext ℝ → Ext ℝ → Bool
  | nan, _ => false
  | _, nan => false
  | fin a, fin b => decide (a ≥ b)
  | posInf, _ => true
  | _, negInf => true
  | negInf, _ => false
  | _, posInf => false

/-- `np.around(v, decimals=d)`; infinities and NaN are unchanged. -/
noncomputable def aroundX (d : ℕ) : Ext ℝ → Ext ℝ
  | fin a => fin (around d a)
  | v => v

open Classical in
/-- `bool(v)`: everything but zero is true, NaN included. -/
noncomputable def truthy : Ext ℝ → Bool
  | fin a => decide (a ≠ 0)
  | _ => true

end Ext

namespace NF
open Ext

/-! ## Entry-wise operators -/

/-- Soft thresholding of an entry (noise.py:175-180) with a finite threshold. -/
noncomputable def soft (t : ℝ) (x : Ext ℝ) : Ext ℝ :=
  let denominator := maximum (fin Noise.eps64) (abs x)
  let maxValue := maximum (sub (fin 1) (div (fin t) denominator)) (fin 0)
  aroundX 15 (mul maxValue x)

/-- Hard thresholding of an entry (noise.py:182). -/
noncomputable def hard (t : ℝ) (x : Ext ℝ) : Ext ℝ := mulBool x (ge (abs x) (fin t))

/-- An entry of `Ridge.op` (proximity.py:754-773) with the identity as linear operator. -/
noncomputable def ridge (w c : ℝ) (x : Ext ℝ) : Ext ℝ := div x (fin (1 + w * c * 2))

section Arrays
variable {ι κ : Type} [Fintype ι] [Fintype κ]

/-- `SparseThreshold.op` (proximity.py:186-206), soft. -/
noncomputable def softOp (w : ι → ℝ) (x : ι → Ext ℝ) (c : ℝ) (i : ι) : Ext ℝ := soft (w i * c) (x i)

/-- `SparseThreshold.op` (proximity.py:186-206), hard. -/
noncomputable def hardOp (w : ι → ℝ) (x : ι → Ext ℝ) (c : ℝ) (i : ι) : Ext ℝ := hard (w i * c) (x i)

/-- `Ridge.op` (proximity.py:754-773). -/
noncomputable def ridgeOp (w : ι → ℝ) (x : ι → Ext ℝ) (c : ℝ) (i : ι) : Ext ℝ := ridge (w i) c (x i)

/-- `Positivity.op` (proximity.py:116-131) through `pos_thresh` (positivity.py:13-29). -/
noncomputable def posOp (x : ι → Ext ℝ) (_c : ℝ) (i : ι) : Ext ℝ := Positivity.posThresh (x i)

/-- `IdentityProx.op` (proximity.py:95-97). -/
def idOp (x : ι → Ext ℝ) (_c : ℝ) : ι → Ext ℝ := x

/-- `np.linalg.norm(x)`, the square root of the sum of squares. -/
noncomputable def norm (x : ι → Ext ℝ) : Ext ℝ := sqrt (∑ i, mul (x i) (x i))

/-- `GroupLASSO.op` (proximity.py:1383-1408); the first axis is `ι`. -/
noncomputable def groupOp (w : κ → ℝ) (x : ι × κ → Ext ℝ) (c : ℝ) (i : ι × κ) : Ext ℝ :=
  let norm2 := norm fun g => x (g, i.2)
  let denominator := maximum norm2 (fin Prox.eps32)
  mul (x i) (maximum (fin 0) (sub (fin 1) (div (fin (w i.2 * c)) denominator)))

/-! ## Gradients -/

/-- `array @ x` for a finite array (linear/base.py:79-80). -/
noncomputable def matMul (M : κ → ι → ℝ) (x : ι → Ext ℝ) (k : κ) : Ext ℝ := ∑ j, mul (fin (M k j)) (x j)

/-- `GradBasic.get_grad` (gradient.py:241-259) for a dense real `MatrixOperator` (linear/base.py:79-86). -/
noncomputable def matGrad (M : κ → ι → ℝ) (y : κ → Ext ℝ) (x : ι → Ext ℝ) : ι → Ext ℝ :=
  matMul (fun j k => M k j) fun k => sub (matMul M x k) (y k)

/-- `GradBasic.get_grad` (gradient.py:241-259) for the identity operator: denoising. -/
noncomputable def idGrad (y x : ι → Ext ℝ) (i : ι) : Ext ℝ := sub (x i) (y i)

/-- `GradBasic.cost` (gradient.py:261-287), with the operator applied to the point already. -/
noncomputable def fidelity (y hx : κ → Ext ℝ) : Ext ℝ :=
  let r := norm fun k => sub (y k) (hx k)
  mul (fin 0.5) (mul r r)

/-! ## ForwardBackward -/

/-- `FISTA.is_restart` (forward_backward.py:176-224).  The second component of the state is `_delta0`, which may be
infinite or NaN here; the field of the first component is not used. -/
noncomputable def isRestart (s : Fista.Obj × Option (Ext ℝ)) (zOld xNew xOld : ι → Ext ℝ) :
    Bool × Fista.Obj × Option (Ext ℝ) :=
  let crit := ge (∑ i, mul (sub (zOld i) (xNew i)) (sub (xNew i) (xOld i))) (fin 0)
  match s.1.restart with
  | .none => (false, s)
  | .adaptive resetT xi =>
    if crit then
      let mode := match s.1.mode with
        | .regular p q r => .regular p q (r * xi)
        | m => m
      (true, { s.1 with mode := mode, tNow := if resetT then 1 else s.1.tNow }, s.2)
    else (false, s)
  | .greedy _ sg _ =>
    let delta := norm fun i => sub (xNew i) (xOld i)
    match s.2 with
    | none => (crit, s.1, some (mul (fin sg) delta))
    | some d0 => (crit, { s.1 with safeguard := ge delta d0 }, s.2)

/-- The rules set up for `lambda_update="fista"` (forward_backward.py:401-405). -/
noncomputable def fistaRules : FB.Rules (Fista.Obj × Option (Ext ℝ)) (ι → Ext ℝ) where
  betaUpdate := some fun s β => (Fista.updateBeta s.1 β, s)
  lambdaUpdate := some fun s _ => ((Fista.updateLambda s.1).1, (Fista.updateLambda s.1).2, s.2)
  isRestart := isRestart

/-- `ForwardBackward._update` (forward_backward.py:430-459). -/
noncomputable def fbStep {S : Type} (grad : (ι → Ext ℝ) → ι → Ext ℝ) (prox : (ι → Ext ℝ) → ℝ → ι → Ext ℝ)
    (R : FB.Rules S (ι → Ext ℝ)) (s : FB.St S (ι → Ext ℝ)) : FB.St S (ι → Ext ℝ) :=
  let g := grad s.zOld
  let y := fun i => sub (s.zOld i) (mul (fin s.beta) (g i))
  let xNew := prox y s.beta
  let z := fun i => s.xOld i + mul (fin s.lam) (sub (xNew i) (s.xOld i))
  let (restart, r) := R.isRestart s.rules s.zOld xNew s.xOld
  let zNew := if restart then xNew else z
  let (beta, r) := FB.applyUpd R.betaUpdate r s.beta
  let (lam, r) := FB.applyUpd R.lambdaUpdate r s.lam
  { xOld := xNew, zOld := zNew, xNew := some xNew, zNew := some zNew, beta := beta, lam := lam, rules := r }

end Arrays

/-! ## The cost test -/

/-- `xp.mean(xp.array(l), axis=0)` of scalar costs; the mean of an empty array is NaN. -/
noncomputable def mean (l : List (Ext ℝ)) : Ext ℝ := if l = [] then nan else div l.sum (fin (l.length : ℝ))

/-- `cost_diff` (cost.py:125-128). -/
noncomputable def costDiff (t1 t2 : Ext ℝ) : Ext ℝ :=
  if truthy (aroundX 16 t1) then div (abs (sub t1 t2)) (abs t1) else fin 0

/-- `_check_cost` (cost.py:94-141). -/
noncomputable def checkCost (o : Cost.CostObj (Ext ℝ)) : Cost.CostObj (Ext ℝ) × Bool :=
  let tl := o.testList ++ [o.cost]
  if (tl.length : ℤ) = o.testRange then
    let t1 := mean (tl.drop (tl.length / 2))
    let t2 := mean (tl.take (tl.length / 2))
    ({ o with testList := [] }, ge o.tolerance (costDiff t1 t2))
  else ({ o with testList := tl }, false)

/-- `get_cost` (cost.py:157-201). -/
noncomputable def getCost {X : Type} (calcF : X → Py (Ext ℝ)) (o : Cost.CostObj (Ext ℝ)) (x : X) :
    Cost.CostObj (Ext ℝ) × Py Bool :=
  match o.interval with
  | none => ({ o with iteration := o.iteration + 1 }, .ok false)
  | some I =>
    if I = 0 then (o, .error .zeroDivisionError)
    else if (o.iteration : ℤ) % I ≠ 0 then ({ o with iteration := o.iteration + 1 }, .ok false)
    else
      match calcF x with
      | .error e => (o, .error e)
      | .ok c =>
        let o1 := { o with cost := c, costList := o.costList ++ [c] }
        let (o2, b) := checkCost o1
        ({ o2 with iteration := o2.iteration + 1 }, .ok b)

/-- `ForwardBackward` with a cost object and no metrics (forward_backward.py:430-465) as an algorithm of the
iteration driver: `self.converge` is the result of `get_cost` on the new iterate. -/
noncomputable def fbAlg {ι S : Type} (grad : (ι → Ext ℝ) → ι → Ext ℝ) (prox : (ι → Ext ℝ) → ℝ → ι → Ext ℝ)
    (R : FB.Rules S (ι → Ext ℝ)) (calcF : (ι → Ext ℝ) → Py (Ext ℝ)) :
    Loop.Alg (FB.St S (ι → Ext ℝ) × Cost.CostObj (Ext ℝ) × Bool) where
  update _ s :=
    let st := fbStep grad prox R s.1
    match getCost calcF s.2.1 st.xOld with
    | (_, .error e) => .error e
    | (o, .ok b) => .ok (st, o, b)
  computeMetrics _ s := .ok s
  converge s := s.2.2
  hasMetrics := false
  period := none

end NF
end Verif
