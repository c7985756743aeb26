import Verif.Core.Py
import Verif.Core.Num
import Mathlib.Algebra.BigOperators.Group.List.Basic

/-!
# Model of `src/modopt/opt/cost.py`

Costs are exact scalars of an ordered field.  Verbose printing and plotting are not modelled.
-/

namespace Verif.Cost

variable {K : Type} [Field K] [LinearOrder K] [IsStrictOrderedRing K] [FloorRing K] {X : Type}

/-- A `CostParent` object (cost.py:75-92). -/
structure CostObj (K : Type) where
  cost : K
  costList : List K
  interval : Option ℤ
  iteration : ℕ
  testList : List K
  testRange : ℤ
  tolerance : K

/-- `CostParent.__init__` (cost.py:75-92). -/
def CostObj.init (initial tolerance : K) (interval : Option ℤ) (testRange : ℤ) : CostObj K where
  cost := initial
  costList := []
  interval := interval
  iteration := 1
  testList := []
  testRange := testRange
  tolerance := tolerance

/-- `xp.mean(xp.array(l), axis=0)`; the mean of an empty array is `nan` (`none`). -/
def mean (l : List K) : Option K := if l = [] then none else some (l.sum / (l.length : K))

/-- The value `cost_diff` (cost.py:125-128): `none` is `nan`.  `nan` rounds to `nan`, which is
truthy. -/
def costDiff (t1 t2 : Option K) : Option K :=
  match t1 with
  | none => none
  | some a =>
    if around 16 a ≠ 0 then
      match t2 with
      | none => none
      | some b => some (|a - b| / |a|)
    else some 0

/-- `_check_cost` (cost.py:94-141); a comparison with `nan` is false. -/
def checkCost (o : CostObj K) : CostObj K × Bool :=
  let tl := o.testList ++ [o.cost]
  if (tl.length : ℤ) = o.testRange then
    let t1 := mean (tl.drop (tl.length / 2))
    let t2 := mean (tl.take (tl.length / 2))
    ({ o with testList := [] },
      match costDiff t1 t2 with
      | none => false
      | some d => decide (d ≤ o.tolerance))
  else ({ o with testList := tl }, false)

/-- `get_cost` (cost.py:157-201), for an arbitrary `_calc_cost`.  Python's `%` is zero exactly on
multiples of the interval (of either sign) and raises for interval zero. Returns the new object and
the value or exception. -/
def getCost (calcF : X → Py K) (o : CostObj K) (x : X) : CostObj K × Py Bool :=
  match o.interval with
  | none => ({ o with iteration := o.iteration + 1 }, .ok false)
  | some I =>
    if I = 0 then (o, .error .zeroDivisionError)
    else if (o.iteration : ℤ) % I ≠ 0 then ({ o with iteration := o.iteration + 1 }, .ok false)
    else
      match calcF x with
      | .error e => (o, .error e)
      | .ok c =>
        let o1 := { o with cost := c, costList := o.costList ++ [c] }
        let (o2, b) := checkCost o1
        ({ o2 with iteration := o2.iteration + 1 }, .ok b)

/-! ## costObj -/

/-- The attribute `cost` of an operator. -/
inductive CostAttr (X K : Type)
  | missing
  | notCallable
  | callable (f : X → Py K)

/-- The `operators` argument of `costObj`. -/
inductive OpsArg (X K : Type)
  | none
  | notSequence
  | seq (ops : List (CostAttr X K))

/-- `_check_operators`, the loop (cost.py:291-294); `check_callable` (types.py:13-32) raises
`TypeError`. -/
def checkOps : List (CostAttr X K) → Py Unit
  | [] => .ok ()
  | .missing :: _ => .error .valueError
  | .notCallable :: _ => .error .typeError
  | .callable _ :: r => checkOps r

/-- `costObj.__init__` with `_check_operators` (cost.py:263-294): the validation. -/
def costObjInit : OpsArg X K → Py Unit
  | .none => .ok ()
  | .notSequence => .error .typeError
  | .seq ops => checkOps ops

/-- Calling `op.cost(x)`. -/
def callCost (x : X) : CostAttr X K → Py K
  | .missing => .error .attributeError
  | .notCallable => .error .typeError
  | .callable f => f x

/-- `_calc_cost` (cost.py:296-314): `np.sum([op.cost(x) for op in operators])`; iterating over `None`
or a non-sequence raises `TypeError`. -/
def calcCost (ops : OpsArg X K) (x : X) : Py K :=
  match ops with
  | .none => .error .typeError
  | .notSequence => .error .typeError
  | .seq l => do
    let cs ← l.mapM (callCost x)
    return cs.sum

end Verif.Cost
