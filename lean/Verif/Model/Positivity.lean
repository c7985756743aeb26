import Verif.Core.Py
import Verif.Core.Ext

/-!
# Model of `src/modopt/signal/positivity.py`
-/

namespace Verif.Positivity

variable {K : Type} [Field K] [LinearOrder K]

/-- A value met inside an array: a numeric array (its entries in storage order), an array of objects,
or a Python object that is not an array and so has no `dtype` attribute (number, list, ...). -/
inductive NV (K : Type)
  | num (entries : List (Ext K))
  | obj (elems : List (NV K))
  | raw

/-- `pos_thresh` (positivity.py:13-29): `x * (x > 0)`, entry by entry. -/
def posThresh (v : Ext K) : Ext K := v.mulBool v.gtZero

mutual
/-- `pos_recursive` (positivity.py:32-54).  Reading `dtype` of an object without one raises
`AttributeError`.  The re-packing of the results by `np.array(..., dtype="object")` is modelled as the
list of results (numpy additionally merges elements of equal shape into one more array axis). -/
def posRecursive : NV K → Py (NV K)
  | .num l => .ok (.num (l.map posThresh))
  | .obj l => do
    let r ← posRecursiveList l
    .ok (.obj r)
  | .raw => .error .attributeError
/-- The list comprehension of positivity.py:49. -/
def posRecursiveList : List (NV K) → Py (List (NV K))
  | [] => .ok []
  | v :: vs => do
    let r ← posRecursive v
    let rs ← posRecursiveList vs
    .ok (r :: rs)
end

/-- The argument of `positive`: a number, a sequence or array (given by the array `np.array(input)` and
by the array of objects `np.array(input, dtype="object")`), or another type. -/
inductive Input (K : Type)
  | scalar (v : Ext K)
  | seq (asArray asObject : NV K)
  | other

/-- The result of `positive`: a number or an array. -/
inductive Out (K : Type)
  | scalar (v : Ext K)
  | arr (v : NV K)

/-- `positive` (positivity.py:57-111). -/
def positive (inp : Input K) (ragged : Bool) : Py (Out K) :=
  match inp with
  | .other => .error .typeError
  | .scalar v => .ok (.scalar (posThresh v))
  | .seq a o => do
    let r ← posRecursive (if ragged then o else a)
    .ok (.arr r)

/-- The finite value of a number (`0` for the others). -/
def finVal : Ext K → K
  | .fin a => a
  | _ => 0

/-- `Positivity.op` (proximity.py:116-131), `positive(input_data)`, on a numeric array of finite
entries indexed by `ι`; the result of `pos_thresh` on a finite entry is finite. -/
def positivityOp {ι : Type*} (x : ι → K) (i : ι) : K := finVal (posThresh (.fin (x i)))

/-- `Positivity.cost` (proximity.py:133-155). -/
def positivityCost {ι : Type*} (_x : ι → K) : K := 0

end Verif.Positivity
