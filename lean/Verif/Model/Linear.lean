import Verif.Core.Py
import Verif.Model.Proximity
import Mathlib.Analysis.RCLike.Basic
import Mathlib.Algebra.Module.BigOperators

/-!
# Model of `src/modopt/opt/linear/base.py` and of `GradBasic` (`src/modopt/opt/gradient.py`)
-/

namespace Verif.Linear
open Prox

section Matrix
variable {m n : Type*} [Fintype m] [Fintype n] {𝕜 : Type*} [RCLike 𝕜]

/-- `MatrixOperator.op` (linear/base.py:80): `array @ x`. -/
def matOp (a : m → n → 𝕜) (x : n → 𝕜) (i : m) : 𝕜 := ∑ j, a i j * x j

open Classical in
/-- `MatrixOperator.adj_op` (linear/base.py:81-86): the conjugate is taken only if some entry has a
non-zero imaginary part. -/
noncomputable def matAdjOp (a : m → n → 𝕜) (y : m → 𝕜) (j : n) : 𝕜 :=
  if ∃ i j, RCLike.im (a i j) ≠ 0 then ∑ i, starRingEnd 𝕜 (a i j) * y i else ∑ i, a i j * y i

end Matrix

/-- `Identity` (linear/base.py:55-69). -/
def identityLin {A : Type*} : LinObj A A where
  op x := x
  adjOp x := x

section Combo
variable {A B : Type} [AddCommGroup A] [Module ℝ A]

/-- What the constructor of `LinearCombo` sees of an element of the operator list. -/
structure Candidate (A B : Type) where
  hasOp : Bool
  hasAdj : Bool
  opCallable : Bool
  adjCallable : Bool
  obj : LinObj A B

/-- A constructor argument: a list, tuple or array, or something else. -/
inductive Arg (α : Type)
  | seq (l : List α)
  | other

/-- `LinearCombo._check_type` (linear/base.py:132-166). -/
def checkType {α : Type} : Arg α → Py (List α)
  | .other => .error .typeError
  | .seq l => if l.length = 0 then .error .valueError else .ok l

/-- The loop over the operators in `_check_inputs` (linear/base.py:194-202). -/
def checkEach : List (Candidate A B) → Py (List (LinObj A B))
  | [] => .ok []
  | a :: l =>
    if !a.hasOp then .error .valueError
    else if !a.hasAdj then .error .valueError
    else if !a.opCallable then .error .typeError
    else if !a.adjCallable then .error .typeError
    else do
      let r ← checkEach l
      .ok (a.obj :: r)

/-- `LinearCombo.__init__` and `_check_inputs` (linear/base.py:125-217); `floatWeights` tells whether the
weights have a floating element type. -/
def comboInit (operators : Arg (Candidate A B)) (weights : Option (Arg ℝ)) (floatWeights : Bool) :
    Py (List (LinObj A B) × Option (List ℝ)) := do
  let l ← checkType operators
  let ops ← checkEach l
  match weights with
  | none => .ok (ops, none)
  | some w => do
    let w ← checkType w
    if w.length ≠ l.length then .error .valueError
    else if !floatWeights then .error .typeError
    else .ok (ops, some w)

/-- `LinearCombo.op` (linear/base.py:219-240). -/
def comboOp (ops : List (LinObj A B)) (x : A) : List B := ops.map fun o => o.op x

/-- `LinearCombo.adj_op` (linear/base.py:242-279): without weights the mean over the pairs formed by
`zip`, with weights the weighted sum over the triples. -/
noncomputable def comboAdjOp (ops : List (LinObj A B)) (weights : Option (List ℝ)) (data : List B) : A :=
  match weights with
  | none =>
    let l := List.zipWith (fun (o : LinObj A B) e => o.adjOp e) ops data
    (l.length : ℝ)⁻¹ • l.sum
  | some w => (List.zipWith (fun (ω : ℝ) v => ω • v) w
      (List.zipWith (fun (o : LinObj A B) e => o.adjOp e) ops data)).sum

end Combo

section Grad
variable {E F : Type*} [NormedAddCommGroup E] [NormedAddCommGroup F]

/-- `GradBasic.get_grad` (gradient.py:241-259): `trans_op(op(x) - y)`. -/
def gradBasic (op : E → F) (transOp : F → E) (y : F) (x : E) : E := transOp (op x - y)

/-- `GradBasic.cost` (gradient.py:261-285): `0.5 * norm(y - op(x)) ** 2`. -/
noncomputable def gradCost (op : E → F) (y : F) (x : E) : ℝ := 0.5 * ‖y - op x‖ ^ 2

/-- `GradParent.trans_op_op` (gradient.py:176-202). -/
def transOpOp (op : E → F) (transOp : F → E) (x : E) : E := transOp (op x)

end Grad

end Verif.Linear
