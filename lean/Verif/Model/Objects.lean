import Verif.Model.Types
import Mathlib.Data.Complex.Basic

/-!
# Model of the operator objects: attributes of `GradParent`, `GradBasic`, `ProximityParent` and subclasses

Construction returns the heap as it is left, also when an exception is raised, because the caller's array
outlives the failed constructor.  Verbose printing is not modelled.
-/

namespace Verif.Objects
open Types

/-- An argument that ought to be callable. -/
inductive Arg (F : Type)
  | callable (f : F)
  | notCallable

/-- `check_callable` (types.py:13-32) on such an argument. -/
def Arg.check {F : Type} : Arg F → Py F
  | .callable f => checkCallable true f
  | .notCallable => .error .typeError

/-- The attributes of a gradient object after construction.  `none` is an attribute never assigned. -/
structure Grad (F G C : Type) where
  obs : Val
  op : F
  transOp : F
  getGrad : Option G
  cost : Option C

/-- An optional argument, `None` meaning that the setter is not called (gradient.py:79-82). -/
def checkOptional {F : Type} : Option (Arg F) → Py (Option F)
  | none => .ok none
  | some a => a.check.map some

/-- `GradParent.__init__` (gradient.py:61-82) with its setters (gradient.py:84-109, gradient.py:111-127, gradient.py:143-145,
152-154, 172-174): data, operator, transpose operator, gradient method, cost method, in this order.
An array allocated by a failing data check is unreachable and is left out. -/
def parentInit {F G C : Type} (h : Heap) (v : Val) (dataType : Option DType) (writeable : Bool)
    (op transOp : Arg F) (getGrad : Option (Arg G)) (cost : Option (Arg C)) : Heap × Py (Grad F G C) :=
  match setObsData h v dataType writeable with
  | .error e => (h, .error e)
  | .ok (h', v') =>
    (h', do
      let f ← op.check
      let t ← transOp.check
      let g ← checkOptional getGrad
      let c ← checkOptional cost
      .ok ⟨v', f, t, g, c⟩)

/-- `GradBasic.__init__` (gradient.py:236-239): the parent's constructor, then both methods are replaced by
the class's own. -/
def basicInit {F G C : Type} (ownGrad : G) (ownCost : C) (h : Heap) (v : Val) (dataType : Option DType)
    (writeable : Bool) (op transOp : Arg F) (getGrad : Option (Arg G)) (cost : Option (Arg C)) :
    Heap × Py (Grad F G C) :=
  let r := parentInit h v dataType writeable op transOp getGrad cost
  (r.1, r.2.map fun o => { o with getGrad := some ownGrad, cost := some ownCost })

/-- Reading an attribute that may never have been assigned (gradient.py:147-150, 156-159, 167-170). -/
def getAttr {A : Type} : Option A → Py A
  | none => .error .attributeError
  | some a => .ok a

/-! ## The stored gradient -/

variable {ι κ : Type}

/-- The `grad` setter (gradient.py:161-165) on an array of complex numbers: with a floating data type
`check_float` converts, and `astype(float)` keeps the real parts. -/
def setGrad (floating : Bool) (g : ι → ℂ) : ι → ℂ := if floating then fun i => ((g i).re : ℂ) else g

/-- `GradBasic._get_grad_method` (gradient.py:241-258): the new value of `grad`. -/
def getGradBasic (floating : Bool) (op : (ι → ℂ) → κ → ℂ) (transOp : (κ → ℂ) → ι → ℂ) (y : κ → ℂ)
    (_old : Option (ι → ℂ)) (x : ι → ℂ) : Option (ι → ℂ) :=
  some (setGrad floating (transOp fun k => op x k - y k))

/-! ## Assigning operators later -/

/-- An instance attribute holding an operator. -/
inductive Slot (F : Type)
  | fn (f : F)
  | junk

/-- Assignment to a property whose setter is `check_callable`: `op` and `cost` of `ProximityParent`
(proximity.py:52-78), `op`, `trans_op`, `get_grad`, `cost` of `GradParent` (gradient.py:125-174), `op` and
`adj_op` of `LinearParent` (base.py:36-52).  The new attribute and the outcome. -/
def assign {F : Type} (s : Slot F) (a : Arg F) : Slot F × Py Unit :=
  match a.check with
  | .ok f => (.fn f, .ok ())
  | .error e => (s, .error e)

/-- Assignment to `op` of `Positivity` (proximity.py:101-131): the class defines `op` as a method, which
hides the parent's property, so that an assignment stores any value in the instance. -/
def assignPositivity {F : Type} (_s : Slot F) (a : Arg F) : Slot F × Py Unit :=
  match a with
  | .callable f => (.fn f, .ok ())
  | .notCallable => (.junk, .ok ())

/-- Calling the operator: an object that is not callable raises `TypeError`. -/
def call {X Y : Type} (s : Slot (X → Y)) (x : X) : Py Y :=
  match s with
  | .fn f => .ok (f x)
  | .junk => .error .typeError

/-- `ProximityParent.__init__` (proximity.py:48-50): `op`, then `cost`. -/
def proxInit {F C : Type} (op : Arg F) (cost : Arg C) : Py (Slot F × Slot C) := do
  let f ← op.check
  let c ← cost.check
  .ok (.fn f, .fn c)

end Verif.Objects
